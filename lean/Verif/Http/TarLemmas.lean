import Verif.Http.Tar
import Verif.Unixfs.WalkLemmas

/-!
# Lemmas about the tar stream
-/

namespace Verif.Http

open Verif Verif.Unixfs

theorem octalField_length (w v : Nat) : (octalField w v).length = w := by
  induction w generalizing v with
  | zero => rfl
  | succ w ih => simp [octalField, ih]

theorem octalInto_length (dst : Bytes) (v : Nat) : (octalInto dst v).length = dst.length := by
  simp only [octalInto, List.length_append, octalField_length, List.length_drop]; omega

theorem octalInto_zero (a : Bytes) (v : Nat) : octalInto (a ++ [0]) v = octalField a.length v ++ [0] := by
  simp [octalInto]

/-- A field with a zero at the end. -/
def NumField (w : Nat) (b : Bytes) : Prop := ∃ a, b = a ++ [0] ∧ a.length = w

theorem NumField.length {w : Nat} {b : Bytes} (h : NumField w b) : b.length = w + 1 := by
  obtain ⟨a, rfl, rfl⟩ := h; simp

theorem NumField.octal {w : Nat} {b : Bytes} (h : NumField w b) (v : Nat) : octalInto b v = octalField w v ++ [0] := by
  obtain ⟨a, rfl, rfl⟩ := h; exact octalInto_zero a v

theorem NumField.mk (w v : Nat) : NumField w (octalField w v ++ [0]) := ⟨_, rfl, octalField_length w v⟩

theorem NumField.numeric {b : Bytes} (h : NumField 11 b) {v : Nat} (hv : v < 2 ^ 33) :
    numericInto b v = octalField 11 v ++ [0] := by
  unfold numericInto
  rw [if_neg, h.octal]
  rintro (h1 | ⟨_, h2⟩)
  · omega
  · rw [h.length] at h2; omega

/-- The header that is used again. -/
structure HdrOk (h : TarHeader) : Prop where
  name : h.name.length = 100
  mode : NumField 7 h.mode
  uid : h.uid.length = 8
  gid : h.gid.length = 8
  size : NumField 11 h.size
  mtime : NumField 11 h.mtime
  cksum : NumField 7 h.cksum
  linkname : h.linkname.length = 100

theorem HdrOk.length {h : TarHeader} (o : HdrOk h) : h.toBytes.length = 512 := by
  simp only [TarHeader.toBytes, List.length_append, o.name, o.mode.length, o.uid, o.gid, o.size.length, o.mtime.length,
    o.cksum.length, o.linkname, gnuMagic, List.length_replicate, List.length_cons, List.length_nil]

theorem newHeader_ok : HdrOk newHeader where
  name := by simp [newHeader]
  mode := ⟨List.replicate 7 0, rfl, rfl⟩
  uid := by decide +kernel
  gid := by decide +kernel
  size := ⟨List.replicate 11 0, rfl, rfl⟩
  mtime := ⟨List.replicate 11 48, by decide +kernel, rfl⟩
  cksum := ⟨List.replicate 7 0, rfl, rfl⟩
  linkname := by simp [newHeader]

theorem newLongHeader_ok : HdrOk newLongHeader where
  name := by decide +kernel
  mode := ⟨octalField 7 0o644, by decide +kernel, rfl⟩
  uid := newHeader_ok.uid
  gid := newHeader_ok.gid
  size := newHeader_ok.size
  mtime := newHeader_ok.mtime
  cksum := newHeader_ok.cksum
  linkname := newHeader_ok.linkname

theorem setCksum_ok {h : TarHeader} (o : HdrOk h) : HdrOk h.setCksum :=
  { o with cksum := by unfold TarHeader.setCksum; rw [o.cksum.octal]; exact .mk _ _ }

theorem sumBytes_le (b : Bytes) : sumBytes b ≤ 255 * b.length := by
  induction b with
  | nil => simp [sumBytes]
  | cons c b ih =>
    have := UInt8.toNat_lt c
    simp only [sumBytes, List.map_cons, List.sum_cons, List.length_cons] at ih ⊢
    omega

theorem HdrOk.sum_lt {h : TarHeader} (o : HdrOk h) : h.sum < 8 ^ 7 := by
  unfold TarHeader.sum
  have h1 := sumBytes_le { h with cksum := List.replicate 8 32 }.toBytes
  have h2 : ({ h with cksum := List.replicate 8 32 } : TarHeader).toBytes.length = 512 := by
    simp only [TarHeader.toBytes, List.length_append, o.name, o.mode.length, o.uid, o.gid, o.size.length, o.mtime.length,
      o.linkname, gnuMagic, List.length_replicate, List.length_cons, List.length_nil]
  omega

/-! ## Copying paths -/

theorem copyInto_some {slot p : Bytes} (hl : p.length ≤ slot.length) (h0 : 0 ∉ p) :
    ∃ t, copyInto slot p = some (p ++ t) ∧ p.length + t.length = slot.length ∧ (t = [] ∨ t.head? = some 0) := by
  unfold copyInto
  rw [if_neg (by omega), if_neg (by simpa using h0)]
  split
  · exact ⟨_, rfl, by simp only [List.length_cons, List.length_drop]; omega, Or.inr rfl⟩
  · exact ⟨[], by simp, by simp; omega, Or.inl rfl⟩

theorem copyPieces_fits {slot : Bytes} {ps : List Bytes} (h0 : ∀ p ∈ ps, 0 ∉ p) (hl : ps.flatten.length ≤ slot.length)
    (hs : ps ≠ [] ∨ slot = [] ∨ slot.head? = some 0) :
    ∃ t, copyPieces slot (ps.map some) = (ps.flatten ++ t, true) ∧ ps.flatten.length + t.length = slot.length ∧
      (t = [] ∨ t.head? = some 0) := by
  induction ps generalizing slot with
  | nil =>
    rcases hs with hs | hs
    · exact absurd rfl hs
    · exact ⟨slot, by simp [copyPieces], by simp, hs⟩
  | cons p ps ih =>
    simp only [List.flatten_cons, List.length_append] at hl
    obtain ⟨t, h1, h2, h3⟩ := copyInto_some (slot := slot) (p := p) (by omega) (h0 p List.mem_cons_self)
    obtain ⟨u, u1, u2, u3⟩ := ih (slot := t) (fun x hx => h0 x (List.mem_cons_of_mem _ hx)) (by omega) (Or.inr h3)
    refine ⟨u, ?_, ?_, u3⟩
    · simp [copyPieces, h1, u1]
    · simp only [List.flatten_cons, List.length_append]; omega

theorem copyPieces_length (slot : Bytes) (ps : List (Option Bytes)) : (copyPieces slot ps).1.length = slot.length := by
  induction ps generalizing slot with
  | nil => rfl
  | cons p ps ih =>
    cases p with
    | none => rfl
    | some p =>
      rw [copyPieces]
      cases hc : copyInto slot p with
      | none => rfl
      | some s =>
        have hs : p.length ≤ slot.length ∧ s.length = slot.length := by
          unfold copyInto at hc
          split at hc
          · cases hc
          split at hc
          · cases hc
          split at hc
          · cases hc
            refine ⟨by omega, ?_⟩
            simp only [List.length_append, List.length_cons, List.length_drop]; omega
          · cases hc
            exact ⟨by omega, by omega⟩
        simp only [List.length_append, List.length_take, ih, List.length_drop]
        omega

theorem copyPieces_long {slot : Bytes} {ps : List Bytes} (hl : slot.length < ps.flatten.length) :
    (copyPieces slot (ps.map some)).2 = false := by
  induction ps generalizing slot with
  | nil => simp at hl
  | cons p ps ih =>
    simp only [List.flatten_cons, List.length_append] at hl
    rw [List.map_cons, copyPieces]
    cases hc : copyInto slot p with
    | none => rfl
    | some s =>
      simp only
      apply ih
      unfold copyInto at hc
      split at hc
      · cases hc
      split at hc
      · cases hc
      split at hc
      · cases hc
        simp only [List.drop_left', List.length_cons, List.length_drop]; omega
      · cases hc
        simp only [List.drop_length, List.length_nil]; omega

/-! ## Components -/

theorem split_weight (p : Bytes) : ((splitSlash p).map (fun x => x.length + 1)).sum = p.length + 1 := by
  have key : ∀ l : List Bytes, l ≠ [] → (l.map (fun x => x.length + 1)).sum = (joinSlash l).length + 1 := by
    intro l
    induction l with
    | nil => intro h; exact absurd rfl h
    | cons x xs ih =>
      intro _
      cases xs with
      | nil => simp [joinSlash]
      | cons y ys =>
        have := ih (by simp)
        simp only [List.map_cons, List.sum_cons, joinSlash, List.length_append, List.length_cons] at this ⊢
        omega
  rw [key _ (splitSlash_ne_nil p), join_splitSlash]

theorem join_weight {l : List Bytes} (h : l ≠ []) : (joinSlash l).length + 1 = (l.map (fun x => x.length + 1)).sum := by
  induction l with
  | nil => exact absurd rfl h
  | cons x xs ih =>
    cases xs with
    | nil => simp [joinSlash]
    | cons y ys =>
      have := ih (by simp)
      simp only [List.map_cons, List.sum_cons, joinSlash, List.length_append, List.length_cons] at this ⊢
      omega

theorem filter_weight (f : Bytes → Bool) (l : List Bytes) :
    ((l.filter f).map (fun x => x.length + 1)).sum ≤ (l.map (fun x => x.length + 1)).sum := by
  induction l with
  | nil => simp
  | cons x xs ih =>
    rw [List.filter_cons]
    split <;> simp only [List.map_cons, List.sum_cons] <;> omega

theorem split_slash_end {p : Bytes} (h : p.getLast? = some 47) : ∃ l, l ≠ [] ∧ splitSlash p = l ++ [[]] := by
  have hne : p ≠ [] := by rintro rfl; cases h
  have hl := List.dropLast_concat_getLast hne
  rw [List.getLast?_eq_some_getLast hne] at h
  injection h with h
  rw [h] at hl
  refine ⟨splitSlash p.dropLast, splitSlash_ne_nil _, ?_⟩
  conv => lhs; rw [← hl]
  exact splitSlash_append' p.dropLast []

/-- The mark of a directory at the end. -/
def endSlash (p : Bytes) : Bytes := if p.getLast? = some 47 then [47] else []

theorem keep_weight {p : Bytes} {s : Bytes} {ss : List Bytes} (h : splitSlash p = s :: ss) :
    s.length + ((ss.filter (fun c => !isJunk c)).map (fun x => x.length + 1)).sum + (endSlash p).length ≤ p.length := by
  have hw := split_weight p
  by_cases he : p.getLast? = some 47
  · obtain ⟨l, hl, hs⟩ := split_slash_end he
    cases l with
    | nil => exact absurd rfl hl
    | cons y ys =>
      rw [h] at hs hw
      simp only [List.cons_append, List.cons.injEq] at hs
      obtain ⟨rfl, rfl⟩ := hs
      have := filter_weight (fun c => !isJunk c) ys
      simp only [List.map_cons, List.map_append, List.sum_cons, List.sum_append, List.map_nil, List.sum_nil,
        List.length_nil] at hw
      simp only [endSlash, he, if_true, List.length_singleton, List.filter_append, List.map_append, List.sum_append]
      simp [isJunk] at this ⊢
      omega
  · rw [h] at hw
    have := filter_weight (fun c => !isJunk c) ss
    simp only [List.map_cons, List.sum_cons] at hw
    simp only [endSlash, he, if_false, List.length_nil]
    omega

/-! ## Pieces -/

theorem pieces_named (isLink single : Bool) {ns : List Bytes} (h : ∀ n ∈ ns, n ≠ [46, 46]) :
    pathPieces isLink single true (ns.map Comp.ofSegment) = (ns.flatMap (fun n => [[47], n])).map some := by
  induction ns with
  | nil => rfl
  | cons n ns ih =>
    have hn := h n List.mem_cons_self
    have ho : Comp.ofSegment n = .normal n := by simp [Comp.ofSegment, hn]
    rw [List.map_cons, ho]
    simp [pathPieces, Comp.bytes, ih (fun x hx => h x (List.mem_cons_of_mem _ hx))]

theorem pieces_link (single : Bool) {cs : List Comp} (h : ∀ c ∈ cs, c ≠ .rootDir) :
    pathPieces true single true cs = (cs.flatMap (fun c => [[47], c.bytes])).map some := by
  induction cs with
  | nil => rfl
  | cons c cs ih =>
    have ih := ih (fun x hx => h x (List.mem_cons_of_mem _ hx))
    cases c with
    | rootDir => exact absurd rfl (h _ List.mem_cons_self)
    | _ => simp [pathPieces, Comp.bytes, ih]

theorem flat_join (n : Bytes) (ns : List Bytes) :
    (n :: ns.flatMap (fun n => [[47], n])).flatten = joinSlash (n :: ns) := by
  induction ns generalizing n with
  | nil => simp [joinSlash]
  | cons x xs ih =>
    have := ih x
    simp only [List.flatMap_cons, List.flatten_cons, List.cons_append, joinSlash, List.nil_append] at this ⊢
    rw [this]

theorem components_relative {p s : Bytes} {ss : List Bytes} (h : splitSlash p = s :: ss) (h0 : s ≠ []) (h1 : s ≠ [46]) :
    components p = (s :: ss.filter (fun c => !isJunk c)).map Comp.ofSegment := by
  unfold components
  rw [h]
  simp [h0, h1]

theorem mem_split {p s : Bytes} (h : s ∈ splitSlash p) : ∀ c ∈ s, c ∈ p := by
  have key : ∀ l : List Bytes, ∀ s ∈ l, ∀ c ∈ s, c ∈ joinSlash l := by
    intro l
    induction l with
    | nil => intro s hs; cases hs
    | cons x xs ih =>
      intro s hs c hc
      cases xs with
      | nil => rw [List.mem_singleton] at hs; subst hs; simpa [joinSlash] using hc
      | cons y ys =>
        rw [joinSlash]
        rcases List.mem_cons.mp hs with rfl | hs
        · simp [hc]
        · have := ih s hs c hc
          simp [this]
  intro c hc
  have := key _ s h c hc
  rwa [join_splitSlash] at this

theorem copyPath_pieces {slot p : Bytes} {isLink : Bool} {ps : List Bytes} (hne : ps ≠ [])
    (h : pathPieces isLink ((components p).length = 1) false (components p) = ps.map some) (hz : ∀ x ∈ ps, 0 ∉ x) :
    ((ps.flatten ++ endSlash p).length ≤ slot.length → ∃ t, copyPathInto slot p isLink = (ps.flatten ++ endSlash p ++ t, true) ∧
      (ps.flatten ++ endSlash p ++ t).length = slot.length ∧ (t = [] ∨ t.head? = some 0)) ∧
    (slot.length < (ps.flatten ++ endSlash p).length → (copyPathInto slot p isLink).2 = false) := by
  have hc : copyPathInto slot p isLink = copyPieces slot ((ps ++ (if p.getLast? = some 47 then [[47]] else [])).map some) := by
    unfold copyPathInto
    simp only
    rw [h, if_neg (by simpa using hne)]
    split <;> simp
  have hf : (ps ++ (if p.getLast? = some 47 then [[47]] else [])).flatten = ps.flatten ++ endSlash p := by
    unfold endSlash
    split <;> simp
  rw [hc]
  constructor
  · intro hl
    obtain ⟨t, h1, h2, h3⟩ := copyPieces_fits (slot := slot) (ps := ps ++ (if p.getLast? = some 47 then [[47]] else []))
      (by
        intro x hx
        rcases List.mem_append.mp hx with hx | hx
        · exact hz x hx
        · split at hx
          · rw [List.mem_singleton] at hx; subst hx; decide
          · cases hx) (by rw [hf]; exact hl) (Or.inl (by simp [hne]))
    rw [hf] at h1 h2
    exact ⟨t, h1, by rw [List.length_append]; exact h2, h3⟩
  · intro hl
    exact copyPieces_long (by rw [hf]; exact hl)

/-- What becomes of a path that names no parent. -/
theorem copyPath_relative {slot p s : Bytes} {ss : List Bytes} (h : splitSlash p = s :: ss) (h0 : s ≠ []) (h1 : s ≠ [46])
    (hp : ∀ x ∈ s :: ss, x ≠ [46, 46]) (hz : 0 ∉ p) :
    (p.length ≤ slot.length → ∃ t, copyPathInto slot p false =
      (joinSlash (s :: ss.filter (fun c => !isJunk c)) ++ endSlash p ++ t, true) ∧
      (joinSlash (s :: ss.filter (fun c => !isJunk c)) ++ endSlash p ++ t).length = slot.length ∧
      (t = [] ∨ t.head? = some 0)) ∧
    (slot.length < (joinSlash (s :: ss.filter (fun c => !isJunk c)) ++ endSlash p).length →
      (copyPathInto slot p false).2 = false) := by
  have hsl : s ≠ [47] := by
    rintro rfl
    have := splitSlash_noSlash p [47] (by rw [h]; exact List.mem_cons_self)
    exact this 47 (by simp) rfl
  have hpieces : pathPieces false ((components p).length = 1) false (components p) =
      (s :: (ss.filter (fun c => !isJunk c)).flatMap (fun n => [[47], n])).map some := by
    rw [components_relative h h0 h1, List.map_cons]
    have ho : Comp.ofSegment s = .normal s := by simp [Comp.ofSegment, hp s List.mem_cons_self]
    rw [ho]
    have := pieces_named false (decide ((Comp.normal s :: (ss.filter (fun c => !isJunk c)).map Comp.ofSegment).length = 1))
      (ns := ss.filter (fun c => !isJunk c))
      (fun n hn => hp n (List.mem_cons_of_mem _ (List.mem_filter.mp hn).1))
    simp [pathPieces, Comp.bytes, hsl] at this ⊢
    exact this
  have hz' : ∀ x ∈ s :: (ss.filter (fun c => !isJunk c)).flatMap (fun n => [[47], n]), 0 ∉ x := by
    intro x hx
    have hm : ∀ y ∈ s :: ss, 0 ∉ y := fun y hy hc => hz (mem_split (by rw [h]; exact hy) 0 hc)
    rcases List.mem_cons.mp hx with rfl | hx
    · exact hm _ List.mem_cons_self
    · obtain ⟨n, hn, hx⟩ := List.mem_flatMap.mp hx
      simp only [List.mem_cons, List.not_mem_nil, or_false] at hx
      rcases hx with rfl | rfl
      · decide
      · exact hm _ (List.mem_cons_of_mem _ (List.mem_filter.mp hn).1)
  have := copyPath_pieces (slot := slot) (List.cons_ne_nil _ _) hpieces hz'
  rw [flat_join] at this
  refine ⟨fun hl => this.1 ?_, this.2⟩
  have hk := keep_weight h
  have hj := join_weight (l := s :: ss.filter (fun c => !isJunk c)) (by simp)
  simp only [List.map_cons, List.sum_cons] at hj
  simp only [List.length_append]
  omega

/-! ## Targets of links -/

/-- The target as it is written: without empty and `.` segments. -/
def tidy (t : Bytes) : Bytes :=
  (match components t with
  | .rootDir :: cs => 47 :: joinSlash (cs.map Comp.bytes)
  | cs => joinSlash (cs.map Comp.bytes)) ++ endSlash t

theorem comp_bytes_ofSegment (x : Bytes) : (Comp.ofSegment x).bytes = x := by
  unfold Comp.ofSegment
  split
  · simp_all [Comp.bytes]
  · rfl

theorem ofSegment_ne_root (x : Bytes) : Comp.ofSegment x ≠ .rootDir := by
  unfold Comp.ofSegment
  split <;> simp

theorem map_bytes_ofSegment (l : List Bytes) : (l.map Comp.ofSegment).map Comp.bytes = l := by
  induction l with
  | nil => rfl
  | cons x xs ih => rw [List.map_cons, List.map_cons, ih, comp_bytes_ofSegment]

/-- The segments after the first that count. -/
def kept (ss : List Bytes) : List Bytes := ss.filter (fun c => !isJunk c)

theorem components_shape {t : Bytes} (h : components t ≠ []) : ∃ s ss, splitSlash t = s :: ss ∧
    ((s = [] ∧ ss ≠ [] ∧ components t = .rootDir :: (kept ss).map Comp.ofSegment) ∨
     (s ≠ [] ∧ ∃ c, c ≠ .rootDir ∧ c.bytes = s ∧ c = (if s = [46] then .curDir else .ofSegment s) ∧
       components t = c :: (kept ss).map Comp.ofSegment)) := by
  cases hs : splitSlash t with
  | nil => exact absurd hs (splitSlash_ne_nil t)
  | cons s ss =>
    refine ⟨s, ss, rfl, ?_⟩
    unfold components at h ⊢
    rw [hs] at h ⊢
    simp only at h ⊢
    by_cases h0 : s = []
    · left
      rw [if_pos h0] at h ⊢
      by_cases h1 : ss = []
      · simp [h1] at h
      · exact ⟨h0, h1, by rw [if_neg h1]; rfl⟩
    · right
      refine ⟨h0, if s = [46] then .curDir else .ofSegment s, ?_, ?_, rfl, ?_⟩
      · split
        · simp
        · exact ofSegment_ne_root s
      · split
        · simp_all [Comp.bytes]
        · exact comp_bytes_ofSegment s
      · rw [if_neg h0]
        split <;> rfl

theorem tidy_root {t : Bytes} {ns : List Bytes} (h : components t = .rootDir :: ns.map Comp.ofSegment) :
    tidy t = 47 :: joinSlash ns ++ endSlash t := by
  unfold tidy
  rw [h]
  simp only [map_bytes_ofSegment]

theorem tidy_relative {t s : Bytes} {c : Comp} {ns : List Bytes} (h : components t = c :: ns.map Comp.ofSegment)
    (hc : c ≠ .rootDir) (hb : c.bytes = s) : tidy t = joinSlash (s :: ns) ++ endSlash t := by
  unfold tidy
  rw [h]
  cases c with
  | rootDir => exact absurd rfl hc
  | _ => simp only [List.map_cons, map_bytes_ofSegment, hb]

theorem kept_mem {t s : Bytes} {ss : List Bytes} (h : splitSlash t = s :: ss) {x : Bytes} (hx : x ∈ kept ss) :
    x ≠ [] ∧ x ≠ [46] ∧ NoSlash x ∧ (∀ c ∈ x, c ∈ t) := by
  obtain ⟨h1, h2⟩ := List.mem_filter.mp hx
  have hm : x ∈ splitSlash t := by rw [h]; exact List.mem_cons_of_mem _ h1
  refine ⟨?_, ?_, splitSlash_noSlash t x hm, mem_split hm⟩
  · rintro rfl; simp [isJunk] at h2
  · rintro rfl; simp [isJunk] at h2

theorem flatMap_bytes (ns : List Bytes) :
    (ns.map Comp.ofSegment).flatMap (fun c => [[47], c.bytes]) = ns.flatMap (fun n => [[47], n]) := by
  induction ns with
  | nil => rfl
  | cons n ns ih => rw [List.map_cons, List.flatMap_cons, List.flatMap_cons, ih, comp_bytes_ofSegment]

theorem noRoot (ns : List Bytes) : ∀ c ∈ ns.map Comp.ofSegment, c ≠ .rootDir := by
  intro c hc
  obtain ⟨n, _, rfl⟩ := List.mem_map.mp hc
  exact ofSegment_ne_root n

theorem pieces_step (single : Bool) {c : Comp} {cs : List Comp} (h : ∀ x ∈ cs, x ≠ .rootDir) (hb : c.bytes ≠ [47]) :
    pathPieces true single false (c :: cs) = (c.bytes :: cs.flatMap (fun c => [[47], c.bytes])).map some := by
  have := pieces_link single h
  cases c with
  | rootDir => exact absurd rfl hb
  | normal n => have hb : n ≠ [47] := hb; simp only [pathPieces, Comp.bytes]; simp [hb, this]; rfl
  | _ => simp [pathPieces, Comp.bytes, this]

theorem copyPath_link {slot t : Bytes} (h : components t ≠ []) (hz : 0 ∉ t) :
    ((tidy t).length ≤ slot.length → ∃ u, copyPathInto slot t true = (tidy t ++ u, true) ∧
      (tidy t ++ u).length = slot.length ∧ (u = [] ∨ u.head? = some 0)) ∧
    (slot.length < (tidy t).length → (copyPathInto slot t true).2 = false) := by
  obtain ⟨s, ss, hs, hc⟩ := components_shape h
  have hzk : ∀ x ∈ (kept ss).flatMap (fun n => [[47], n]), 0 ∉ x := by
    intro x hx
    obtain ⟨n, hn, hx⟩ := List.mem_flatMap.mp hx
    simp only [List.mem_cons, List.not_mem_nil, or_false] at hx
    rcases hx with rfl | rfl
    · decide
    · exact fun h0 => hz ((kept_mem hs hn).2.2.2 0 h0)
  rcases hc with ⟨rfl, hss, hc⟩ | ⟨h0, c, hcr, hcb, hcd, hc⟩
  · have ht := tidy_root hc
    cases hk : kept ss with
    | nil =>
      rw [hk] at hc ht
      have := copyPath_pieces (slot := slot) (p := t) (isLink := true) (ps := [[47]]) (by simp)
        (by rw [hc]; simp [pathPieces, Comp.bytes]) (by decide)
      rw [ht]
      simpa [joinSlash] using this
    | cons n ns =>
      have hn := kept_mem hs (x := n) (by rw [hk]; exact List.mem_cons_self)
      rw [hk] at hc ht hzk
      have hnb : (Comp.ofSegment n).bytes ≠ [47] := by
        rw [comp_bytes_ofSegment]
        rintro rfl
        exact hn.2.2.1 47 (by simp) rfl
      have := copyPath_pieces (slot := slot) (p := t) (isLink := true)
        (ps := [47] :: n :: ns.flatMap (fun n => [[47], n])) (by simp)
        (by
          rw [hc]
          have hp := pieces_step (decide ((Comp.rootDir :: (n :: ns).map Comp.ofSegment).length = 1)) (noRoot ns) hnb
          rw [flatMap_bytes, comp_bytes_ofSegment] at hp
          rw [List.map_cons (f := some), ← hp]
          simp [pathPieces, Comp.bytes])
        (by
          intro x hx
          rcases List.mem_cons.mp hx with rfl | hx
          · decide
          · apply hzk
            simp only [List.flatMap_cons, List.cons_append, List.mem_cons]
            exact Or.inr (List.mem_cons.mp hx))
      rw [ht]
      have hfl : ([47] :: n :: ns.flatMap (fun n => [[47], n])).flatten = 47 :: joinSlash (n :: ns) := by
        rw [List.flatten_cons, flat_join]; rfl
      rw [hfl] at this
      exact this
  · have ht := tidy_relative hc hcr hcb
    have hsb : c.bytes ≠ [47] := by
      rw [hcb]
      rintro rfl
      exact splitSlash_noSlash t [47] (by rw [hs]; exact List.mem_cons_self) 47 (by simp) rfl
    have := copyPath_pieces (slot := slot) (p := t) (isLink := true)
      (ps := s :: (kept ss).flatMap (fun n => [[47], n])) (by simp)
      (by
        rw [hc]
        have hp := pieces_step (decide ((c :: (kept ss).map Comp.ofSegment).length = 1)) (noRoot (kept ss)) hsb
        rw [flatMap_bytes, hcb] at hp
        exact hp)
      (by
        intro x hx
        rcases List.mem_cons.mp hx with rfl | hx
        · exact fun h0 => hz (mem_split (by rw [hs]; exact List.mem_cons_self) 0 h0)
        · exact hzk x hx)
    rw [ht]
    rw [flat_join] at this
    exact this

theorem tidy_length {t : Bytes} (h : components t ≠ []) : (tidy t).length ≤ max t.length 2 := by
  obtain ⟨s, ss, hs, hc⟩ := components_shape h
  have hk := keep_weight hs
  change s.length + ((kept ss).map (fun x => x.length + 1)).sum + (endSlash t).length ≤ t.length at hk
  have he : (endSlash t).length ≤ 1 := by unfold endSlash; split <;> simp
  rcases hc with ⟨rfl, hss, hc⟩ | ⟨h0, c, hcr, hcb, hcd, hc⟩
  · rw [tidy_root hc]
    simp only [List.length_append, List.length_cons]
    by_cases hn : kept ss = []
    · rw [hn]; simp only [joinSlash, List.length_nil]; omega
    · have := join_weight hn
      omega
  · rw [tidy_relative hc hcr hcb]
    have := join_weight (l := s :: kept ss) (by simp)
    simp only [List.map_cons, List.sum_cons] at this
    simp only [List.length_append]
    omega

theorem split_end {l : List Bytes} (hne : l ≠ []) (h : ∀ x ∈ l, NoSlash x) (t : Bytes) :
    splitSlash (joinSlash l ++ endSlash t) = l ∨ splitSlash (joinSlash l ++ endSlash t) = l ++ [[]] := by
  unfold endSlash
  split
  · right
    have := splitSlash_append' (joinSlash l) []
    rw [splitSlash_join hne h] at this
    exact this
  · left
    rw [List.append_nil, splitSlash_join hne h]

theorem kept_kept (ss : List Bytes) : kept (kept ss) = kept ss := by
  simp [kept, List.filter_filter]

theorem kept_snoc (ss : List Bytes) : kept (ss ++ [[]]) = kept ss := by
  simp [kept, isJunk]

theorem components_of {p s : Bytes} {ss : List Bytes} (h : splitSlash p = s :: ss) (h0 : s ≠ []) :
    components p = (if s = [46] then .curDir else .ofSegment s) :: (kept ss).map Comp.ofSegment := by
  unfold components
  rw [h]
  simp only [if_neg h0]
  split <;> rfl

theorem components_of_root {p : Bytes} {ss : List Bytes} (h : splitSlash p = [] :: ss) (h0 : ss ≠ []) :
    components p = .rootDir :: (kept ss).map Comp.ofSegment := by
  unfold components
  rw [h]
  simp only [if_neg h0, if_true]
  rfl

theorem components_tidy {t : Bytes} (h : components t ≠ []) : components (tidy t) = components t := by
  obtain ⟨s, ss, hs, hc⟩ := components_shape h
  rcases hc with ⟨rfl, hss, hc⟩ | ⟨h0, c, hcr, hcb, hcd, hc⟩
  · rw [tidy_root hc, hc]
    have hsp : splitSlash (47 :: joinSlash (kept ss) ++ endSlash t) = [] :: splitSlash (joinSlash (kept ss) ++ endSlash t) :=
      splitSlash_append' [] _
    rw [components_of_root hsp (splitSlash_ne_nil _)]
    congr 2
    by_cases hn : kept ss = []
    · rw [hn]
      simp only [joinSlash, List.nil_append]
      unfold endSlash
      split <;> decide
    · rcases split_end hn (fun x hx => (kept_mem hs hx).2.2.1) t with h1 | h1 <;> rw [h1]
      · exact kept_kept ss
      · rw [kept_snoc, kept_kept]
  · rw [tidy_relative hc hcr hcb, hc, hcd]
    have hns : ∀ x ∈ s :: kept ss, NoSlash x := by
      intro x hx
      rcases List.mem_cons.mp hx with rfl | hx
      · exact splitSlash_noSlash t x (by rw [hs]; exact List.mem_cons_self)
      · exact (kept_mem hs hx).2.2.1
    rcases split_end (l := s :: kept ss) (by simp) hns t with h1 | h1
    · rw [components_of h1 h0, kept_kept]
    · rw [List.cons_append] at h1
      rw [components_of h1 h0, kept_snoc, kept_kept]

/-! ## Long paths -/

theorem split_cut (a b : Bytes) : ∃ l x y r, splitSlash a = l ++ [x] ∧ splitSlash b = y :: r ∧
    splitSlash (a ++ b) = l ++ (x ++ y) :: r := by
  induction a with
  | nil =>
    cases hb : splitSlash b with
    | nil => exact absurd hb (splitSlash_ne_nil b)
    | cons y r => exact ⟨[], [], y, r, rfl, rfl, by simpa using hb⟩
  | cons c a ih =>
    obtain ⟨l, x, y, r, h1, h2, h3⟩ := ih
    by_cases hc : c = 47
    · exact ⟨[] :: l, x, y, r, by simp [splitSlash, hc, h1], h2, by simp [splitSlash, hc, h3]⟩
    · cases l with
      | nil => exact ⟨[], c :: x, y, r, by simp [splitSlash, hc, h1], h2, by simp [splitSlash, hc, h3]⟩
      | cons z l => exact ⟨(c :: z) :: l, x, y, r, by simp [splitSlash, hc, h1], h2, by simp [splitSlash, hc, h3]⟩

/-- Paths of names. -/
structure TarPlain (path : Bytes) : Prop where
  plain : ∀ n ∈ splitSlash path, PlainName n ∧ n ≠ [46, 46]
  noZero : 0 ∉ path

/-- Paths for which entries can be written. -/
structure TarPath (path : Bytes) : Prop extends TarPlain path where
  cut : (splitSlash (path.take 100)).getLast? ≠ some [46, 46]
  short : path.length + 1 < 2 ^ 33

theorem TarPlain.first {path : Bytes} (h : TarPlain path) : ∃ s ss, splitSlash path = s :: ss ∧ s ≠ [] ∧ s ≠ [46] ∧
    (∀ x ∈ s :: ss, x ≠ [46, 46]) ∧ joinSlash (s :: ss.filter (fun c => !isJunk c)) ++ endSlash path = path := by
  cases hs : splitSlash path with
  | nil => exact absurd hs (splitSlash_ne_nil path)
  | cons s ss =>
    have hp := h.plain
    rw [hs] at hp
    refine ⟨s, ss, rfl, (hp s List.mem_cons_self).1.nonempty, (hp s List.mem_cons_self).1.notDot, fun x hx => (hp x hx).2, ?_⟩
    have hf : ss.filter (fun c => !isJunk c) = ss := by
      rw [List.filter_eq_self]
      intro x hx
      simp [(hp x (List.mem_cons_of_mem _ hx)).1.notJunk]
    have he : endSlash path = [] := by
      unfold endSlash
      split
      · rename_i hl
        obtain ⟨l, _, h2⟩ := split_slash_end hl
        rw [hs] at h2
        exact absurd rfl (hp [] (by rw [h2]; simp)).1.nonempty
      · rfl
    rw [hf, he, List.append_nil, ← hs, join_splitSlash]

theorem setPath_short {h : TarHeader} (hn : h.name.length = 100) {path : Bytes} (hp : TarPlain path) (hl : path.length ≤ 100) :
    ∃ t, h.setPath path = ({ h with name := path ++ t }, true) ∧ (path ++ t).length = 100 ∧ (t = [] ∨ t.head? = some 0) := by
  obtain ⟨s, ss, h1, h2, h3, h4, h5⟩ := hp.first
  obtain ⟨t, c1, c2, c3⟩ := (copyPath_relative (slot := h.name) h1 h2 h3 h4 hp.noZero).1 (by omega)
  rw [h5] at c1 c2
  exact ⟨t, by simp [TarHeader.setPath, c1], by omega, c3⟩

theorem setPath_length (h : TarHeader) (path : Bytes) :
    ∃ n, (h.setPath path).1 = { h with name := n } ∧ n.length = h.name.length :=
  ⟨_, rfl, copyPieces_length _ _⟩

theorem setLink_length (h : TarHeader) (path : Bytes) :
    ∃ n, (h.setLinkName path).1 = { h with linkname := n } ∧ n.length = h.linkname.length :=
  ⟨_, rfl, copyPieces_length _ _⟩

theorem setPath_long {h : TarHeader} (hn : h.name.length = 100) {path : Bytes} (hp : TarPlain path) (hl : 100 < path.length) :
    (h.setPath path).2 = false := by
  obtain ⟨s, ss, h1, h2, h3, h4, h5⟩ := hp.first
  refine (copyPath_relative (slot := h.name) h1 h2 h3 h4 hp.noZero).2 ?_
  rw [h5]; omega

theorem setPath_cut {h : TarHeader} (hn : h.name.length = 100) {path : Bytes} (hp : TarPath path) (hl : 100 ≤ path.length) :
    (h.setPath (path.take 100)).2 = true := by
  obtain ⟨l, x, y, r, h1, h2, h3⟩ := split_cut (path.take 100) (path.drop 100)
  rw [List.take_append_drop] at h3
  have hplain : ∀ n ∈ l, PlainName n ∧ n ≠ [46, 46] := fun n hn => hp.plain n (by rw [h3]; simp [hn])
  have hx : x ≠ [46, 46] := by
    rintro rfl
    exact hp.cut (by rw [h1]; simp)
  have hz : (0 : UInt8) ∉ path.take 100 := fun h0 => hp.noZero (List.mem_of_mem_take h0)
  have key : ∃ s ss, splitSlash (path.take 100) = s :: ss ∧ s ≠ [] ∧ s ≠ [46] ∧ (∀ x ∈ s :: ss, x ≠ [46, 46]) := by
    cases l with
    | nil =>
      refine ⟨x, [], h1, ?_⟩
      have hj := join_splitSlash (path.take 100)
      rw [h1] at hj
      have hj : x = path.take 100 := by simpa [joinSlash] using hj
      have hlen : x.length = 100 := by rw [hj, List.length_take]; omega
      exact ⟨by rintro rfl; simp at hlen, by rintro rfl; simp at hlen, by simpa using hx⟩
    | cons s l =>
      refine ⟨s, l ++ [x], h1, (hplain s List.mem_cons_self).1.nonempty, (hplain s List.mem_cons_self).1.notDot, ?_⟩
      intro z hz
      rw [← List.cons_append] at hz
      rcases List.mem_append.mp hz with hz | hz
      · exact (hplain z hz).2
      · rw [List.mem_singleton] at hz; subst hz; exact hx
  obtain ⟨s, ss, k1, k2, k3, k4⟩ := key
  obtain ⟨t, c1, _⟩ := (copyPath_relative (slot := h.name) k1 k2 k3 k4 hz).1 (by rw [List.length_take]; omega)
  simp [TarHeader.setPath, c1]

/-! ## Paths with parents -/

theorem copyPieces_none {slot : Bytes} {ps : List (Option Bytes)} (h : none ∈ ps) : (copyPieces slot ps).2 = false := by
  induction ps generalizing slot with
  | nil => cases h
  | cons p ps ih =>
    cases p with
    | none => rfl
    | some p =>
      rw [copyPieces]
      cases hc : copyInto slot p with
      | none => rfl
      | some s => exact ih (by simpa using h)

theorem pieces_parent {single : Bool} {cs : List Comp} (h : .parentDir ∈ cs) (b : Bool) : none ∈ pathPieces false single b cs := by
  induction cs generalizing b with
  | nil => cases h
  | cons c cs ih =>
    cases c with
    | parentDir => simp [pathPieces]
    | rootDir => simp [pathPieces]
    | curDir =>
      have := ih (by simpa using h)
      simp only [pathPieces]
      split <;> simp [this]
    | normal n =>
      have := ih (by simpa using h)
      simp [pathPieces, this]

theorem setPath_parent {h : TarHeader} {path : Bytes} (hp : [46, 46] ∈ splitSlash path) : (h.setPath path).2 = false := by
  have hc : .parentDir ∈ components path := by
    unfold components
    cases hs : splitSlash path with
    | nil => exact absurd hs (splitSlash_ne_nil path)
    | cons s ss =>
      rw [hs] at hp
      simp only
      have hr : [46, 46] ∈ ss → .parentDir ∈ (ss.filter (fun c => !isJunk c)).map Comp.ofSegment := by
        intro hm
        refine List.mem_map.mpr ⟨[46, 46], List.mem_filter.mpr ⟨hm, by decide⟩, by decide⟩
      rcases List.mem_cons.mp hp with rfl | hm
      · rw [if_neg (by decide), if_neg (by decide)]
        exact List.mem_cons_self
      · split
        · split
          · rename_i h1; rw [h1] at hm; cases hm
          · exact List.mem_cons_of_mem _ (hr hm)
        · split
          · exact List.mem_cons_of_mem _ (hr hm)
          · exact List.mem_cons_of_mem _ (hr hm)
  unfold TarHeader.setPath copyPathInto
  simp only
  apply copyPieces_none
  simp [pieces_parent hc]

/-! ## The parts of an entry -/

theorem tarPad_length (n : Nat) : n + (tarPad n).toList.flatten.length = (n + 511) / 512 * 512 := by
  unfold tarPad
  simp only
  split
  · simp only [Option.toList_some, List.flatten_cons, List.flatten_nil, List.append_nil, List.length_replicate]; omega
  · simp only [Option.toList_none, List.flatten_nil, List.length_nil]; omega

theorem tarPad_zero (n : Nat) : ∀ c ∈ (tarPad n).toList.flatten, c = 0 := by
  unfold tarPad
  simp only
  split
  · simp
  · simp

theorem bufferContents_flatten (n : Nat) (b : Bytes) : (bufferContents n b).flatten = b := by
  fun_induction bufferContents n b with
  | case1 => rfl
  | case2 => simp
  | case3 b h1 h2 ih => simp [ih]

structure HelperOk (t : TarHelper) : Prop where
  header : HdrOk t.header
  long : HdrOk t.longHeader
  longMode : t.longHeader.mode = octalField 7 0o644 ++ [0]
  longTime : t.longHeader.mtime = octalField 11 0 ++ [0]

theorem withCapacity_ok (n : Nat) : HelperOk (.withCapacity n) :=
  ⟨newHeader_ok, newLongHeader_ok, by simp only [TarHelper.withCapacity]; decide +kernel, by simp only [TarHelper.withCapacity]; decide +kernel⟩

end Verif.Http
