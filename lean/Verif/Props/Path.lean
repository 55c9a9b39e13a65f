import Verif.Ipfs.Path
import Verif.Base.Snoc

/-!
# C18, C19: paths
-/

namespace Verif.Props

open Verif Verif.Ipfs

/-- A segment a path may contain. -/
def Segment (s : Bytes) : Prop := s ≠ [] ∧ NoSlash s

/-! ### C19 -/

theorem pushSplit_ok {path l path' : List Bytes} (h : pushSplit path l = (path', true)) :
    ∃ segs, path' = path ++ segs ∧ (∀ x ∈ segs, x ≠ []) ∧ (l = segs ∨ l = segs ++ [[]]) := by
  induction l generalizing path with
  | nil => cases h; exact ⟨[], by simp⟩
  | cons x l ih =>
    simp only [pushSplit] at h
    split at h
    · rename_i hx
      simp only [Prod.mk.injEq, List.isEmpty_iff] at h
      obtain ⟨rfl, rfl⟩ := h
      exact ⟨[], by simp [hx]⟩
    · rename_i hx
      obtain ⟨segs, h1, h2, h3⟩ := ih h
      refine ⟨x :: segs, by simp [h1], ?_, ?_⟩
      · intro y hy
        rcases List.mem_cons.mp hy with rfl | hy
        · exact hx
        · exact h2 y hy
      · rcases h3 with rfl | rfl
        · exact Or.inl rfl
        · exact Or.inr rfl

theorem pushSplit_segs (path segs : List Bytes) (h : ∀ x ∈ segs, x ≠ []) (tail : List Bytes) :
    pushSplit path (segs ++ tail) = pushSplit (path ++ segs) tail := by
  induction segs generalizing path with
  | nil => simp
  | cons x segs ih =>
    simp only [List.cons_append, pushSplit, if_neg (h x (by simp))]
    rw [ih _ (fun y hy => h y (by simp [hy]))]
    simp

/-- What the text of an extension must look like: nothing, or segments separated by single slashes,
with at most one slash at the end. -/
def Extends (s : Bytes) (segs : List Bytes) : Prop :=
  (∀ x ∈ segs, Segment x) ∧
  ((s = [] ∧ segs = []) ∨ (segs ≠ [] ∧ (s = joinSlash segs ∨ s = joinSlash segs ++ [47])))

theorem pushPath_ok (path : List Bytes) (s : Bytes) (path' : List Bytes) :
    pushPath path s = (path', true) ↔ ∃ segs, Extends s segs ∧ path' = path ++ segs := by
  constructor
  · intro h
    unfold pushPath at h
    split at h
    · rename_i hs
      cases h
      exact ⟨[], ⟨by simp, Or.inl ⟨hs, rfl⟩⟩, by simp⟩
    · rename_i hs
      obtain ⟨segs, h1, h2, h3⟩ := pushSplit_ok h
      have hns := splitSlash_noSlash s
      have hj := join_splitSlash s
      have hne : segs ≠ [] := by
        rintro rfl
        rcases h3 with h3 | h3
        · exact splitSlash_ne_nil s h3
        · rw [h3] at hj; exact hs hj.symm
      refine ⟨segs, ⟨fun x hx => ⟨h2 x hx, hns x ?_⟩, Or.inr ⟨hne, ?_⟩⟩, h1⟩
      · rcases h3 with h3 | h3 <;> rw [h3] <;> simp [hx]
      · rcases h3 with h3 | h3
        · rw [h3] at hj; exact Or.inl hj.symm
        · rw [h3, joinSlash_snoc_nil hne] at hj; exact Or.inr hj.symm
  · rintro ⟨segs, ⟨h1, h2⟩, rfl⟩
    have hx : ∀ x ∈ segs, x ≠ [] := fun x hx => (h1 x hx).1
    rcases h2 with ⟨rfl, rfl⟩ | ⟨hne, h2⟩
    · simp [pushPath]
    · have hs : s ≠ [] := by
        rcases h2 with rfl | rfl
        · cases segs with
          | nil => exact absurd rfl hne
          | cons x xs =>
            cases xs with
            | nil => exact (h1 x (by simp)).1
            | cons y ys => simp [joinSlash]
        · simp
      unfold pushPath
      rw [if_neg hs]
      rcases h2 with rfl | rfl
      · rw [splitSlash_join hne (fun x hx => (h1 x hx).2)]
        have := pushSplit_segs path segs hx []
        simpa [pushSplit] using this
      · rw [← joinSlash_snoc_nil hne, splitSlash_join (by simp)]
        · rw [pushSplit_segs path segs hx]
          simp [pushSplit]
        · intro x hx
          rcases List.mem_append.mp hx with hx | hx
          · exact (h1 x hx).2
          · simp only [List.mem_singleton] at hx; subst hx; simp [NoSlash]

/-- **C19**: extending a path succeeds exactly for texts made of segments separated by single
slashes, with at most one at the end, and then appends exactly these segments. -/
theorem C19_sub_path (p p' : IpfsPath) (s : Bytes) :
    p.subPath s = some p' ↔ ∃ segs, Extends s segs ∧ p' = ⟨p.root, p.path ++ segs⟩ := by
  have key := pushPath_ok p.path s
  unfold IpfsPath.subPath
  cases h : pushPath p.path s with
  | mk q ok =>
    cases ok with
    | true =>
      obtain ⟨segs, h1, h2⟩ := (key q).mp h
      simp only [Option.some.injEq]
      constructor
      · rintro rfl; exact ⟨segs, h1, by rw [h2]⟩
      · rintro ⟨segs', h3, rfl⟩
        have := (key (p.path ++ segs')).mpr ⟨segs', h3, rfl⟩
        rw [h] at this
        simp only [Prod.mk.injEq, and_true] at this
        rw [this]
    | false =>
      simp only [reduceCtorEq, false_iff]
      rintro ⟨segs', h3, rfl⟩
      have := (key (p.path ++ segs')).mpr ⟨segs', h3, rfl⟩
      rw [h] at this
      simp at this

/-- **C19**: a text with an empty inner segment (two slashes in a row, or a slash at the front) is
rejected. -/
theorem C19_rejects_empty_inner (p : IpfsPath) (a b : Bytes) :
    p.subPath (a ++ 47 :: 47 :: b) = none ∧ p.subPath (47 :: b) = none := by
  have hno : ∀ s segs, Extends s segs → ∀ l1 x l2, splitSlash s = l1 ++ [] :: x :: l2 → False := by
    rintro s segs ⟨h1, h2⟩ l1 x l2 hsp
    have hlast : ∀ l : List Bytes, (∀ y ∈ l, y ≠ []) → ∀ l1 x l2, l ++ [[]] ≠ l1 ++ [] :: x :: l2 := by
      intro l hl l1 x l2 he
      have h3 : l = l1 ++ [] :: (x :: l2).dropLast := by
        have := congrArg List.dropLast he
        simpa [List.dropLast_append_of_ne_nil] using this
      exact hl [] (by rw [h3]; simp) rfl
    have hx : ∀ y ∈ segs, y ≠ [] := fun y hy => (h1 y hy).1
    rcases h2 with ⟨rfl, rfl⟩ | ⟨hne, rfl | rfl⟩
    · have := congrArg List.length hsp
      simp [splitSlash] at this
      omega
    · rw [splitSlash_join hne (fun y hy => (h1 y hy).2)] at hsp
      exact hx [] (by rw [hsp]; simp) rfl
    · rw [← joinSlash_snoc_nil hne, splitSlash_join (by simp)] at hsp
      · exact hlast segs hx _ _ _ hsp
      · intro y hy
        rcases List.mem_append.mp hy with hy | hy
        · exact (h1 y hy).2
        · simp only [List.mem_singleton] at hy; subst hy; simp [NoSlash]
  have none_of : ∀ s, (∃ l1 x l2, splitSlash s = l1 ++ [] :: x :: l2) → p.subPath s = none := by
    rintro s ⟨l1, x, l2, h⟩
    cases hs : p.subPath s with
    | none => rfl
    | some p' =>
      obtain ⟨segs, h1, _⟩ := (C19_sub_path p p' s).mp hs
      exact absurd h (fun h => hno s segs h1 _ _ _ h)
  constructor
  · refine none_of _ ?_
    cases hb : splitSlash b with
    | nil => exact absurd hb (splitSlash_ne_nil b)
    | cons y ys => exact ⟨splitSlash a, y, ys, by rw [splitSlash_append']; simp [splitSlash, hb]⟩
  · refine none_of _ ?_
    cases hb : splitSlash b with
    | nil => exact absurd hb (splitSlash_ne_nil b)
    | cons y ys => exact ⟨[], y, ys, by simp [splitSlash, hb]⟩

/-- **C19**: every segment of a parsed path is non-empty and without '/'. -/
theorem C19_parsed (mb : UInt8 → Bytes → Option Bytes) (s : Bytes) (p : IpfsPath)
    (h : IpfsPath.parse mb s = some p) : ∀ x ∈ p.path, Segment x := by
  unfold IpfsPath.parse at h
  cases hr : parseRoot mb (splitSlash s) with
  | none => rw [hr] at h; cases h
  | some q =>
    obtain ⟨root, rest⟩ := q
    simp only [hr] at h
    have hsub : ∀ x ∈ rest, x ∈ splitSlash s := by
      generalize splitSlash s = l at hr
      unfold parseRoot at hr
      split at hr
      · cases hr
      · split at hr
        · obtain ⟨c, _, hc⟩ := Option.map_eq_some_iff.mp hr
          cases hc
          intro x hx; simp [hx]
        · split at hr
          · split at hr
            · obtain ⟨c, _, hc⟩ := Option.map_eq_some_iff.mp hr
              cases hc
              intro x hx; simp [hx]
            · split at hr
              · split at hr <;> (cases hr; intro x hx; simp [hx])
              · cases hr
          · cases hr
    cases hp : pushSplit [] rest with
    | mk path ok =>
      rw [hp] at h
      cases ok with
      | false => cases h
      | true =>
        simp only [Option.some.injEq] at h
        subst h
        obtain ⟨segs, h1, h2, h3⟩ := pushSplit_ok hp
        simp only [List.nil_append] at h1
        subst h1
        intro x hx
        refine ⟨h2 x hx, splitSlash_noSlash s x (hsub x ?_)⟩
        rcases h3 with rfl | rfl <;> simp [hx]

/-- **C19**: and stays so under extension (also a failed one in place), shifting and truncating. -/
theorem C19_kept (p : IpfsPath) (h : ∀ x ∈ p.path, Segment x) :
    (∀ s p', p.subPath s = some p' → ∀ x ∈ p'.path, Segment x) ∧
    (∀ s, ∀ x ∈ (p.pushStr s).1.path, Segment x) ∧
    (∀ n l, p.shifted n = some l → ∀ x ∈ l, Segment x) ∧
    (∀ n l, p.truncated n = some l → ∀ x ∈ l, Segment x) := by
  refine ⟨?_, ?_, ?_, ?_⟩
  · intro s p' hs x hx
    obtain ⟨segs, h1, rfl⟩ := (C19_sub_path p p' s).mp hs
    rcases List.mem_append.mp hx with hx | hx
    · exact h x hx
    · exact h1.1 x hx
  · intro s x hx
    simp only [IpfsPath.pushStr, pushPath] at hx
    split at hx
    · exact h x hx
    · have hall : ∀ l path, (∀ y ∈ path, Segment y) → (∀ y ∈ l, NoSlash y) →
          ∀ y ∈ (pushSplit path l).1, Segment y := by
        intro l
        induction l with
        | nil => intro path h1 _ y hy; exact h1 y hy
        | cons a l ih =>
          intro path h1 h2 y hy
          simp only [pushSplit] at hy
          split at hy
          · exact h1 y hy
          · rename_i ha
            refine ih (path ++ [a]) ?_ (fun z hz => h2 z (by simp [hz])) y hy
            intro z hz
            rcases List.mem_append.mp hz with hz | hz
            · exact h1 z hz
            · simp only [List.mem_singleton] at hz; subst hz; exact ⟨ha, h2 z (by simp)⟩
      exact hall _ _ h (splitSlash_noSlash s) x hx
  · intro n l hs x hx
    simp only [IpfsPath.shifted] at hs
    split at hs
    · cases hs; exact h x (List.mem_of_mem_drop hx)
    · cases hs
  · intro n l hs x hx
    simp only [IpfsPath.truncated] at hs
    split at hs
    · cases hs; exact h x (List.mem_of_mem_take hx)
    · cases hs

/-- Shifting off some segments and keeping only these splits the path; both fail only beyond its
length. -/
theorem C19_shift_truncate (p : IpfsPath) (n : Nat) :
    (∃ l r, p.truncated n = some l ∧ p.shifted n = some r ∧ l ++ r = p.path ∧ l.length = n) ∨
    (p.path.length < n ∧ p.truncated n = none ∧ p.shifted n = none) := by
  unfold IpfsPath.truncated IpfsPath.shifted
  by_cases h : n ≤ p.path.length
  · exact Or.inl ⟨_, _, if_pos h, if_pos h, List.take_append_drop n _, by simp [h]⟩
  · exact Or.inr ⟨by omega, if_neg h, if_neg h⟩

/-! ### C18 -/

theorem slashedText_eq (l : List Bytes) : slashedText l = joinSlash l := by
  induction l with
  | nil => rfl
  | cons x l ih =>
    cases l with
    | nil => simp [slashedText, joinSlash]
    | cons y l => simp only [slashedText, joinSlash, List.flatMap_cons, List.cons_append] at ih ⊢; rw [ih]

/-- Splitting the text of a path whose root reads "/ty/key". -/
theorem split_text {ty key : Bytes} (h1 : NoSlash ty) (h2 : NoSlash key) {path : List Bytes}
    (hp : ∀ x ∈ path, Segment x) :
    splitSlash (47 :: ty ++ 47 :: key ++ if path = [] then [] else 47 :: slashedText path) =
      [] :: ty :: key :: path := by
  have h0 : ∀ t, splitSlash (47 :: t) = [] :: splitSlash t := by intro t; simp [splitSlash]
  simp only [List.cons_append, List.append_assoc]
  rw [h0, splitSlash_append h1]
  by_cases hpe : path = []
  · simp only [hpe, if_true, List.append_nil]
    rw [splitSlash_single h2]
  · rw [if_neg hpe, splitSlash_append h2, slashedText_eq, splitSlash_join hpe (fun x hx => (hp x hx).2)]

theorem pushSplit_all {l : List Bytes} (h : ∀ x ∈ l, Segment x) : pushSplit [] l = (l, true) := by
  have := pushSplit_segs [] l (fun x hx => (h x hx).1) []
  simpa [pushSplit] using this

theorem parse_text_of {mb : UInt8 → Bytes → Option Bytes} {root : PathRoot} {ty key : Bytes}
    {path : List Bytes} (h1 : NoSlash ty) (h2 : NoSlash key) (hp : ∀ x ∈ path, Segment x)
    (ht : root.text = 47 :: ty ++ 47 :: key)
    (hr : parseRoot mb ([] :: ty :: key :: path) = some (root, path)) :
    IpfsPath.parse mb (IpfsPath.text ⟨root, path⟩) = some ⟨root, path⟩ := by
  unfold IpfsPath.parse IpfsPath.text
  simp only
  rw [ht, split_text h1 h2 hp, hr]
  simp only [pushSplit_all hp]

/-- The parsed roots: a name is kept only if it has no '/' and is no peer id. -/
theorem parseRoot_some {mb : UInt8 → Bytes → Option Bytes} {l rest : List Bytes} {root : PathRoot}
    (hl : ∀ x ∈ l, NoSlash x) (h : parseRoot mb l = some (root, rest)) :
    (∀ c, root = .ipld c → ∃ bs, Cid.ofBytes bs = some c) ∧
    (∀ p, root = .ipns p → p.Valid) ∧
    (∀ d, root = .dns d → NoSlash d ∧ PeerId.ofText d = none) := by
  have hcid : ∀ {key rest' : _}, (Cid.ofText mb key).map (fun c => (PathRoot.ipld c, rest')) =
      some (root, rest) → (∀ c, root = .ipld c → ∃ bs, Cid.ofBytes bs = some c) ∧
    (∀ p, root = .ipns p → p.Valid) ∧
    (∀ d, root = .dns d → NoSlash d ∧ PeerId.ofText d = none) := by
    intro key rest' h
    obtain ⟨c, h1, hc⟩ := Option.map_eq_some_iff.mp h
    cases hc
    refine ⟨?_, by simp, by simp⟩
    intro c' hc'; cases hc'
    exact Cid.ofText_bytes h1
  unfold parseRoot at h
  split at h
  · cases h
  · split at h
    · exact hcid h
    · split at h
      · split at h
        · exact hcid h
        · split at h
          · split at h
            · rename_i hp
              cases h
              refine ⟨by simp, ?_, by simp⟩
              intro p hp'; cases hp'
              obtain ⟨bs, _, hb⟩ := Option.bind_eq_some_iff.mp hp
              exact PeerId.ofBytes_valid hb
            · rename_i hp
              cases h
              refine ⟨by simp, by simp, ?_⟩
              intro d hd; cases hd
              exact ⟨hl _ (by simp), hp⟩
          · cases h
      · cases h

/-- **C18**, partial: parsing the text of a parsed path gives the path back, provided a cid root of
version 0 has a digest of 32 bytes. The proviso is needed (`C18_false`) and can only fail for a cid
whose text is a multibase encoding of bytes that begin with an explicit version number 0. -/
theorem C18_round_trip_partial (mb : UInt8 → Bytes → Option Bytes) (s : Bytes) (p : IpfsPath)
    (h : IpfsPath.parse mb s = some p)
    (h32 : ∀ c, p.root = .ipld c → c.version = .v0 → c.digest.length = 32) :
    IpfsPath.parse mb p.text = some p := by
  have hseg := C19_parsed mb s p h
  have hns := splitSlash_noSlash s
  obtain ⟨root, path⟩ := p
  simp only at h32 hseg
  unfold IpfsPath.parse at h
  cases hr : parseRoot mb (splitSlash s) with
  | none => rw [hr] at h; cases h
  | some q =>
    obtain ⟨root', rest⟩ := q
    simp only [hr] at h
    cases hp : pushSplit [] rest with
    | mk path' ok =>
      rw [hp] at h
      cases ok with
      | false => cases h
      | true =>
        simp only [Option.some.injEq, IpfsPath.mk.injEq] at h
        obtain ⟨rfl, rfl⟩ := h
        obtain ⟨h1, h2, h3⟩ := parseRoot_some hns hr
        cases root' with
        | ipld c =>
          obtain ⟨bs, hb⟩ := h1 c rfl
          have hv := Cid.ofBytes_valid hb (h32 c rfl)
          refine parse_text_of (ty := sIpfs) (key := c.toText) (by decide) (Cid.toText_no_slash c) hseg rfl ?_
          simp only [parseRoot, ne_eq, not_true_eq_false, if_false, true_or, if_true,
            Cid.ofText_toText mb c hv, Option.map_some]
        | ipns p =>
          have hv := h2 p rfl
          refine parse_text_of (ty := sIpns) (key := p.toText) (by decide)
            (fun x hx => (base58_no_slash _ x hx).1) hseg rfl ?_
          have hne : ¬ (sIpns = sIpfs ∨ sIpns = sIpld) := by decide
          simp only [parseRoot, ne_eq, not_true_eq_false, if_false, if_neg hne, if_true,
            PeerId.ofText_toText p hv]
        | dns d =>
          obtain ⟨hd1, hd2⟩ := h3 d rfl
          refine parse_text_of (ty := sIpns) (key := d) (by decide) hd1 hseg rfl ?_
          have hne : ¬ (sIpns = sIpfs ∨ sIpns = sIpld) := by decide
          simp only [parseRoot, ne_eq, not_true_eq_false, if_false, if_neg hne, if_true, hd2]

/-- **C18** does not hold in general: "bablree" is the base32 of version 0, dag-pb, sha2-256 and an
empty digest. It parses to a cid of version 0 whose text is not accepted. -/
theorem C18_false : ∃ s p, IpfsPath.parse (fun _ _ => none) s = some p ∧
    IpfsPath.parse (fun _ _ => none) p.text = none :=
  ⟨98 :: base32 [0x00, 0x70, 0x12, 0x00], ⟨.ipld ⟨.v0, codecDagPb, mhSha256, []⟩, []⟩,
    by decide +kernel, by decide +kernel⟩

/-! ### Examples -/

/-- "/ipns/example.com/a/b/" parses to a name with two segments, and so does its text. -/
example : IpfsPath.parse (fun _ _ => none) "/ipns/example.com/a/b/".toUTF8.toList =
      some ⟨.dns "example.com".toUTF8.toList, ["a".toUTF8.toList, "b".toUTF8.toList]⟩ ∧
    IpfsPath.text ⟨.dns "example.com".toUTF8.toList, ["a".toUTF8.toList, "b".toUTF8.toList]⟩ =
      "/ipns/example.com/a/b".toUTF8.toList := by decide +kernel

/-- A bare cid is an ipld root. -/
example : (IpfsPath.parse (fun _ _ => none)
      "QmdfTbBqBPQ7VNxZEYEj14VmRuZBkqFbiwReogJgS1zR1n/a".toUTF8.toList).map (fun p => p.text) =
    some "/ipfs/QmdfTbBqBPQ7VNxZEYEj14VmRuZBkqFbiwReogJgS1zR1n/a".toUTF8.toList := by decide +kernel

/-- "a//b" is refused; in place, "a" stays behind. -/
example : (IpfsPath.subPath ⟨.dns [], []⟩ "a//b".toUTF8.toList) = none ∧
    (IpfsPath.pushStr ⟨.dns [], []⟩ "a//b".toUTF8.toList) = (⟨.dns [], ["a".toUTF8.toList]⟩, false) := by
  decide +kernel

/-- The comparison of a path with a list of segments only compares a common prefix: the empty path
"equals" everything. -/
theorem eqSegments_prefix : eqSegments [] ["a".toUTF8.toList] = true := by decide +kernel

theorem eqSegments_iff (a b : List Bytes) (h : a.length = b.length) : eqSegments a b = true ↔ a = b := by
  unfold eqSegments
  induction a generalizing b with
  | nil => cases b <;> simp_all
  | cons x a ih =>
    cases b with
    | nil => simp at h
    | cons y b => simp [ih b (by simpa using h)]

end Verif.Props
