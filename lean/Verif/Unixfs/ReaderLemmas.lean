import Verif.Unixfs.FileFacts
import Verif.Unixfs.Reader

/-! # Reading back a file tree -/

namespace Verif.Unixfs

open Verif

/-- The part of `c`, placed at offset `a`, inside of the target. -/
def slice (target : Option Rng) (a : Nat) (c : Bytes) : Bytes :=
  match target with
  | none => c
  | some t => (c.take (t.stop - a)).drop (t.start - a)

theorem slice_nil (target : Option Rng) (a : Nat) : slice target a [] = [] := by
  cases target <;> simp [slice]

theorem slice_append (target : Option Rng) (a : Nat) (c1 c2 : Bytes) :
    slice target a (c1 ++ c2) = slice target a c1 ++ slice target (a + c1.length) c2 := by
  cases target with
  | none => rfl
  | some t =>
    simp only [slice, List.take_append, List.drop_append, List.length_take]
    congr 1
    by_cases h : t.stop - a ≤ c1.length
    · have : t.stop - a - c1.length = 0 := by omega
      have h2 : t.stop - (a + c1.length) = 0 := by omega
      rw [this, h2]; simp
    · have h1 : min (t.stop - a) c1.length = c1.length := by omega
      rw [h1]
      congr 1
      · omega
      · congr 1; omega

/-- Nothing of an untouched block is in the target. -/
theorem slice_untouched {target : Option Rng} {a : Nat} {c : Bytes}
    (h : inTarget ⟨a, a + c.length⟩ target = false) : slice target a c = [] := by
  cases target with
  | none => simp [inTarget] at h
  | some t =>
    simp only [inTarget, decide_eq_false_iff_not] at h
    simp only [slice]
    apply List.drop_eq_nil_of_le
    rw [List.length_take]
    omega

/-- For a touched leaf the code's slicing is within bounds and right. -/
theorem maybeTargetSlice_touched {target : Option Rng} {a : Nat} {c : Bytes}
    (h : inTarget ⟨a, a + c.length⟩ target = true) :
    maybeTargetSlice c ⟨a, a + c.length⟩ target = some (slice target a c) := by
  cases target with
  | none => rfl
  | some t =>
    have ht := h
    simp only [inTarget, decide_eq_true_eq] at h
    simp only [maybeTargetSlice, targetSlice, ht, Bool.not_true, Bool.false_eq_true, if_false, slice]
    by_cases h1 : t.start < a
    · simp only [h1, if_true]
      rw [if_pos (by omega)]
      congr 1
      rw [show t.start - a = 0 by omega]
      simp only [List.drop_zero]
      by_cases h2 : t.stop ≤ a + c.length
      · congr 1; omega
      · rw [List.take_of_length_le (by omega), List.take_of_length_le (by omega)]
    · simp only [h1, if_false]
      by_cases h2 : t.stop > a + c.length
      · simp only [h2, if_true]
        rw [if_pos (by omega)]
        rw [List.take_of_length_le (i := t.stop - a) (by omega), List.take_of_length_le (by omega)]
      · simp only [h2, if_false]
        rw [if_pos (by omega)]
        congr 3; omega

/-- The links of the children that are touched, in order. -/
def pend (sha : Bytes → Bytes) (target : Option Rng) {d : Nat} :
    Nat → List (T d) → List (Cid × Rng)
  | _, [] => []
  | a, k :: ks =>
    if inTarget ⟨a, a + k.content.length⟩ target then
      ((k.block sha).1, ⟨a, a + k.content.length⟩) :: pend sha target (a + k.content.length) ks
    else pend sha target (a + k.content.length) ks

/-- Total content length of a list of trees. -/
def lenF {d : Nat} (ks : List (T d)) : Nat := (ks.map (fun k => k.content.length)).sum

theorem lenF_kids {d : Nat} (t : T (d + 1)) : lenF t.kids = t.content.length := by
  rw [T.content, sum_map_length_flatten, lenF]

section

variable {sha : Bytes → Bytes} (hsha : ∀ b, (sha b).length = 32)
include hsha

theorem collectPending_kids (target : Option Rng) {d : Nat} (ks : List (T d)) :
    ∀ (i a : Nat), a + lenF ks < 2 ^ 64 →
      collectPending target i a ((ks.map (T.pbLink sha)).zip (ks.map (fun k => k.content.length))) =
        .ok (pend sha target a ks) := by
  induction ks with
  | nil => intro i a _; rfl
  | cons k ks ih =>
    intro i a h
    simp only [lenF, List.map_cons, List.sum_cons] at h
    have hi := ih (i + 1) (a + k.content.length) (by unfold lenF; omega)
    simp only [List.map_cons, List.zip_cons_cons, collectPending, pend]
    rw [if_neg (by omega), hi]
    have hcid : Cid.ofBytes ((k.pbLink sha).hash.getD []) = some (k.block sha).1 :=
      Cid.ofBytes_toBytes _ (T.cid_valid hsha k)
    rw [hcid]
    split <;> rfl

/-- Reading the block of a leaf. -/
theorem fromContinued_leaf {chunk bf : Nat} (hchunk : chunk ≤ 2 ^ 30) (hbf : bf ≤ 2 ^ 27)
    (t : T 0) (hs : t.Shape chunk bf) (ht : t.total sha < 2 ^ 64) (st : Traversal) (a : Nat)
    (ha : a + t.content.length < 2 ^ 64) :
    FileReader.fromContinued st a (t.block sha).2 =
      .ok { offset := a, ending := .chunk (a + t.content.length), links := [], data := t.content,
            blocksizes := [], metadata := st.metadata, fileSize := t.content.length } := by
  unfold FileReader.fromContinued parseFlat
  rw [T.parse_block hsha hchunk hbf t hs ht (by omega)]
  change FileReader.fromParts (leafFlat t.bytes) a st.metadata = _
  change a + t.bytes.length < 2 ^ 64 at ha
  unfold FileReader.fromParts leafFlat
  have hd : t.content = t.bytes := rfl
  rw [hd]
  cases hx : t.bytes with
  | nil => rw [hx] at ha; simp at ha ⊢; rw [if_pos ha]
  | cons b bs => rw [hx] at ha; simp at ha ⊢; rw [if_pos ha]

/-- Reading the block of an inner node. -/
theorem fromContinued_node {chunk bf : Nat} (hchunk : chunk ≤ 2 ^ 30) (hbf : bf ≤ 2 ^ 27) {d : Nat}
    (t : T (d + 1)) (hs : t.Shape chunk bf) (ht : t.total sha < 2 ^ 64) (st : Traversal) (a : Nat)
    (ha : a + t.content.length < 2 ^ 64) :
    FileReader.fromContinued st a (t.block sha).2 =
      .ok { offset := a, ending := .treeCoverage (a + t.content.length),
            links := t.kids.map (T.pbLink sha), data := [],
            blocksizes := t.kids.map (fun k => k.content.length),
            metadata := st.metadata, fileSize := t.content.length } := by
  unfold FileReader.fromContinued parseFlat
  rw [T.parse_block hsha hchunk hbf t hs ht (by omega)]
  have hne := hs.1
  simp only [T.flat_node, Option.isSome_none, Bool.or_self, Bool.false_eq_true, if_false]
  unfold FileReader.fromParts
  have hemp : (t.kids.map (T.pbLink sha)).isEmpty = false := by
    rw [List.isEmpty_eq_false_iff]; simpa using hne
  simp [hemp, ha]

end

/-- Continue if there is something left. -/
def resume (fetch : Cid → Option Bytes) (fuel : Nat) (v : Visit) : List Bytes × CatEnd :=
  if v.pending = [] then ([], .done) else catLoop fetch fuel v

/-- Put chunks in front. -/
def prepend (cs : List Bytes) (r : List Bytes × CatEnd) : List Bytes × CatEnd := (cs ++ r.1, r.2)

theorem prepend_prepend (a b : List Bytes) (r : List Bytes × CatEnd) :
    prepend a (prepend b r) = prepend (a ++ b) r := by
  simp [prepend]

theorem prepend_nil (r : List Bytes × CatEnd) : prepend [] r = r := by simp [prepend]

/-- The next link fits what was read last. -/
def Ready (st : Traversal) (pending : List (Cid × Rng)) : Prop :=
  ∀ c r tl, pending = (c, r) :: tl → st.lastEnding.check st.lastOffset r = .ok ()

/-- The next link starts where the current subtree ends, and is in the target. -/
def Follows (target : Option Rng) (b : Nat) (rest : List (Cid × Rng)) : Prop :=
  ∀ c r tl, rest = (c, r) :: tl → r.start = b ∧ inTarget r target = true

/-- After a touched subtree ending at `b`, whatever is pending starts at `b`. -/
theorem follows_pend {sha : Bytes → Bytes} {target : Option Rng} {d : Nat} (ks : List (T d)) :
    ∀ {a b : Nat} {rest : List (Cid × Rng)}, (∀ t, target = some t → t.start ≤ a) →
      b = a + lenF ks → Follows target b rest → Follows target a (pend sha target a ks ++ rest) := by
  induction ks with
  | nil =>
    intro a b rest _ hb hf
    simp [lenF] at hb
    subst hb
    simpa [pend] using hf
  | cons k ks ih =>
    intro a b rest hstart hb hf
    simp only [lenF, List.map_cons, List.sum_cons] at hb
    by_cases ht : inTarget ⟨a, a + k.content.length⟩ target = true
    · intro c r tl he
      simp only [pend, ht, if_true, List.cons_append, List.cons.injEq, Prod.mk.injEq] at he
      obtain ⟨⟨_, rfl⟩, _⟩ := he
      exact ⟨rfl, ht⟩
    · -- the target ends before `a`, so nothing later is touched
      have hft : inTarget ⟨a, a + k.content.length⟩ target = false := by simpa using ht
      cases target with
      | none => simp [inTarget] at hft
      | some t =>
        have hs := hstart t rfl
        simp only [inTarget, decide_eq_false_iff_not] at hft
        have hfol := ih (a := a + k.content.length) (b := b) (rest := rest)
          (fun t' h' => by cases h'; omega) (by unfold lenF; omega) hf
        intro c r tl he
        simp only [pend] at he
        rw [if_neg ht] at he
        obtain ⟨h1, h2⟩ := hfol c r tl he
        simp only [inTarget, decide_eq_true_eq] at h2
        omega

section

variable {sha : Bytes → Bytes} (hsha : ∀ b, (sha b).length = 32) {fetch : Cid → Option Bytes}
  {chunk bf : Nat} (hchunk : chunk ≤ 2 ^ 30) (hbf : bf ≤ 2 ^ 27) (target : Option Rng)

/-- Reading a subtree which is next delivers its part of the target and goes on with the rest. -/
def Reads (sha : Bytes → Bytes) (fetch : Cid → Option Bytes) (target : Option Rng) {d : Nat}
    (t : T d) : Prop :=
  ∀ (a : Nat) (rest : List (Cid × Rng)) (st : Traversal),
    a + t.content.length < 2 ^ 64 →
    inTarget ⟨a, a + t.content.length⟩ target = true →
    Ready st (((t.block sha).1, ⟨a, a + t.content.length⟩) :: rest) →
    Follows target (a + t.content.length) rest →
    ∃ (n : Nat) (cs : List Bytes) (st' : Traversal), cs.flatten = slice target a t.content ∧ Ready st' rest ∧
      ∀ fuel, catLoop fetch (fuel + n)
          { pending := ((t.block sha).1, ⟨a, a + t.content.length⟩) :: rest, range := target, state := st } =
        prepend cs (resume fetch fuel { pending := rest, range := target, state := st' })

/-- Reading the touched ones of some siblings. -/
theorem reads_list {d : Nat} :
    ∀ (ks : List (T d)), (∀ k ∈ ks, Reads sha fetch target k) →
    ∀ (a : Nat) (rest : List (Cid × Rng)) (st : Traversal),
      a + lenF ks < 2 ^ 64 →
      Ready st (pend sha target a ks ++ rest) →
      Follows target (a + lenF ks) rest →
      ∃ (n : Nat) (cs : List Bytes) (st' : Traversal),
        cs.flatten = slice target a (ks.map T.content).flatten ∧ Ready st' rest ∧
        ∀ fuel, resume fetch (fuel + n)
            { pending := pend sha target a ks ++ rest, range := target, state := st } =
          prepend cs (resume fetch fuel { pending := rest, range := target, state := st' }) := by
  intro ks
  induction ks with
  | nil =>
    intro _ a rest st _ hr _
    refine ⟨0, [], st, ?_, by simpa [pend] using hr, ?_⟩
    · simp [slice_nil]
    · intro fuel; simp [pend, prepend_nil]
  | cons k ks ih =>
    intro hks a rest st hlen hr hf
    simp only [lenF, List.map_cons, List.sum_cons] at hlen hf
    have hslice : slice target a ((k :: ks).map T.content).flatten =
        slice target a k.content ++ slice target (a + k.content.length) (ks.map T.content).flatten := by
      rw [List.map_cons, List.flatten_cons, slice_append]
    by_cases ht : inTarget ⟨a, a + k.content.length⟩ target = true
    · have hp : pend sha target a (k :: ks) =
          ((k.block sha).1, ⟨a, a + k.content.length⟩) :: pend sha target (a + k.content.length) ks := by
        simp [pend, ht]
      rw [hp, List.cons_append] at hr
      have hfol : Follows target (a + k.content.length)
          (pend sha target (a + k.content.length) ks ++ rest) := by
        refine follows_pend ks (b := a + (k.content.length + lenF ks)) ?_ (by omega) hf
        intro t htt
        subst htt
        simp only [inTarget, decide_eq_true_eq] at ht
        omega
      obtain ⟨n1, c1, st1, hc1, hr1, hcat⟩ := hks k (by simp) a _ st (by unfold lenF at *; omega) ht hr hfol
      obtain ⟨n2, c2, st2, hc2, hr2, hres⟩ := ih (fun x hx => hks x (by simp [hx]))
        (a + k.content.length) rest st1 (by unfold lenF; omega) hr1
        (by rw [Nat.add_assoc]; exact hf)
      refine ⟨n2 + n1, c1 ++ c2, st2, ?_, hr2, ?_⟩
      · rw [List.flatten_append, hc1, hc2, hslice]
      · intro fuel
        rw [hp, List.cons_append]
        rw [show resume fetch (fuel + (n2 + n1)) _ = catLoop fetch (fuel + (n2 + n1)) _ from by
          unfold resume; rw [if_neg (by simp)]]
        rw [← Nat.add_assoc, hcat, hres, prepend_prepend]
    · have hft : inTarget ⟨a, a + k.content.length⟩ target = false := by simpa using ht
      have hp : pend sha target a (k :: ks) = pend sha target (a + k.content.length) ks := by
        simp [pend, hft]
      rw [hp] at hr
      obtain ⟨n2, c2, st2, hc2, hr2, hres⟩ := ih (fun x hx => hks x (by simp [hx]))
        (a + k.content.length) rest st (by unfold lenF; omega) hr
        (by rw [Nat.add_assoc]; exact hf)
      refine ⟨n2, c2, st2, ?_, hr2, ?_⟩
      · rw [hslice, slice_untouched hft, hc2]; rfl
      · intro fuel; rw [hp]; exact hres fuel

/-- If the whole is touched, some child is. -/
theorem pend_ne_nil {d : Nat} (ks : List (T d)) : ∀ (a : Nat), ks ≠ [] →
    inTarget ⟨a, a + lenF ks⟩ target = true → pend sha target a ks ≠ [] := by
  induction ks with
  | nil => intro a h; exact absurd rfl h
  | cons k ks ih =>
    intro a _ ht
    by_cases hk : inTarget ⟨a, a + k.content.length⟩ target = true
    · simp [pend, hk]
    · simp only [pend, hk]
      cases target with
      | none => simp [inTarget] at hk
      | some t =>
        simp only [inTarget, decide_eq_true_eq, lenF, List.map_cons, List.sum_cons] at ht hk
        refine ih _ ?_ ?_
        · intro h0; subst h0; simp at ht; omega
        · unfold inTarget
          refine decide_eq_true ?_
          unfold lenF
          simp only []
          omega

/-- Links of children lie inside of their parent. -/
theorem pend_range {d : Nat} (ks : List (T d)) : ∀ (a : Nat),
    ∀ x ∈ pend sha target a ks, a ≤ x.2.start ∧ x.2.start ≤ x.2.stop ∧ x.2.stop ≤ a + lenF ks := by
  induction ks with
  | nil => intro a x hx; cases hx
  | cons k ks ih =>
    intro a x hx
    have key : x ∈ pend sha target (a + k.content.length) ks →
        a ≤ x.2.start ∧ x.2.start ≤ x.2.stop ∧ x.2.stop ≤ a + lenF (k :: ks) := by
      intro h
      have := ih _ x h
      simp only [lenF, List.map_cons, List.sum_cons] at this ⊢
      omega
    simp only [pend] at hx
    split at hx
    · rcases List.mem_cons.mp hx with rfl | hx
      · simp only [lenF, List.map_cons, List.sum_cons]; omega
      · exact key hx
    · exact key hx

include hsha hchunk hbf in
theorem reads_tree : ∀ {d : Nat} (t : T d), t.Shape chunk bf → t.total sha < 2 ^ 64 →
    (∀ s, Sub s t.any → fetch (s.2.block sha).1 = some (s.2.block sha).2) →
    Reads sha fetch target t := by
  intro d
  induction d with
  | zero =>
    intro t hs htot hfetch a rest st ha ht hr hf
    refine ⟨1, if (slice target a t.content).isEmpty then [] else [slice target a t.content],
      { lastEnding := .chunk (a + t.content.length), lastOffset := a, fileSize := t.content.length,
        metadata := st.metadata }, ?_, ?_, ?_⟩
    · cases hx : slice target a t.content with
      | nil => rfl
      | cons b bs => simp
    · intro c r tl he
      have := (hf c r tl he).1
      simp only [Ending.check]
      rw [if_neg (by omega)]
    · intro fuel
      have hc := hr _ _ _ rfl
      have hfr := fromContinued_leaf hsha hchunk hbf t hs htot st a ha
      unfold catLoop
      have hft : fetch (t.block sha).1 = some (t.block sha).2 := hfetch _ (Sub.refl _)
      simp only [hft, Visit.continueWalk, Traversal.continueWalk, hc, hfr, List.isEmpty_nil, if_true,
        maybeTargetSlice_touched ht, FileReader.traversal]
      cases rest with
      | nil => simp [resume, prepend]
      | cons p ps => simp [resume, prepend]
  | succ d ih =>
    intro t hs htot hfetch a rest st ha ht hr hf
    have hkids : ∀ k ∈ t.kids, Reads sha fetch target k := by
      intro k hk
      refine ih k (hs.2.2 k hk) (Nat.lt_of_le_of_lt (T.kid_total_le t hk) htot) ?_
      intro s hsub
      exact hfetch s (Sub.step hsub (List.mem_map.mpr ⟨k, hk, rfl⟩))
    have hlen := lenF_kids t
    have hne : pend sha target a t.kids ≠ [] :=
      pend_ne_nil target t.kids a hs.1 (by rw [hlen]; exact ht)
    obtain ⟨n, cs, st', hcs, hr', hres⟩ := reads_list target t.kids hkids a rest
      { lastEnding := .treeCoverage (a + t.content.length), lastOffset := a,
        fileSize := t.content.length, metadata := st.metadata } (by omega)
      (by
        intro c r tl he
        have hmem : (c, r) ∈ pend sha target a t.kids := by
          cases hp : pend sha target a t.kids with
          | nil => exact absurd hp hne
          | cons x xs => rw [hp] at he; simp at he; rw [he.1]; simp
        have := pend_range target t.kids a _ hmem
        simp only [Ending.check]
        simp only [] at this
        rw [if_neg (by omega), if_neg (by omega), if_neg (by omega)])
      (by rw [hlen]; exact hf)
    refine ⟨n + 1, cs, st', hcs, hr', ?_⟩
    intro fuel
    have hc := hr _ _ _ rfl
    have hfr := fromContinued_node hsha hchunk hbf t hs htot st a ha
    have hcp := collectPending_kids hsha target t.kids 0 a (by omega)
    have hft : fetch (t.block sha).1 = some (t.block sha).2 := hfetch _ (Sub.refl _)
    have hemp : (t.kids.map (T.pbLink sha)).isEmpty = false := by
      rw [List.isEmpty_eq_false_iff]; simpa using hs.1
    rw [← Nat.add_assoc]
    unfold catLoop
    simp only [hft, Visit.continueWalk, Traversal.continueWalk, hc, hfr, hemp, hcp,
      FileReader.traversal, Bool.false_eq_true, if_false, List.isEmpty_nil, if_true, List.nil_append]
    rw [← hres fuel]
    unfold resume
    rw [if_neg (by simp [hne])]

/-- `cat` of a file tree from its root block. -/
theorem cat_tree (hsha : ∀ b, (sha b).length = 32) (hchunk : chunk ≤ 2 ^ 30) (hbf : bf ≤ 2 ^ 27)
    {d : Nat} (t : T d) (hs : t.Shape chunk bf) (htot : t.total sha < 2 ^ 64)
    (hcl : t.content.length < 2 ^ 64)
    (hfetch : ∀ s, Sub s t.any → fetch (s.2.block sha).1 = some (s.2.block sha).2) :
    ∃ (n : Nat) (cs : List Bytes), cs.flatten = slice target 0 t.content ∧
      ∀ fuel, n ≤ fuel → cat fetch target (t.block sha).2 fuel = (cs, .done) := by
  have hmeta : ∀ {e : Nat} (u : T e), Metadata.of (u.flat sha).data = {} := by
    intro e u; cases e <;> rfl
  have hmode : ∀ {e : Nat} (u : T e), (u.flat sha).data.mode = none ∧ (u.flat sha).data.mtime = none := by
    intro e u; cases e <;> exact ⟨rfl, rfl⟩
  -- the first block is read like a continued one at offset 0
  have hfirst : FileReader.fromBlock (t.block sha).2 =
      FileReader.fromContinued ⟨.chunk 0, 0, 0, {}⟩ 0 (t.block sha).2 := by
    unfold FileReader.fromBlock FileReader.fromContinued parseFlat
    rw [T.parse_block hsha hchunk hbf t hs htot hcl]
    simp only [hmeta, (hmode t).1, (hmode t).2, Option.isSome_none, Bool.or_self,
      Bool.false_eq_true, if_false]
  cases d with
  | zero =>
    have hfr := fromContinued_leaf hsha hchunk hbf t hs htot ⟨.chunk 0, 0, 0, {}⟩ 0 (by omega)
    by_cases ht : inTarget ⟨0, 0 + t.content.length⟩ target = true
    · refine ⟨0, if (slice target 0 t.content).isEmpty then [] else [slice target 0 t.content], ?_, ?_⟩
      · cases hx : slice target 0 t.content with
        | nil => rfl
        | cons b bs => simp
      · intro fuel _
        unfold cat visitStart startFromReader
        have := maybeTargetSlice_touched ht
        rw [Nat.zero_add] at this
        simp only [hfirst, hfr, List.isEmpty_nil, if_true, this]
    · have hft : inTarget ⟨0, 0 + t.content.length⟩ target = false := by simpa using ht
      refine ⟨0, [], by rw [slice_untouched hft]; rfl, ?_⟩
      intro fuel _
      have : maybeTargetSlice t.content ⟨0, t.content.length⟩ target = some [] := by
        rw [Nat.zero_add] at hft
        cases target with
        | none => simp [inTarget] at hft
        | some r => simp [maybeTargetSlice, targetSlice, hft]
      unfold cat visitStart startFromReader
      simp only [hfirst, hfr, List.isEmpty_nil, if_true, this]
  | succ d =>
    have hfr := fromContinued_node hsha hchunk hbf t hs htot ⟨.chunk 0, 0, 0, {}⟩ 0 (by omega)
    have hlen := lenF_kids t
    have hcp := collectPending_kids hsha target t.kids 0 0 (by omega)
    have hemp : (t.kids.map (T.pbLink sha)).isEmpty = false := by
      rw [List.isEmpty_eq_false_iff]; simpa using hs.1
    have hkids : ∀ k ∈ t.kids, Reads sha fetch target k := by
      intro k hk
      refine reads_tree hsha hchunk hbf target k (hs.2.2 k hk)
        (Nat.lt_of_le_of_lt (T.kid_total_le t hk) htot) ?_
      intro s hsub
      exact hfetch s (Sub.step hsub (List.mem_map.mpr ⟨k, hk, rfl⟩))
    obtain ⟨n, cs, st', hcs, hr', hres⟩ := reads_list target t.kids hkids 0 []
      { lastEnding := .treeCoverage (0 + t.content.length), lastOffset := 0,
        fileSize := t.content.length, metadata := {} } (by omega)
      (by
        intro c r tl he
        rw [List.append_nil] at he
        have := pend_range target t.kids 0 (c, r) (by rw [he]; simp)
        simp only [Ending.check]
        simp only [] at this
        rw [if_neg (by omega), if_neg (by omega), if_neg (by omega)])
      (by intro c r tl he; cases he)
    refine ⟨n, cs, hcs, ?_⟩
    intro fuel hfuel
    obtain ⟨k, rfl⟩ : ∃ k, fuel = k + n := ⟨fuel - n, by omega⟩
    have hk := hres k
    unfold cat visitStart startFromReader
    simp only [hfirst, hfr, hemp, hcp, Bool.false_eq_true, if_false, FileReader.traversal]
    rw [List.append_nil] at hk
    cases hp : pend sha target 0 t.kids with
    | nil =>
      rw [hp] at hk
      simp only [resume, if_true, prepend] at hk
      simp at hk
      subst hk
      simp
    | cons p ps =>
      rw [hp] at hk
      simp only [resume, if_true, prepend] at hk
      rw [if_neg (by simp)] at hk
      simp only [hk]
      simp

end

end Verif.Unixfs
