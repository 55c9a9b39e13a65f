import Verif.Unixfs.AdderLemmas

/-! # Finishing a file: from the leaves to the root -/

namespace Verif.Unixfs

open Verif

/-- A tree together with its depth. -/
def T.any {d : Nat} (t : T d) : AnyT := ⟨d, t⟩

/-- Group by `bf` again and again until one tree is left: the trees made on the way and
the last one. -/
def collapse (bf : Nat) : Nat → {d : Nat} → List (T d) → Option (List AnyT × AnyT)
  | 0, _, _ => none
  | fuel + 1, _, ts =>
    match ts with
    | [t] => some ([], t.any)
    | ts =>
      (collapse bf fuel ((chunksOf bf ts).map T.node)).map
        (fun r => (((chunksOf bf ts).map T.node).map T.any ++ r.1, r.2))

theorem collapse_one (bf fuel : Nat) {d : Nat} (t : T d) :
    collapse bf (fuel + 1) [t] = some ([], t.any) := rfl

theorem collapse_step (bf fuel : Nat) {d : Nat} (ts : List (T d)) (h : ts.length ≠ 1) :
    collapse bf (fuel + 1) ts =
      (collapse bf fuel ((chunksOf bf ts).map T.node)).map
        (fun r => (((chunksOf bf ts).map T.node).map T.any ++ r.1, r.2)) := by
  match ts, h with
  | [], _ => rfl
  | [_], h => exact absurd rfl h
  | _ :: _ :: _, _ => rfl

theorem collapse_isSome {bf : Nat} (hb : 2 ≤ bf) : ∀ (fuel : Nat) {d : Nat} (ts : List (T d)),
    ts ≠ [] → ts.length ≤ fuel → (collapse bf fuel ts).isSome := by
  intro fuel
  induction fuel with
  | zero => intro d ts h hl; exact absurd (List.length_eq_zero_iff.mp (by omega)) h
  | succ fuel ih =>
    intro d ts h hl
    by_cases h1 : ts.length = 1
    · match ts, h1 with
      | [t], _ => rw [collapse_one]; rfl
    · have hpos := List.length_pos_iff.mpr h
      have hlt := chunksOf_length_lt hb (l := ts) (by omega)
      rw [collapse_step _ _ _ h1, Option.isSome_map]
      exact ih _ (by simpa using chunksOf_ne_nil (by omega) h) (by simp; omega)

/-- More fuel does not change the outcome. -/
theorem collapse_mono {bf : Nat} : ∀ (fuel k : Nat) {d : Nat} (ts : List (T d)) r,
    collapse bf fuel ts = some r → collapse bf (fuel + k) ts = some r := by
  intro fuel
  induction fuel with
  | zero => intro k d ts r h; cases h
  | succ fuel ih =>
    intro k d ts r h
    rw [show fuel + 1 + k = fuel + k + 1 by omega]
    by_cases h1 : ts.length = 1
    · match ts, h1 with
      | [t], _ => exact h
    · rw [collapse_step _ _ _ h1] at h ⊢
      obtain ⟨r', hr, rfl⟩ := Option.map_eq_some_iff.mp h
      rw [ih k _ _ hr]; rfl

theorem flushLoop_finish (sha : Bytes → Bytes) {bf : Nat} (hb : 0 < bf) :
    ∀ (fuel level : Nat) (ts : List (T level)) (ret : List Block) log r,
      collapse bf fuel ts = some (log, r) →
      flushLoop sha bf true fuel level (ts.map (T.link sha)) ret =
        .ok ([r.2.link sha], ret ++ log.map (AnyT.block sha)) := by
  intro fuel
  induction fuel with
  | zero => intro level ts ret log r h; cases h
  | succ fuel ih =>
    intro level ts ret log r h
    by_cases h1 : ts.length = 1
    · match ts, h1 with
      | [t], _ =>
        rw [collapse_one] at h
        cases h
        unfold flushLoop
        simp [T.any]
    · rw [collapse_step _ _ _ h1] at h
      obtain ⟨⟨log', r'⟩, hr, he⟩ := Option.map_eq_some_iff.mp h
      cases he
      unfold flushLoop
      simp only [List.length_map, beq_iff_eq, h1, Bool.and_true, Bool.not_true, Bool.and_false,
        Bool.or_false]
      have hl := levelLoop_finish sha hb [] (level := level) (by simp) (ts.length + 1) [] [] ts ret
        (by simp) (by omega)
      simp only [List.nil_append, List.map_nil, List.length_nil, if_true] at hl
      simp only [Nat.add_zero] at hl
      rw [if_neg (by simp), hl]
      simp only []
      rw [ih _ _ _ _ _ hr]
      congr 2
      simp [AnyT.block, T.any, Function.comp_def]

/-- Links of other levels in front are skipped. -/
theorem levelLoop_skip (sha : Bytes → Bytes) {bf level : Nat} (P Q : List Link) (finishing : Bool)
    (hP : P.any (fun l => l.depth == level) = false) (fuel : Nat) (ret : List Block) :
    levelLoop sha bf level finishing fuel (P ++ Q) ret 0 none =
      levelLoop sha bf level finishing fuel (P ++ Q) ret P.length none := by
  cases fuel with
  | zero => rfl
  | succ fuel =>
    unfold levelLoop
    have h1 : (P ++ Q).drop P.length = Q := by simp
    rw [h1, List.drop_zero, findIdx_skip _ _ _ hP]
    cases Q.findIdx? (fun l => l.depth == level) with
    | none => rfl
    | some rel => simp only [Option.map_some, Nat.add_zero]

/-- The bytes of a leaf. -/
def T.bytes (t : T 0) : Bytes := t

@[simp] theorem T.bytes_leaf (b : Bytes) : (T.leaf b).bytes = b := rfl
@[simp] theorem T.leaf_bytes (t : T 0) : T.leaf t.bytes = t := rfl

/-- The finished leaves of the abstract machine. -/
def Abs.leaves (st : Abs) : List (T 0) := (st.t1.map T.kids).flatten ++ st.t0

/-- The abstract machine's trees and leaves are what `chunksOf` gives. -/
structure Abs.Holds (chunk bf : Nat) (st : Abs) (content : Bytes) : Prop where
  inv : st.Inv chunk bf
  full1 : ∀ t ∈ st.t1, (T.kids t).length = bf
  full0 : ∀ l ∈ st.leaves, l.bytes.length = chunk
  content : content = (st.leaves.map T.bytes).flatten ++ st.buf

theorem Abs.init_holds {chunk bf : Nat} (hc : 0 < chunk) : (({} : Abs)).Holds chunk bf [] :=
  ⟨Abs.init_inv hc, by simp, by simp [Abs.leaves], by simp [Abs.leaves]⟩

theorem Abs.flush_leaves (bf : Nat) (st : Abs) (b : Bytes) :
    (st.flush bf b).leaves = st.leaves ++ [T.leaf b] := by
  unfold Abs.flush Abs.leaves
  simp only []
  split
  · simp
  · rw [List.map_append, List.flatten_append, List.append_assoc]
    simp only [List.map_cons, List.map_nil, List.flatten_cons, List.flatten_nil, List.append_nil,
      T.kids_node, List.take_append_drop, List.append_assoc]

theorem Abs.flush_holds {chunk bf : Nat} (hc : 0 < chunk) (hb : 0 < bf) {st : Abs} {content : Bytes}
    (h : st.Holds chunk bf content) (b : Bytes) (hlen : (st.buf ++ b).length = chunk) :
    (st.flush bf (st.buf ++ b)).Holds chunk bf (content ++ b) := by
  refine ⟨Abs.flush_inv hc hb h.inv _, ?_, ?_, ?_⟩
  · intro t ht
    unfold Abs.flush at ht
    simp only [] at ht
    split at ht
    · exact h.full1 t ht
    · rename_i h0
      simp only [List.mem_append, List.mem_singleton] at ht
      rcases ht with ht | rfl
      · exact h.full1 t ht
      · simp only [T.kids_node, List.length_take]; omega
  · rw [Abs.flush_leaves]
    intro l hl
    rw [List.mem_append, List.mem_singleton] at hl
    rcases hl with hl | rfl
    · exact h.full0 l hl
    · exact hlen
  · rw [Abs.flush_leaves, h.content]
    have : (st.flush bf (st.buf ++ b)).buf = [] := by
      unfold Abs.flush; simp only []; split <;> rfl
    simp [this]

theorem Abs.byte_holds {chunk bf : Nat} (hc : 0 < chunk) (hb : 0 < bf) {st : Abs} {content : Bytes}
    (h : st.Holds chunk bf content) (b : UInt8) :
    (st.byte chunk bf b).Holds chunk bf (content ++ [b]) := by
  have hbuf := h.inv.buf
  unfold Abs.byte
  split
  · rename_i hl
    exact ⟨⟨by simpa using hl, h.inv.t0, h.inv.t1⟩, h.full1, h.full0, by
      rw [h.content]; simp [Abs.leaves]⟩
  · exact Abs.flush_holds hc hb h [b] (by simp; omega)

theorem Abs.run_holds {chunk bf : Nat} (hc : 0 < chunk) (hb : 0 < bf) (content : Bytes) :
    (Abs.run chunk bf content).Holds chunk bf content := by
  have key : ∀ (more : Bytes) (st : Abs) (done : Bytes), st.Holds chunk bf done →
      (more.foldl (Abs.byte chunk bf) st).Holds chunk bf (done ++ more) := by
    intro more
    induction more with
    | nil => intro st done h; simpa using h
    | cons b bs ih =>
      intro st done h
      have := ih _ _ (Abs.byte_holds hc hb h b)
      simpa using this
  exact key content {} [] (Abs.init_holds hc)

/-- The leaves of a file: pieces of `chunk` bytes, one empty piece for an empty file. -/
def leavesOf (chunk : Nat) (content : Bytes) : List (T 0) :=
  if content = [] then [T.leaf []] else (chunksOf chunk content).map T.leaf

theorem leavesOf_ne_nil {chunk : Nat} (hc : 0 < chunk) (content : Bytes) :
    leavesOf chunk content ≠ [] := by
  unfold leavesOf
  split
  · simp
  · rename_i h; simpa using chunksOf_ne_nil hc h

/-- The leaf `finish` makes, if any. -/
def Abs.lastLeaf (st : Abs) : List (T 0) :=
  if st.buf = [] then (if st.leaves = [] then [T.leaf []] else []) else [T.leaf st.buf]

theorem Abs.Holds.leaves_eq {chunk bf : Nat} (hc : 0 < chunk) {st : Abs} {content : Bytes}
    (h : st.Holds chunk bf content) : leavesOf chunk content = st.leaves ++ st.lastLeaf := by
  have hch : chunksOf chunk content = st.leaves.map T.bytes ++ chunksOf chunk st.buf := by
    rw [h.content]
    exact chunksOf_append_full hc _ (by
      intro c hcm
      obtain ⟨l, hl, rfl⟩ := List.mem_map.mp hcm
      exact h.full0 l hl) _
  unfold leavesOf Abs.lastLeaf
  by_cases hb : st.buf = []
  · rw [if_pos hb]
    by_cases hl : st.leaves = []
    · have : content = [] := by rw [h.content, hb, hl]; rfl
      simp [this, hl]
    · have hne : content ≠ [] := by
        intro h0
        rw [h0, hb, chunksOf_nil] at hch
        simp at hch; exact hl hch
      rw [if_neg hne, if_neg hl, hch, hb, chunksOf_nil]
      simp [Function.comp_def]
  · have hne : content ≠ [] := by
      intro h0
      have := h.content
      rw [h0] at this
      exact hb (List.append_eq_nil_iff.mp this.symm).2
    rw [if_neg hb, if_neg hne, hch, chunksOf_of_length_le hc hb (Nat.le_of_lt h.inv.buf)]
    simp [Function.comp_def]

theorem Abs.Holds.leaves_nil {chunk bf : Nat} {st : Abs} {content : Bytes}
    (h : st.Holds chunk bf content) (hl : st.leaves = []) : st.t1 = [] ∧ st.t0 = [] := by
  have h0 : st.t0 = [] := (List.append_eq_nil_iff.mp hl).2
  refine ⟨?_, h0⟩
  rcases Classical.em (st.t1 = []) with h1 | h1
  · exact h1
  · exact absurd h0 (h.inv.t1 h1)

/-- `finish` in terms of the leaves. -/
theorem Adder.finish_spec (sha : Bytes → Bytes) {chunk bf : Nat} (hc : 0 < chunk) (hb : 2 ≤ bf)
    {a : Adder} {st : Abs} {content : Bytes} (hr : Rep sha chunk bf a st)
    (h : st.Holds chunk bf content) :
    ∃ fuel log r log', collapse bf fuel (leavesOf chunk content) = some (log, r) ∧
      a.finish sha = .ok ((st.lastLeaf.map T.any ++ log').map (AnyT.block sha)) ∧
      log = st.t1.map T.any ++ log' ∧ ((leavesOf chunk content).length ≠ 1 → log' ≠ []) := by
  obtain ⟨ac, abf, abuf, alinks⟩ := a
  obtain ⟨h1, h2, h3, h4⟩ := hr
  simp only at h1 h2 h3 h4
  subst h1 h2 h3 h4
  have hle := h.leaves_eq hc
  -- the leaf
  have hleaf : flushBufferedLeaf sha st.buf (st.t1.map (T.link sha) ++ st.t0.map (T.link sha)) true =
      ((st.lastLeaf.map (T.block sha)).head?,
        st.t1.map (T.link sha) ++ (st.t0 ++ st.lastLeaf).map (T.link sha)) := by
    unfold flushBufferedLeaf Abs.lastLeaf
    by_cases hbuf : st.buf = []
    · rw [if_pos hbuf]
      by_cases hl : st.leaves = []
      · obtain ⟨e1, e0⟩ := h.leaves_nil hl
        rw [if_pos hl, hbuf, e1, e0]
        simp
        exact ⟨rfl, rfl⟩
      · rw [if_neg hl, hbuf]
        have : (st.t1.map (T.link sha) ++ st.t0.map (T.link sha)).isEmpty = false := by
          rw [List.isEmpty_eq_false_iff]
          intro h0
          simp only [List.append_eq_nil_iff, List.map_eq_nil_iff] at h0
          exact hl (by unfold Abs.leaves; rw [h0.1, h0.2]; rfl)
        simp [this]
    · rw [if_neg hbuf]
      have : st.buf.isEmpty = false := by rw [List.isEmpty_eq_false_iff]; exact hbuf
      simp only [this, Bool.false_and, Bool.false_eq_true, if_false]
      rw [List.map_append, ← List.append_assoc]
      rfl
  have hlast : st.lastLeaf.length ≤ 1 := by
    unfold Abs.lastLeaf; split <;> (try split) <;> simp
  have htl : (st.lastLeaf.map (T.block sha)).head?.toList =
      (st.lastLeaf.map T.any).map (AnyT.block sha) := by
    match hx : st.lastLeaf, hlast with
    | [], _ => simp
    | [x], _ => simp [AnyT.block, T.any]
  have hLne : st.t0 ++ st.lastLeaf ≠ [] := by
    intro h0
    obtain ⟨e0, el⟩ := List.append_eq_nil_iff.mp h0
    have e1 : st.t1 = [] := by
      rcases Classical.em (st.t1 = []) with h1 | h1
      · exact h1
      · exact absurd e0 (h.inv.t1 h1)
    have hl : st.leaves = [] := by unfold Abs.leaves; rw [e1, e0]; rfl
    unfold Abs.lastLeaf at el
    rw [hl] at el
    split at el <;> simp at el
  have hchunks : (chunksOf abf (leavesOf ac content)).map T.node =
      st.t1 ++ (chunksOf abf (st.t0 ++ st.lastLeaf)).map T.node := by
    rw [hle]
    unfold Abs.leaves
    rw [List.append_assoc, chunksOf_append_full (by omega) _ (by
      intro c hcm
      obtain ⟨t, ht, rfl⟩ := List.mem_map.mp hcm
      exact h.full1 t ht)]
    simp [Function.comp_def]
  unfold Adder.finish
  simp only []
  rw [hleaf]
  simp only [htl]
  by_cases hone : st.t1 = [] ∧ (st.t0 ++ st.lastLeaf).length = 1
  · obtain ⟨e1, e2⟩ := hone
    match hx : st.t0 ++ st.lastLeaf, e2 with
    | [x], _ =>
      have hlv : leavesOf ac content = [x] := by
        rw [hle]; unfold Abs.leaves; rw [e1]; simpa using hx
      refine ⟨1, [], x.any, [], ?_, ?_, ?_⟩
      · rw [hlv, collapse_one]
      · rw [e1]; simp [flushLinks, flushLoop]
      · rw [e1]; exact ⟨rfl, fun h0 => absurd (by rw [hlv]; rfl) h0⟩
  · have hne1 : (st.t1.map (T.link sha) ++ (st.t0 ++ st.lastLeaf).map (T.link sha)).length ≠ 1 := by
      intro hlen
      apply hone
      have := List.length_pos_iff.mpr hLne
      simp only [List.length_append, List.length_map] at hlen this
      refine ⟨List.length_eq_zero_iff.mp (by omega), by simp; omega⟩
    have hlne1 : (leavesOf ac content).length ≠ 1 := by
      intro hlen
      apply hone
      have hp := List.length_pos_iff.mpr hLne
      rw [hle, Abs.leaves, List.append_assoc, List.length_append] at hlen
      have hfl : ((st.t1.map T.kids).flatten).length = 0 := by omega
      refine ⟨?_, by omega⟩
      cases ht : st.t1 with
      | nil => rfl
      | cons x xs =>
        rw [ht] at hfl
        have := h.full1 x (by rw [ht]; simp)
        simp at hfl
        rw [hfl.1] at this
        simp at this; omega
    have hP := any_map_link_eq sha (show (1 : Nat) ≠ 0 by omega) st.t1
    have hll := levelLoop_finish sha (bf := abf) (level := 0) (by omega) (st.t1.map (T.link sha)) hP
      ((st.t1.map (T.link sha) ++ (st.t0 ++ st.lastLeaf).map (T.link sha)).length + 1) [] []
      (st.t0 ++ st.lastLeaf) [] (by simp) (by simp; omega)
    have hsome := collapse_isSome (bf := abf) hb
      ((st.t1.map (T.link sha) ++ (st.t0 ++ st.lastLeaf).map (T.link sha)).length + 1)
      (st.t1 ++ (chunksOf abf (st.t0 ++ st.lastLeaf)).map T.node)
      (by
        have := chunksOf_ne_nil (n := abf) (by omega) hLne
        simp [this])
      (by
        have := chunksOf_length_le (n := abf) (by omega) (st.t0 ++ st.lastLeaf)
        simp only [List.length_append, List.length_map] at this ⊢; omega)
    obtain ⟨⟨log, r⟩, hcol⟩ := Option.isSome_iff_exists.mp hsome
    have hfl := flushLoop_finish sha (bf := abf) (by omega) _ 1 _
      ([] ++ ((chunksOf abf (st.t0 ++ st.lastLeaf)).map T.node).map (T.block sha)) _ _ hcol
    refine ⟨(st.t1.map (T.link sha) ++ (st.t0 ++ st.lastLeaf).map (T.link sha)).length + 1 + 1,
      st.t1.map T.any ++ (((chunksOf abf (st.t0 ++ st.lastLeaf)).map T.node).map T.any ++ log), r,
      ((chunksOf abf (st.t0 ++ st.lastLeaf)).map T.node).map T.any ++ log, ?_, ?_, rfl, fun _ h0 => by
        have := chunksOf_ne_nil (n := abf) (by omega) hLne
        simp [this] at h0⟩
    · rw [collapse_step _ _ _ hlne1, hchunks, hcol]
      simp
    · unfold flushLinks
      unfold flushLoop
      rw [if_neg (by simpa using hne1)]
      simp only [List.map_nil, List.nil_append, List.length_nil, Nat.add_zero, if_true] at hll
      rw [levelLoop_skip sha _ _ _ hP, hll]
      simp only []
      simp only [List.map_append, List.nil_append, Nat.zero_add] at hfl ⊢
      rw [hfl]
      simp [AnyT.block, T.any, Function.comp_def]

end Verif.Unixfs
