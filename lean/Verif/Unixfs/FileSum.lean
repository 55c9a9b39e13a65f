import Verif.Unixfs.FileFacts

/-! # How many bytes the adder emits, and when `finish` emits nothing -/

namespace Verif.Unixfs

open Verif

/-- The length of the block of a tree. -/
def AnyT.size (sha : Bytes → Bytes) (t : AnyT) : Nat := (t.block sha).2.length

/-- The lengths of blocks, added up. -/
def sizesOf (sha : Bytes → Bytes) (ts : List AnyT) : Nat := (ts.map (AnyT.size sha)).sum

theorem sizesOf_append (sha : Bytes → Bytes) (a b : List AnyT) :
    sizesOf sha (a ++ b) = sizesOf sha a + sizesOf sha b := by simp [sizesOf]

theorem sizesOf_map (sha : Bytes → Bytes) (ts : List AnyT) :
    ((ts.map (AnyT.block sha)).map (fun b => b.2.length)).sum = sizesOf sha ts := by
  simp only [sizesOf, List.map_map]; rfl

theorem Abs.flush_sum (sha : Bytes → Bytes) {bf : Nat} {st : Abs}
    (h : sizesOf sha st.log = sizesOf sha (st.leaves.map T.any) + sizesOf sha (st.t1.map T.any)) (b : Bytes) :
    sizesOf sha (st.flush bf b).log =
      sizesOf sha ((st.flush bf b).leaves.map T.any) + sizesOf sha ((st.flush bf b).t1.map T.any) := by
  have hl := Abs.flush_leaves bf st b
  rw [hl, List.map_append, sizesOf_append]
  by_cases hcase : (st.t0 ++ [T.leaf b]).length ≤ bf
  · have e1 : (st.flush bf b).t1 = st.t1 := by unfold Abs.flush; simp only []; rw [if_pos hcase]
    have e2 : (st.flush bf b).log = st.log ++ [(T.leaf b).any] := by
      unfold Abs.flush; simp only []; rw [if_pos hcase]; rfl
    rw [e1, e2, sizesOf_append, h]
    simp only [List.map_cons, List.map_nil]
    omega
  · have e1 : (st.flush bf b).t1 = st.t1 ++ [T.node ((st.t0 ++ [T.leaf b]).take bf)] := by
      unfold Abs.flush; simp only []; rw [if_neg hcase]
    have e2 : (st.flush bf b).log =
        (st.log ++ [(T.leaf b).any]) ++ [(T.node ((st.t0 ++ [T.leaf b]).take bf)).any] := by
      unfold Abs.flush; simp only []; rw [if_neg hcase]; simp [T.any]
    rw [e1, e2, sizesOf_append, sizesOf_append, h, List.map_append, sizesOf_append]
    simp only [List.map_cons, List.map_nil]
    omega

theorem Abs.run_sum (sha : Bytes → Bytes) {chunk bf : Nat} (content : Bytes) :
    sizesOf sha (Abs.run chunk bf content).log =
      sizesOf sha ((Abs.run chunk bf content).leaves.map T.any) +
        sizesOf sha ((Abs.run chunk bf content).t1.map T.any) := by
  have key : ∀ (more : Bytes) (st : Abs),
      sizesOf sha st.log = sizesOf sha (st.leaves.map T.any) + sizesOf sha (st.t1.map T.any) →
      sizesOf sha (more.foldl (Abs.byte chunk bf) st).log =
        sizesOf sha ((more.foldl (Abs.byte chunk bf) st).leaves.map T.any) +
          sizesOf sha ((more.foldl (Abs.byte chunk bf) st).t1.map T.any) := by
    intro more
    induction more with
    | nil => intro st h; exact h
    | cons b bs ih =>
      intro st h
      refine ih _ ?_
      unfold Abs.byte
      split
      · exact h
      · exact Abs.flush_sum sha h _
  exact key content {} (by simp [Abs.leaves, sizesOf])

/-- The total of the root is what the given trees have and what is made on the way. -/
theorem collapse_sum (sha : Bytes → Bytes) {bf : Nat} (hb : 0 < bf) :
    ∀ (fuel : Nat) {d : Nat} (ts : List (T d)) log r,
    collapse bf fuel ts = some (log, r) →
      r.2.total sha = (ts.map (T.total sha)).sum + sizesOf sha log := by
  intro fuel
  induction fuel with
  | zero => intro d ts log r h; cases h
  | succ fuel ih =>
    intro d ts log r h
    by_cases h1 : ts.length = 1
    · match ts, h1 with
      | [t], _ =>
        rw [collapse_one] at h; cases h
        simp [sizesOf, T.any]
    · rw [collapse_step _ _ _ h1] at h
      obtain ⟨⟨log', r'⟩, hr, he⟩ := Option.map_eq_some_iff.mp h
      cases he
      have := ih _ _ _ hr
      simp only [] at this ⊢
      rw [this, sizesOf_append]
      have hs : ∀ cs : List (List (T d)), ((cs.map T.node).map (T.total sha)).sum =
          (cs.flatten.map (T.total sha)).sum + sizesOf sha ((cs.map T.node).map T.any) := by
        intro cs
        induction cs with
        | nil => rfl
        | cons c cs ihc =>
          have ht : (T.node c).total sha = ((T.node c).block sha).2.length + (c.map (T.total sha)).sum := rfl
          have hz : sizesOf sha ((T.node c).any :: (cs.map T.node).map T.any) =
              ((T.node c).block sha).2.length + sizesOf sha ((cs.map T.node).map T.any) := by
            simp [sizesOf, AnyT.size, T.any, AnyT.block]
          simp only [List.map_cons, List.sum_cons, List.flatten_cons, List.map_append, List.sum_append]
          rw [ihc, ht, hz]; omega
      rw [hs, chunksOf_flatten hb]
      omega

theorem collapse_unique {bf f1 f2 d : Nat} {ts : List (T d)} {r1 r2}
    (h1 : collapse bf f1 ts = some r1) (h2 : collapse bf f2 ts = some r2) : r1 = r2 := by
  have a := collapse_mono _ f2 _ _ h1
  have b := collapse_mono _ f1 _ _ h2
  rw [Nat.add_comm, b] at a
  exact (Option.some.inj a).symm

/-- What pushing and finishing give, one after the other. -/
theorem adder_parts (sha : Bytes → Bytes) {chunk bf : Nat} (hc : 0 < chunk) (hb : 2 ≤ bf)
    (slices : List Bytes) : ∃ blocks a last,
      Adder.pushSlices sha { chunk := chunk, bf := bf } slices = .ok (blocks, a) ∧
      a.finish sha = .ok last ∧
      (last = [] ↔ slices.flatten.length = chunk) ∧
      (blocks = [] ↔ slices.flatten.length < chunk) ∧
      ∀ root : AnyT, ∀ log, FileLog chunk bf slices.flatten log root →
        ((blocks ++ last).map (fun b => b.2.length)).sum = root.2.total sha := by
  have hb0 : 0 < bf := by omega
  have hst := Abs.run_holds (chunk := chunk) hc hb0 slices.flatten
  have hli := Abs.run_logInv (chunk := chunk) hb0 slices.flatten
  have hsum := Abs.run_sum sha (chunk := chunk) (bf := bf) slices.flatten
  obtain ⟨blocks, a, new, hp, hr, hl, hbl⟩ := Adder.pushSlices_spec sha hc hb0
    slices (a := { chunk := chunk, bf := bf }) (st := {}) ⟨rfl, rfl, rfl, rfl⟩ (Abs.init_inv hc)
  change Rep sha chunk bf a (Abs.run chunk bf slices.flatten) at hr
  change (Abs.run chunk bf slices.flatten).log = [] ++ new at hl
  generalize Abs.run chunk bf slices.flatten = st at *
  obtain ⟨fuel, l, r, log', hcol, hfin, hlog, hne⟩ := Adder.finish_spec sha hc hb hr hst
  have hle := hst.leaves_eq hc
  have hbuf : st.buf.length < chunk := hst.inv.buf
  have hcon : slices.flatten = (st.leaves.map T.bytes).flatten ++ st.buf := hst.content
  have hfull : ∀ x ∈ st.leaves, x.bytes.length = chunk := hst.full0
  have hlen : slices.flatten.length = st.leaves.length * chunk + st.buf.length := by
    rw [hcon, List.length_append]
    congr 1
    generalize st.leaves = ls at hfull
    clear hle
    induction ls with
    | nil => simp
    | cons x xs ih =>
      rw [List.map_cons, List.flatten_cons, List.length_append, hfull x (by simp),
        ih (fun y hy => hfull y (by simp [hy])), List.length_cons, Nat.succ_mul]
      omega
  refine ⟨blocks, a, _, hp, hfin, ?_, ?_, ?_⟩
  · rw [List.map_eq_nil_iff, List.append_eq_nil_iff, List.map_eq_nil_iff, hlen]
    constructor
    · rintro ⟨h1, h2⟩
      have hone : (leavesOf chunk slices.flatten).length = 1 := by
        rcases Classical.em ((leavesOf chunk slices.flatten).length = 1) with h | h
        · exact h
        · exact absurd h2 (hne h)
      rw [hle, h1, List.append_nil] at hone
      unfold Abs.lastLeaf at h1
      split at h1
      · rename_i hb'; rw [hone, hb']; simp
      · simp at h1
    · intro h
      have hone : st.leaves.length = 1 ∧ st.buf = [] := by
        cases hn : st.leaves.length with
        | zero => rw [hn] at h; omega
        | succ n =>
          rw [hn, Nat.succ_mul] at h
          have : n * chunk = 0 := by omega
          have : n = 0 := by
            rcases Nat.mul_eq_zero.mp this with h0 | h0
            · exact h0
            · omega
          subst this
          exact ⟨rfl, List.length_eq_zero_iff.mp (by omega)⟩
      have hll : st.lastLeaf = [] := by
        unfold Abs.lastLeaf
        rw [if_pos hone.2, if_neg (by intro h0; rw [h0] at hone; simp at hone)]
      refine ⟨hll, ?_⟩
      have := (collapse_last _ _ _ _ hcol).1 (by rw [hle, hll, List.append_nil]; exact hone.1)
      rw [hlog] at this
      exact (List.append_eq_nil_iff.mp this.1).2
  · have hnew : blocks = [] ↔ st.log = [] := by
      rw [hbl, hl]; simp
    rw [hnew, hlen]
    constructor
    · intro h
      have : st.leaves = [] := by
        cases hx : st.leaves with
        | nil => rfl
        | cons x xs =>
          have := hli.has x.any (by rw [hx]; simp)
          rw [h] at this; simp at this
      rw [this]; simpa using hbuf
    · intro h
      apply hli.none
      cases hx : st.leaves with
      | nil => rfl
      | cons x xs => rw [hx, List.length_cons, Nat.succ_mul] at h; omega
  · intro root log hfl
    obtain ⟨f2, l2, hcol2, _⟩ := hfl.made
    have he := collapse_unique hcol hcol2
    cases he
    rw [collapse_sum sha hb0 _ _ _ _ hcol, hle, hlog, hbl, List.map_append, List.sum_append,
      sizesOf_map, sizesOf_map, sizesOf_append, sizesOf_append]
    have hlog2 : sizesOf sha new = sizesOf sha st.log := by rw [hl]; rfl
    have hleaf : ∀ ts : List (T 0), (ts.map (T.total sha)).sum = sizesOf sha (ts.map T.any) := by
      intro ts
      induction ts with
      | nil => rfl
      | cons t ts ih =>
        rw [List.map_cons, List.sum_cons, ih]
        simp only [sizesOf, List.map_cons, List.sum_cons]
        rfl
    rw [hlog2, hsum, List.map_append, List.sum_append, hleaf, hleaf]
    omega

end Verif.Unixfs
