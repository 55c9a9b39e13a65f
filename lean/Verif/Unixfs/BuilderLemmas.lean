import Verif.Unixfs.Builder

/-!
# Facts about collecting the entries of a directory tree
-/

namespace Verif.Unixfs

open Verif

/-! ## Paths -/

theorem splitSlash_head {s : Bytes} {r : List Bytes} (h : splitSlash s = [] :: r) :
    s = [] ∨ ∃ t, s = 47 :: t := by
  cases s with
  | nil => exact Or.inl rfl
  | cons c s =>
    simp only [splitSlash] at h
    split at h
    · rename_i hc; exact Or.inr ⟨s, by rw [hc]⟩
    · split at h <;> simp at h

theorem endsInSlash_cons {c : UInt8} {s : Bytes} (hs : s ≠ []) : endsInSlash (c :: s) = endsInSlash s := by
  cases s with
  | nil => exact absurd rfl hs
  | cons d s => simp [endsInSlash, List.getLast?_cons_cons]

theorem repeatsSlash_cons {c : UInt8} {s : Bytes} (h : repeatsSlash (c :: s) = false) : repeatsSlash s = false := by
  cases s with
  | nil => rfl
  | cons d s =>
    rw [repeatsSlash.eq_def] at h
    split at h
    · cases h
    · rename_i heq; cases heq
    · rename_i heq; cases heq; exact h

/-- Only the first segment of a path without trailing and repeated slashes may be empty. -/
theorem splitSlash_tail {p : Bytes} (h1 : endsInSlash p = false) (h2 : repeatsSlash p = false) :
    ∀ x ∈ (splitSlash p).tail, x ≠ [] := by
  induction p with
  | nil => simp [splitSlash]
  | cons c s ih =>
    have h2' := repeatsSlash_cons h2
    cases s with
    | nil =>
      simp only [splitSlash]
      split
      · rename_i hc; subst hc; simp [endsInSlash] at h1
      · simp
    | cons d s =>
      have h1' : endsInSlash (d :: s) = false := by rw [← h1]; exact (endsInSlash_cons (by simp)).symm
      have ih := ih h1' h2'
      rw [splitSlash]
      split
      · rename_i hc
        subst hc
        simp only [List.tail_cons]
        cases hs : splitSlash (d :: s) with
        | nil => exact absurd hs (splitSlash_ne_nil _)
        | cons x xs =>
          rw [hs] at ih
          intro y hy
          rcases List.mem_cons.mp hy with rfl | hy
          · rintro rfl
            rcases splitSlash_head hs with h | ⟨t, h⟩
            · cases h
            · simp only [List.cons.injEq] at h
              obtain ⟨rfl, rfl⟩ := h
              simp [repeatsSlash] at h2
          · exact ih y hy
      · cases hs : splitSlash (d :: s) with
        | nil => exact absurd hs (splitSlash_ne_nil _)
        | cons x xs => rw [hs] at ih; exact ih

/-! ## Ordered maps -/

theorem insert_same {ν : Type} {m : BMap ν} (hs : BMap.Sorted m) {k : Bytes} {v : ν} (h : AMap.get m k = some v) :
    BMap.insert m k v = m := by
  refine (hs.insert k v).ext hs (fun k' => ?_)
  rw [BMap.get_insert]
  split
  · rename_i he; rw [he, h]
  · rfl

/-! ## What holds of every tree under construction -/

/-- The tree is well-formed: ids grow towards the leaves and are below the counter, children know
their parent, entries are ordered, only entries of the root may have an empty name and then have no
entries, and leaves and names satisfy the given predicates. -/
inductive Good (L : Leaf → Prop) (M : Bytes → Prop) (n : Nat) : Bool → DirBuilder → Prop where
  | mk {root : Bool} {d : DirBuilder} : d.id < n → BMap.Sorted d.nodes →
      (∀ k e, (k, e) ∈ d.nodes → M k) →
      (root = false → ∀ k e, (k, e) ∈ d.nodes → k ≠ []) →
      (∀ k l, (k, Entry.leaf l) ∈ d.nodes → L l) →
      (∀ k c, (k, Entry.directory c) ∈ d.nodes → c.parentId = some d.id) →
      (∀ k c, (k, Entry.directory c) ∈ d.nodes → d.id < c.id) →
      (∀ k c, (k, Entry.directory c) ∈ d.nodes → k = [] → c.nodes = []) →
      (∀ k c, (k, Entry.directory c) ∈ d.nodes → Good L M n false c) → Good L M n root d

variable {L : Leaf → Prop} {M : Bytes → Prop}

theorem Good.id {n : Nat} {r : Bool} {d : DirBuilder} (h : Good L M n r d) : d.id < n := by cases h; assumption
theorem Good.sorted {n : Nat} {r : Bool} {d : DirBuilder} (h : Good L M n r d) : BMap.Sorted d.nodes := by
  cases h; assumption
theorem Good.name {n : Nat} {r : Bool} {d : DirBuilder} (h : Good L M n r d) :
    ∀ k e, (k, e) ∈ d.nodes → M k := by cases h; assumption
theorem Good.nonempty {n : Nat} {d : DirBuilder} (h : Good L M n false d) :
    ∀ k e, (k, e) ∈ d.nodes → k ≠ [] := by
  match h with
  | .mk _ _ _ h4 _ _ _ _ _ => exact h4 rfl
theorem Good.leaf {n : Nat} {r : Bool} {d : DirBuilder} (h : Good L M n r d) :
    ∀ k l, (k, Entry.leaf l) ∈ d.nodes → L l := by cases h; assumption
theorem Good.parent {n : Nat} {r : Bool} {d : DirBuilder} (h : Good L M n r d) :
    ∀ k c, (k, Entry.directory c) ∈ d.nodes → c.parentId = some d.id := by cases h; assumption
theorem Good.lt {n : Nat} {r : Bool} {d : DirBuilder} (h : Good L M n r d) :
    ∀ k c, (k, Entry.directory c) ∈ d.nodes → d.id < c.id := by cases h; assumption
theorem Good.emptyName {n : Nat} {r : Bool} {d : DirBuilder} (h : Good L M n r d) :
    ∀ k c, (k, Entry.directory c) ∈ d.nodes → k = [] → c.nodes = [] := by cases h; assumption
theorem Good.child {n : Nat} {r : Bool} {d : DirBuilder} (h : Good L M n r d) :
    ∀ k c, (k, Entry.directory c) ∈ d.nodes → Good L M n false c := by cases h; assumption

theorem Good.mono {n m : Nat} {r : Bool} {d : DirBuilder} (h : Good L M n r d) (hm : n ≤ m) : Good L M m r d := by
  induction h with
  | mk h1 h2 h3 h4 h5 h6 h7 h8 _ ih =>
    exact .mk (Nat.lt_of_lt_of_le h1 hm) h2 h3 h4 h5 h6 h7 h8 ih

theorem Good.fresh {n : Nat} {r : Bool} {d : DirBuilder} (hn : d.nodes = []) (hi : d.id < n) : Good L M n r d := by
  refine .mk hi (by rw [hn]; exact List.Pairwise.nil) ?_ ?_ ?_ ?_ ?_ ?_ ?_ <;> rw [hn] <;> simp

/-- Putting an entry. -/
theorem Good.put {n m : Nat} {r : Bool} {d : DirBuilder} (h : Good L M n r d) (hm : n ≤ m) {k : Bytes} {e : Entry}
    (hk : M k) (hk2 : r = false → k ≠ [])
    (hl : ∀ l, e = .leaf l → L l)
    (hd : ∀ c, e = .directory c → c.parentId = some d.id ∧ d.id < c.id ∧ (k = [] → c.nodes = []) ∧ Good L M m false c) :
    Good L M m r { d with nodes := BMap.insert d.nodes k e } := by
  refine .mk (Nat.lt_of_lt_of_le h.id hm) (h.sorted.insert k e) ?_ ?_ ?_ ?_ ?_ ?_ ?_
  · intro k' e' he
    rcases BMap.mem_insert he with he | he
    · cases he; exact hk
    · exact h.name k' e' he
  · intro hr k' e' he
    rcases BMap.mem_insert he with he | he
    · cases he; exact hk2 hr
    · subst hr; exact h.nonempty k' e' he
  · intro k' l he
    rcases BMap.mem_insert he with he | he
    · cases he; exact hl l rfl
    · exact h.leaf k' l he
  · intro k' c he
    rcases BMap.mem_insert he with he | he
    · cases he; exact (hd c rfl).1
    · exact h.parent k' c he
  · intro k' c he
    rcases BMap.mem_insert he with he | he
    · cases he; exact (hd c rfl).2.1
    · exact h.lt k' c he
  · intro k' c he
    rcases BMap.mem_insert he with he | he
    · cases he; exact (hd c rfl).2.2.1
    · exact h.emptyName k' c he
  · intro k' c he
    rcases BMap.mem_insert he with he | he
    · cases he; exact (hd c rfl).2.2.2
    · exact (h.child k' c he).mono hm

/-! ## Putting at the end of the path -/

/-- What is put keeps trees well-formed, fails without a change, and does not fail in an empty
directory. -/
structure FnOk (L : Leaf → Prop) (M : Bytes → Prop) (f : PutFn) : Prop where
  ok : ∀ {n r d name d' taken}, Good L M n r d → M name → (r = false → name ≠ []) →
    f d name n = (d', taken, .ok ()) →
    Good L M (if taken then n + 1 else n) r d' ∧ d'.id = d.id ∧ d'.parentId = d.parentId
  error : ∀ {n r d name d' taken e}, Good L M n r d →
    f d name n = (d', taken, .error e) → d' = d ∧ taken = false ∧ e ≠ .panic
  empty : ∀ {n d name}, d.nodes = [] → d.id < n → (f d name n).2.2 = .ok ()

theorem FnOk.putLeaf {l : Leaf} (hl : L l) : FnOk L M (putLeaf l) where
  ok := by
    intro n r d name d' taken hg hM hr h
    unfold Unixfs.putLeaf at h
    split at h
    · cases h
    · cases h
      exact ⟨hg.put (Nat.le_refl _) hM hr (fun _ h => by cases h; exact hl) (fun _ h => by cases h), rfl, rfl⟩
  error := by
    intro n r d name d' taken e _ h
    unfold Unixfs.putLeaf at h
    split at h
    · cases h; exact ⟨rfl, rfl, by simp⟩
    · cases h
  empty := by
    intro n d name hn _
    simp [Unixfs.putLeaf, hn, AMap.get]

theorem FnOk.putMeta (m : Metadata) : FnOk L M (putMeta m) where
  ok := by
    intro n r d name d' taken hg hM hr h
    unfold Unixfs.putMeta at h
    split at h
    · rename_i c hc
      have hmem := AMap.mem_of_get hc
      cases h
      refine ⟨hg.put (Nat.le_refl _) hM hr (fun _ h => by cases h) ?_, rfl, rfl⟩
      intro c' hc'
      cases hc'
      have hgc := hg.child _ _ hmem
      exact ⟨hg.parent _ c hmem, hg.lt _ c hmem, hg.emptyName _ c hmem,
        .mk hgc.id hgc.sorted hgc.name (fun _ => hgc.nonempty) hgc.leaf hgc.parent hgc.lt hgc.emptyName hgc.child⟩
    · cases h
    · split at h
      · cases h
      · rename_i c hc
        unfold DirBuilder.new at hc
        split at hc
        · cases hc
        · cases hc
          cases h
          refine ⟨hg.put (Nat.le_succ _) hM hr (fun _ h => by cases h) ?_, rfl, rfl⟩
          intro c' hc'
          cases hc'
          exact ⟨rfl, hg.id, fun _ => rfl, Good.fresh rfl (by simp)⟩
  error := by
    intro n r d name d' taken e hg h
    unfold Unixfs.putMeta at h
    split at h
    · cases h
    · cases h; exact ⟨rfl, rfl, by simp⟩
    · split at h
      · rename_i hc
        unfold DirBuilder.new at hc
        split at hc
        · rename_i he; have := hg.id; omega
        · cases hc
      · cases h
  empty := by
    intro n d name hn hi
    have h : DirBuilder.new d.id n = some ⟨[], {}, some d.id, n⟩ := if_neg (by omega)
    simp [Unixfs.putMeta, hn, AMap.get, h]

/-! ## The walk down -/

theorem descend_last (wrap : Bool) (f : PutFn) (depth : Nat) (d : DirBuilder) (n : Nat) (name : Bytes)
    (h : depth ≠ 0 → name ≠ []) :
    descend wrap f depth d n [name] =
      if depth = 0 ∧ wrap = false ∧ d.nodes.isEmpty = false then (d, n, .error .tooManyRootLevelEntries)
      else ((f d name n).1, if (f d name n).2.1 then n + 1 else n, (f d name n).2.2) := by
  rw [descend]
  simp only [List.isEmpty_nil, Bool.true_eq_false, and_false, if_false]
  rw [if_neg (fun hh => h hh.1 hh.2)]
  simp only [if_true]

theorem descend_cons (wrap : Bool) (f : PutFn) (depth : Nat) (d : DirBuilder) (n : Nat) (name next : Bytes)
    (rest : List Bytes) :
    descend wrap f depth d n (name :: next :: rest) =
      if name = [] then (d, n, .error (if depth = 0 then .rootedPath else .panic))
      else match AMap.get d.nodes name with
        | some (.directory c) =>
          let r := descend wrap f (depth + 1) c n (next :: rest)
          ({ d with nodes := BMap.insert d.nodes name (.directory r.1) }, r.2.1, r.2.2)
        | some (.leaf _) => (d, n, .error .leafAsDirectory)
        | none =>
          if depth = 0 ∧ wrap = false ∧ d.nodes.isEmpty = false then (d, n, .error .tooManyRootLevelEntries)
          else
            match DirBuilder.new d.id n with
            | none => (d, n + 1, .error .panic)
            | some c =>
              let r := descend wrap f (depth + 1) c (n + 1) (next :: rest)
              ({ d with nodes := BMap.insert d.nodes name (.directory r.1) }, r.2.1, r.2.2) := by
  conv => lhs; rw [descend]
  simp only [List.isEmpty_cons]
  by_cases hn : name = []
  · by_cases hd : depth = 0
    · simp [hn, hd]
    · simp [hn, hd]
  · rw [if_neg (fun h => hn h.2.1), if_neg (fun h => hn h.2), if_neg hn]
    simp only [Bool.false_eq_true, if_false]
    rfl

/-- Below a new directory nothing fails. -/
theorem descend_empty {f : PutFn} (hf : FnOk L M f) {wrap : Bool} {depth : Nat} (hd : 0 < depth) {d : DirBuilder}
    {n : Nat} (hn : d.nodes = []) (hi : d.id < n) {segs : List Bytes} (hne : segs ≠ [])
    (hs : ∀ x ∈ segs, x ≠ []) : (descend wrap f depth d n segs).2.2 = .ok () := by
  induction segs generalizing depth d n with
  | nil => exact absurd rfl hne
  | cons name rest ih =>
    cases rest with
    | nil =>
      rw [descend_last _ _ _ _ _ _ (fun _ => hs name (by simp)), if_neg (fun h => by omega)]
      exact hf.empty hn hi
    | cons next rest =>
      have h : DirBuilder.new d.id n = some ⟨[], {}, some d.id, n⟩ := if_neg (by omega)
      rw [descend_cons, if_neg (hs name (by simp)), hn]
      simp only [AMap.get]
      rw [if_neg (fun h => by omega), h]
      exact ih (by omega) rfl (by simp) (by simp) (fun x hx => hs x (by simp at hx ⊢; exact Or.inr hx))

/-- The walk keeps the tree well-formed, and a failing one changes nothing. -/
theorem descend_good {f : PutFn} (hf : FnOk L M f) {wrap : Bool} {depth : Nat} {r : Bool} (hr : r = false → 0 < depth)
    (hr2 : r = true → depth = 0) {d d' : DirBuilder} {n n' : Nat}
    {res : Except PutErr Unit} {segs : List Bytes} (hg : Good L M n r d) (hne : segs ≠ [])
    (hM : ∀ x ∈ segs, M x) (hs : ∀ x ∈ segs.tail, x ≠ []) (hs0 : r = false → ∀ x ∈ segs, x ≠ [])
    (h : descend wrap f depth d n segs = (d', n', res)) :
    Good L M n' r d' ∧ n ≤ n' ∧ d'.id = d.id ∧ d'.parentId = d.parentId ∧
      (∀ e, res = .error e → d' = d ∧ n' = n ∧ e ≠ .panic) := by
  induction segs generalizing depth r d d' n n' res with
  | nil => exact absurd rfl hne
  | cons name rest ih =>
    cases rest with
    | nil =>
      rw [descend_last _ _ _ _ _ _ (fun hd => hs0 (by cases r; rfl; exact absurd (hr2 rfl) hd) name (by simp))] at h
      split at h
      · cases h; exact ⟨hg, Nat.le_refl _, rfl, rfl, by intro e he; cases he; exact ⟨rfl, rfl, by simp⟩⟩
      · rcases hfx : f d name n with ⟨x1, x2, x3⟩
        rw [hfx] at h
        cases h
        cases x3 with
        | ok u =>
          obtain ⟨h1, h2, h3⟩ := hf.ok hg (hM name (by simp)) (fun hh => hs0 hh name (by simp)) hfx
          exact ⟨h1, by split <;> omega, h2, h3, by intro e he; cases he⟩
        | error e =>
          obtain ⟨rfl, rfl, h3⟩ := hf.error hg hfx
          exact ⟨hg, by simp, rfl, rfl, by intro e' he; cases he; exact ⟨rfl, by simp, h3⟩⟩
    | cons next rest =>
      rw [descend_cons] at h
      split at h
      · rename_i hname
        subst hname
        have hr1 : r = true := by
          cases r with
          | true => rfl
          | false => exact absurd rfl (hs0 rfl [] (by simp))
        rw [if_pos (hr2 hr1)] at h
        cases h; exact ⟨hg, Nat.le_refl _, rfl, rfl, by intro e he; cases he; exact ⟨rfl, rfl, by simp⟩⟩
      · rename_i hname
        have hrest : ∀ x ∈ next :: rest, x ≠ [] := fun x hx => hs x hx
        split at h
        · rename_i c hc
          have hmem := AMap.mem_of_get hc
          rcases hrec : descend wrap f (depth + 1) c n (next :: rest) with ⟨c', n2, res2⟩
          rw [hrec] at h
          cases h
          obtain ⟨h1, h2, h3, h4, h5⟩ := ih (depth := depth + 1) (r := false) (by simp) (by simp)
            (hg.child _ _ hmem) (by simp)
            (fun x hx => hM x (by simp at hx ⊢; exact Or.inr hx)) (fun x hx => hrest x (List.mem_of_mem_tail hx))
            (fun _ => hrest) hrec
          refine ⟨?_, h2, rfl, rfl, ?_⟩
          · refine hg.put h2 (hM name (by simp)) (fun hh => hname) (fun _ h => by cases h) ?_
            intro c2 hc2
            cases hc2
            exact ⟨by rw [h4]; exact hg.parent _ _ hmem, by rw [h3]; exact hg.lt _ _ hmem,
              fun hh => absurd hh hname, h1⟩
          · intro e he
            obtain ⟨e1, e2, e3⟩ := h5 e he
            refine ⟨?_, e2, e3⟩
            rw [e1, insert_same hg.sorted hc]
        · cases h; exact ⟨hg, Nat.le_refl _, rfl, rfl, by intro e he; cases he; exact ⟨rfl, rfl, by simp⟩⟩
        · split at h
          · cases h; exact ⟨hg, Nat.le_refl _, rfl, rfl, by intro e he; cases he; exact ⟨rfl, rfl, by simp⟩⟩
          · have hnew : DirBuilder.new d.id n = some ⟨[], {}, some d.id, n⟩ :=
              if_neg (by have := hg.id; omega)
            rw [hnew] at h
            simp only [] at h
            rcases hrec : descend wrap f (depth + 1) ⟨[], {}, some d.id, n⟩ (n + 1) (next :: rest) with ⟨c', n2, res2⟩
            rw [hrec] at h
            cases h
            obtain ⟨h1, h2, h3, h4, h5⟩ := ih (depth := depth + 1) (r := false) (by simp) (by simp)
              (Good.fresh (d := ⟨[], {}, some d.id, n⟩) rfl (by simp)) (by simp)
              (fun x hx => hM x (by simp at hx ⊢; exact Or.inr hx)) (fun x hx => hrest x (List.mem_of_mem_tail hx))
              (fun _ => hrest) hrec
            have hok := descend_empty hf (wrap := wrap) (depth := depth + 1) (by omega)
              (d := ⟨[], {}, some d.id, n⟩) (n := n + 1) rfl (by simp) (by simp) hrest
            rw [hrec] at hok
            simp only at hok
            refine ⟨?_, (by show n ≤ n2; omega), rfl, rfl, ?_⟩
            · refine hg.put (m := n2) (by omega) (hM name (by simp)) (fun hh => hname) (fun _ h => by cases h) ?_
              intro c2 hc2
              cases hc2
              exact ⟨h4, by rw [h3]; exact hg.id, fun hh => absurd hh hname, h1⟩
            · intro e he; rw [hok] at he; cases he

end Verif.Unixfs
