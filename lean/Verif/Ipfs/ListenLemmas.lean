import Verif.Base.Snoc
import Verif.Ipfs.Listen

/-! Lemmas about listening addresses. -/

namespace Verif.AMap

variable {κ ν : Type} [DecidableEq κ]

/-- The sum of a weight over the values. -/
def wsum (f : ν → Nat) (m : AMap κ ν) : Nat := (m.map (fun e => f e.2)).sum

theorem erase_absent {m : AMap κ ν} {k : κ} (h : get m k = none) : erase m k = m := by
  unfold erase
  rw [List.filter_eq_self]
  intro e he
  simp only [ne_eq, decide_eq_true_eq]
  intro hk
  have : k ∈ keys m := List.mem_map.mpr ⟨e, he, hk⟩
  rw [mem_keys_iff, h] at this
  simp at this

theorem wsum_erase {f : ν → Nat} {m : AMap κ ν} (hu : Uniq m) {k : κ} {e : ν} (h : get m k = some e) :
    wsum f (erase m k) + f e = wsum f m := by
  induction m with
  | nil => simp [get] at h
  | cons x m ih =>
    obtain ⟨k', v⟩ := x
    simp only [Uniq, keys, List.map_cons, List.nodup_cons] at hu
    by_cases hk : k' = k
    · subst hk
      simp only [get, if_true, Option.some.injEq] at h
      subst h
      have hn : get m k' = none := by
        cases hg : get m k' with
        | none => rfl
        | some y => exact absurd (List.mem_map.mpr ⟨_, mem_of_get hg, rfl⟩) hu.1
      have : erase ((k', v) :: m) k' = m := by
        rw [show erase ((k', v) :: m) k' = erase m k' by simp [erase], erase_absent hn]
      rw [this]
      simp [wsum, Nat.add_comm]
    · simp only [get, if_neg hk] at h
      have : erase ((k', v) :: m) k = (k', v) :: erase m k := by simp [erase, hk]
      rw [this]
      have := ih hu.2 h
      simp only [wsum, List.map_cons, List.sum_cons] at this ⊢
      omega

theorem wsum_set_absent (f : ν → Nat) {m : AMap κ ν} {k : κ} (v : ν) (h : get m k = none) :
    wsum f (set m k v) = wsum f m + f v := by
  induction m with
  | nil => simp [set, wsum]
  | cons x m ih =>
    obtain ⟨k', v'⟩ := x
    simp only [get] at h
    split at h
    · simp at h
    · rename_i hk
      simp only [set, if_neg hk]
      have := ih h
      simp only [wsum, List.map_cons, List.sum_cons] at this ⊢
      omega

theorem wsum_set_present (f : ν → Nat) {m : AMap κ ν} {k : κ} {e : ν} (v : ν) (h : get m k = some e) :
    wsum f (set m k v) + f e = wsum f m + f v := by
  induction m with
  | nil => simp [get] at h
  | cons x m ih =>
    obtain ⟨k', v'⟩ := x
    simp only [get] at h
    split at h
    · rename_i hk
      simp only [Option.some.injEq] at h
      subst h hk
      simp only [set, if_true, wsum, List.map_cons, List.sum_cons]
      omega
    · rename_i hk
      simp only [set, if_neg hk]
      have := ih h
      simp only [wsum, List.map_cons, List.sum_cons] at this ⊢
      omega

theorem le_wsum (f : ν → Nat) {m : AMap κ ν} {k : κ} {e : ν} (h : get m k = some e) : f e ≤ wsum f m := by
  induction m with
  | nil => simp [get] at h
  | cons x m ih =>
    obtain ⟨k', v'⟩ := x
    simp only [get] at h
    simp only [wsum, List.map_cons, List.sum_cons]
    split at h
    · simp only [Option.some.injEq] at h; subst h; omega
    · have := ih h
      simp only [wsum] at this
      omega

/-- Two keys of weight one need a sum of two. -/
theorem wsum_two (f : ν → Nat) {m : AMap κ ν} (hu : Uniq m) {k k' : κ} {e e' : ν} (h : get m k = some e)
    (h' : get m k' = some e') (hk : k ≠ k') : f e + f e' ≤ wsum f m := by
  have h1 := wsum_erase (f := f) hu h
  have h2 : get (erase m k) k' = some e' := by rw [get_erase_ne _ (Ne.symm hk)]; exact h'
  have h3 := le_wsum f h2
  omega

end Verif.AMap

namespace Verif.Ipfs

open Verif

theorem listen_run_append (s : ListenState) (es es' : List ListenEv) (s2 : ListenState) (o : List ListenOut) :
    s.run (es ++ es') = .ok (s2, o) ↔
      ∃ s1 o1 o2, s.run es = .ok (s1, o1) ∧ s1.run es' = .ok (s2, o2) ∧ o = o1 ++ o2 := by
  induction es generalizing s o with
  | nil =>
    simp only [List.nil_append, ListenState.run, Except.ok.injEq, Prod.mk.injEq]
    constructor
    · intro h; exact ⟨s, [], o, ⟨rfl, rfl⟩, h, rfl⟩
    · rintro ⟨s1, o1, o2, ⟨rfl, rfl⟩, h, rfl⟩; exact h
  | cons e es ih =>
    simp only [List.cons_append, ListenState.run]
    cases h : s.step e with
    | error p => simp
    | ok so =>
      obtain ⟨s', o'⟩ := so
      simp only []
      cases h2 : s'.run (es ++ es') with
      | error p =>
        simp only [reduceCtorEq, false_iff]
        rintro ⟨s1, o1, o2, h3, h4, h5⟩
        cases h6 : s'.run es with
        | error p => rw [h6] at h3; simp at h3
        | ok r =>
          obtain ⟨r1, r2⟩ := r
          rw [h6] at h3
          simp only [Except.ok.injEq, Prod.mk.injEq] at h3
          have := (ih s' (r2 ++ o2)).mpr ⟨r1, r2, o2, h6, by rw [h3.1]; exact h4, rfl⟩
          rw [h2] at this; simp at this
      | ok r =>
        obtain ⟨r1, r2⟩ := r
        have key := ih s' r2
        simp only [Except.ok.injEq, Prod.mk.injEq]
        constructor
        · rintro ⟨rfl, rfl⟩
          obtain ⟨s1, o1, o2, h3, h4, h5⟩ := key.mp h2
          exact ⟨s1, o' ++ o1, o2, by rw [h3], h4, by rw [h5, List.append_assoc]⟩
        · rintro ⟨s1, o1, o2, h3, h4, h5⟩
          cases h6 : s'.run es with
          | error p => rw [h6] at h3; simp at h3
          | ok q =>
            obtain ⟨q1, q2⟩ := q
            rw [h6] at h3
            simp only [Except.ok.injEq, Prod.mk.injEq] at h3
            have := (ih s' (q2 ++ o2)).mpr ⟨q1, q2, o2, h6, by rw [h3.1]; exact h4, rfl⟩
            rw [h2] at this
            simp only [Except.ok.injEq, Prod.mk.injEq] at this
            exact ⟨this.1, by rw [this.2, h5, ← h3.2, List.append_assoc]⟩

theorem listen_run_snoc (s : ListenState) (es : List ListenEv) (e : ListenEv) (s2 : ListenState)
    (o : List ListenOut) :
    s.run (es ++ [e]) = .ok (s2, o) ↔
      ∃ s1 o1 o2, s.run es = .ok (s1, o1) ∧ s1.step e = .ok (s2, o2) ∧ o = o1 ++ o2 := by
  rw [listen_run_append]
  constructor
  · rintro ⟨s1, o1, o2, h1, h2, rfl⟩
    refine ⟨s1, o1, o2, h1, ?_, rfl⟩
    cases h3 : s1.step e with
    | error p => simp [ListenState.run, h3] at h2
    | ok r =>
      simp only [ListenState.run, h3, Except.ok.injEq, Prod.mk.injEq, List.append_nil] at h2
      rw [← h2.1, ← h2.2]
  · rintro ⟨s1, o1, o2, h1, h2, rfl⟩
    exact ⟨s1, o1, o2, h1, by simp [ListenState.run, h2], rfl⟩

theorem nextMatch_some {bound : Maddr} {ks : List Maddr} {k : Maddr} {rest : List Maddr}
    (h : nextMatch bound ks = .ok (some (k, rest))) :
    couldBeBound 0 bound k = some true ∧ ∃ pre, ks = pre ++ k :: rest := by
  induction ks with
  | nil => simp [nextMatch] at h
  | cons x ks ih =>
    simp only [nextMatch] at h
    split at h
    · simp at h
    · rename_i hx
      simp only [Except.ok.injEq, Option.some.injEq, Prod.mk.injEq] at h
      obtain ⟨rfl, rfl⟩ := h
      exact ⟨hx, [], rfl⟩
    · obtain ⟨h1, pre, h2⟩ := ih h
      exact ⟨h1, x :: pre, by rw [h2]; rfl⟩

theorem nextMatch_error {bound : Maddr} {ks : List Maddr} {p : ListenPanic}
    (h : nextMatch bound ks = .error p) : p = .boundToZero ∧ ∃ k ∈ ks, couldBeBound 0 bound k = none := by
  induction ks with
  | nil => simp [nextMatch] at h
  | cons x ks ih =>
    simp only [nextMatch] at h
    split at h
    · rename_i hx
      simp only [Except.error.injEq] at h
      exact ⟨h.symm, x, by simp, hx⟩
    · simp at h
    · obtain ⟨h1, k, h2, h3⟩ := ih h
      exact ⟨h1, k, List.mem_cons_of_mem _ h2, h3⟩

theorem nextMatch_none {bound : Maddr} {ks : List Maddr} (h : nextMatch bound ks = .ok none) :
    ∀ k ∈ ks, couldBeBound 0 bound k = some false := by
  induction ks with
  | nil => simp
  | cons x ks ih =>
    simp only [nextMatch] at h
    split at h
    · simp at h
    · simp at h
    · rename_i hx
      intro k hk
      rcases List.mem_cons.mp hk with rfl | hk
      · exact hx
      · exact ih h k hk

theorem nextUnspecified_some {bound : Maddr} {ks : List (Maddr × LEntry)} {k : Maddr}
    (h : nextUnspecified bound ks = .ok (some k)) :
    startsUnspecified k = true ∧ couldBeBound 1 bound k = some true ∧
      ∃ e, (k, e) ∈ ks ∧ e.pending.isSome = true := by
  induction ks with
  | nil => simp [nextUnspecified] at h
  | cons x ks ih =>
    obtain ⟨k', e⟩ := x
    have lift : nextUnspecified bound ks = .ok (some k) → startsUnspecified k = true ∧
        couldBeBound 1 bound k = some true ∧ ∃ e', (k, e') ∈ (k', e) :: ks ∧ e'.pending.isSome = true := by
      intro h
      obtain ⟨h1, h2, e', h3, h4⟩ := ih h
      exact ⟨h1, h2, e', List.mem_cons_of_mem _ h3, h4⟩
    simp only [nextUnspecified] at h
    split at h
    · rename_i hu
      split at h
      · simp at h
      · rename_i hb
        split at h
        · rename_i hp
          simp only [Except.ok.injEq, Option.some.injEq] at h
          subst h
          exact ⟨hu, hb, e, by simp, hp⟩
        · exact lift h
      · exact lift h
    · exact lift h

theorem nextUnspecified_error {bound : Maddr} {ks : List (Maddr × LEntry)} {p : ListenPanic}
    (h : nextUnspecified bound ks = .error p) :
    p = .boundToZero ∧ ∃ x ∈ ks, couldBeBound 1 bound x.1 = none := by
  induction ks with
  | nil => simp [nextUnspecified] at h
  | cons x ks ih =>
    obtain ⟨k', e⟩ := x
    have lift : nextUnspecified bound ks = .error p →
        p = .boundToZero ∧ ∃ x ∈ (k', e) :: ks, couldBeBound 1 bound x.1 = none := by
      intro h
      obtain ⟨h1, x, h2, h3⟩ := ih h
      exact ⟨h1, x, List.mem_cons_of_mem _ h2, h3⟩
    simp only [nextUnspecified] at h
    split at h
    · split at h
      · rename_i hb
        simp only [Except.error.injEq] at h
        exact ⟨h.symm, (k', e), by simp, hb⟩
      · split at h
        · simp at h
        · exact lift h
      · exact lift h
    · exact lift h

/-- The four ways a notice is taken. -/
inductive Completes (m : AMap Maddr LEntry) (addr : Maddr) (order : AMap Maddr LEntry → AMap Maddr LEntry) :
    AMap Maddr LEntry → Option Nat → Prop where
  | exact (e) : AMap.get m addr = some e → Completes m addr order (AMap.set m addr ⟨e.id, none⟩) e.pending
  | port (k e) : AMap.get m addr = none → k ∈ AMap.keys (order m) → couldBeBound 0 addr k = some true →
      AMap.get m k = some e →
      Completes m addr order (AMap.set (AMap.erase m k) addr ⟨e.id, none⟩) e.pending
  | anyIp (k e) : AMap.get m addr = none → startsUnspecified k = true → couldBeBound 1 addr k = some true →
      (∃ e', (k, e') ∈ order m ∧ e'.pending.isSome = true) → AMap.get m k = some e →
      Completes m addr order (AMap.set (AMap.erase m k) addr ⟨e.id, none⟩) e.pending
  | ignored : AMap.get m addr = none → Completes m addr order m none

theorem complete_cases {m m' : AMap Maddr LEntry} {addr : Maddr}
    {order : AMap Maddr LEntry → AMap Maddr LEntry} {ret : Option Nat}
    (h : complete m addr order = .ok (m', ret)) : Completes m addr order m' ret := by
  unfold complete at h
  cases hg : AMap.get m addr with
  | some e =>
    rw [hg] at h
    simp only [Except.ok.injEq, Prod.mk.injEq] at h
    rw [← h.1, ← h.2]
    exact .exact e hg
  | none =>
    rw [hg] at h
    simp only [] at h
    cases h1 : nextMatch addr (AMap.keys (order m)) with
    | error p => rw [h1] at h; simp at h
    | ok r =>
      rw [h1] at h
      cases r with
      | some fr =>
        obtain ⟨first, rest⟩ := fr
        simp only [] at h
        obtain ⟨hb, pre, hk⟩ := nextMatch_some h1
        cases h2 : nextMatch addr rest with
        | error p => rw [h2] at h; simp at h
        | ok r2 =>
          rw [h2] at h
          cases r2 with
          | some _ => simp at h
          | none =>
            simp only [Except.ok.injEq] at h
            unfold rebind at h
            cases hf : AMap.get m first with
            | none =>
              rw [hf] at h
              simp only [Prod.mk.injEq] at h
              rw [← h.1, ← h.2]
              exact .ignored hg
            | some e =>
              rw [hf] at h
              simp only [Prod.mk.injEq] at h
              rw [← h.1, ← h.2]
              exact .port first e hg (by rw [hk]; simp) hb hf
      | none =>
        simp only [] at h
        cases h2 : nextUnspecified addr (order m) with
        | error p => rw [h2] at h; simp at h
        | ok r2 =>
          rw [h2] at h
          cases r2 with
          | none =>
            simp only [Except.ok.injEq, Prod.mk.injEq] at h
            rw [← h.1, ← h.2]
            exact .ignored hg
          | some first =>
            simp only [Except.ok.injEq] at h
            obtain ⟨hu, hb, hp⟩ := nextUnspecified_some h2
            unfold rebind at h
            cases hf : AMap.get m first with
            | none =>
              rw [hf] at h
              simp only [Prod.mk.injEq] at h
              rw [← h.1, ← h.2]
              exact .ignored hg
            | some e =>
              rw [hf] at h
              simp only [Prod.mk.injEq] at h
              rw [← h.1, ← h.2]
              exact .anyIp first e hg hu hb hp hf

end Verif.Ipfs
