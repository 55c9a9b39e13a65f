import Verif.Repo.Subs

/-!
# C35–C37: waiting for blocks

The theorems hold for every schedule of the model, from any state a schedule leads to.
-/

namespace Verif.Props

open Verif Verif.Repo.Subs

variable {K R : Type} [DecidableEq K]

/-! ### Specification -/

/-- The waiter `i` waits for `k`; `w` tells whether it was polled already. -/
def Waits (s : Reg K R) (k : K) (i : Nat) (w : Bool) : Prop := ∃ n, AMap.get s.subs (k, i) = some (.pending w n)

/-- States that schedules lead to. -/
def SubsReach (s : Reg K R) : Prop := ∃ debug ops, Reg.run debug Reg.init ops = some s

/-! ### Helpers -/

structure SubsInv (s : Reg K R) : Prop where
  uniq : AMap.Uniq s.subs
  owner : ∀ k i sub, AMap.get s.subs (k, i) = some sub → s.futs i = some ⟨k, .live false⟩
  fresh : ∀ i, s.nextId ≤ i → s.futs i = none

theorem get_wakeAll (subs : AMap (K × Nat) (Repo.Subs.Sub R)) (k k' : K) (i : Nat) (r : R) :
    AMap.get (wakeAll subs k r) (k', i) =
      match AMap.get subs (k', i) with
      | some (.pending w n) => if k' = k then some (.ready r) else some (.pending w n)
      | x => x := by
  induction subs with
  | nil => rfl
  | cons e subs ih =>
    obtain ⟨⟨a, j⟩, sub⟩ := e
    by_cases h : (a, j) = (k', i)
    · simp only [Prod.mk.injEq] at h
      obtain ⟨rfl, rfl⟩ := h
      cases sub with
      | pending w n =>
        by_cases hk : a = k
        · simp [wakeAll, AMap.get, hk]
        · simp [wakeAll, AMap.get, hk]
      | ready r' => simp [wakeAll, AMap.get]
      | cancelled => simp [wakeAll, AMap.get]
    · have hget : AMap.get (((a, j), sub) :: subs) (k', i) = AMap.get subs (k', i) := by
        simp [AMap.get, h]
      rw [hget, ← ih]
      cases sub with
      | pending w n =>
        by_cases hk : a = k
        · simp only [wakeAll, List.map_cons, hk, if_true, AMap.get]
          rw [if_neg (by rw [← hk]; exact h)]
        · simp only [wakeAll, List.map_cons, hk, if_false, AMap.get]
          rw [if_neg h]
      | ready r' => simp only [wakeAll, List.map_cons, AMap.get]; rw [if_neg h]
      | cancelled => simp only [wakeAll, List.map_cons, AMap.get]; rw [if_neg h]

theorem keys_wakeAll (subs : AMap (K × Nat) (Repo.Subs.Sub R)) (k : K) (r : R) :
    AMap.keys (wakeAll subs k r) = AMap.keys subs := by
  induction subs with
  | nil => rfl
  | cons e subs ih =>
    obtain ⟨⟨a, j⟩, sub⟩ := e
    simp only [AMap.keys, wakeAll, List.map_cons] at ih ⊢
    rw [ih]
    cases sub with
    | pending w n => by_cases hk : a = k <;> simp [hk]
    | ready r' => rfl
    | cancelled => rfl

theorem hasKind_iff {subs : AMap (K × Nat) (Repo.Subs.Sub R)} {k : K} :
    hasKind subs k = true ↔ ∃ i, (AMap.get subs (k, i)).isSome = true := by
  constructor
  · intro h
    unfold hasKind at h
    obtain ⟨e, he, hk⟩ := List.any_eq_true.mp h
    have hk' : e.1.1 = k := by simpa using hk
    refine ⟨e.1.2, (AMap.mem_keys_iff subs (k, e.1.2)).mp ?_⟩
    exact List.mem_map.mpr ⟨e, he, by rw [← hk']⟩
  · rintro ⟨i, hi⟩
    have := (AMap.mem_keys_iff subs (k, i)).mpr hi
    obtain ⟨e, he, hk⟩ := List.mem_map.mp this
    exact List.any_eq_true.mpr ⟨e, he, by simp [hk]⟩

theorem mem_pendingOf {subs : AMap (K × Nat) (Repo.Subs.Sub R)} {k : K} {i : Nat} {w n : Bool}
    (h : AMap.get subs (k, i) = some (.pending w n)) : (i, w) ∈ pendingOf subs k := by
  refine List.mem_filterMap.mpr ⟨((k, i), .pending w n), AMap.mem_of_get h, ?_⟩
  simp

theorem SubsInv.step {debug : Bool} {s s' : Reg K R} {op : Op K R} {out : Out R} (hi : SubsInv s)
    (h : s.step debug op = some (s', out)) : SubsInv s' := by
  obtain ⟨hu, ho, hf⟩ := hi
  cases op with
  | create k n =>
    simp only [Reg.step, Option.some.injEq, Prod.mk.injEq] at h
    obtain ⟨rfl, rfl⟩ := h
    have hother : ∀ i, i ≠ s.nextId → (s.create k n).futs i = s.futs i := by
      intro i hi; unfold Reg.create; split <;> simp [Reg.setFut, hi]
    have hsubs : (s.create k n).subs = s.subs := by unfold Reg.create; split <;> rfl
    have hnext : (s.create k n).nextId = s.nextId + 1 := by unfold Reg.create; split <;> rfl
    refine ⟨by rw [hsubs]; exact hu, ?_, ?_⟩
    · intro k' i sub hg
      rw [hsubs] at hg
      have h1 := ho _ _ _ hg
      have : i ≠ s.nextId := by
        rintro rfl; rw [hf _ (Nat.le_refl _)] at h1; cases h1
      rw [hother i this]; exact h1
    · intro i hle
      rw [hnext] at hle
      rw [hother i (by omega)]; exact hf i (by omega)
  | insert j =>
    simp only [Reg.step, Reg.insert] at h
    split at h
    · rename_i k sub hj
      simp only [Option.map_some, Option.some.injEq, Prod.mk.injEq] at h
      obtain ⟨rfl, rfl⟩ := h
      refine ⟨hu.set _ _, ?_, ?_⟩
      · intro k' i sub' hg
        simp only [Reg.setFut] at hg ⊢
        rw [AMap.get_set] at hg
        split at hg
        · rename_i heq; simp only [Prod.mk.injEq] at heq; obtain ⟨rfl, rfl⟩ := heq; simp
        · have h1 := ho _ _ _ hg
          have : i ≠ j := by rintro rfl; rw [h1] at hj; cases hj
          simp [this, h1]
      · intro i hle
        have : i ≠ j := by rintro rfl; rw [hf _ hle] at hj; cases hj
        simp [Reg.setFut, this, hf i hle]
    · cases h
  | finish k r =>
    simp only [Reg.step, Option.some.injEq] at h
    unfold Reg.finish at h
    split at h
    · simp only at h
      split at h
      · simp only [Prod.mk.injEq] at h; obtain ⟨rfl, rfl⟩ := h; exact ⟨hu, ho, hf⟩
      · simp only [Prod.mk.injEq] at h
        obtain ⟨rfl, rfl⟩ := h
        refine ⟨?_, ?_, hf⟩
        · simp only [AMap.Uniq, keys_wakeAll]; exact hu
        · intro k' i sub hg
          simp only [get_wakeAll] at hg
          cases hgs : AMap.get s.subs (k', i) with
          | none => rw [hgs] at hg; cases hg
          | some x => exact ho _ _ _ hgs
    · simp only [Prod.mk.injEq] at h; obtain ⟨rfl, rfl⟩ := h; exact ⟨hu, ho, hf⟩
  | poll j =>
    simp only [Reg.step, Reg.poll] at h
    split at h
    · rename_i k c hj
      have rem : ∀ c', SubsInv ({ s with subs := AMap.erase s.subs (k, j) }.setFut j ⟨k, .live c'⟩) := by
        intro c'
        refine ⟨hu.erase _, ?_, ?_⟩
        · intro k' i sub hg
          simp only [Reg.setFut] at hg ⊢
          rw [AMap.get_erase] at hg
          split at hg
          · cases hg
          · rename_i hne
            have h1 := ho _ _ _ hg
            have : i ≠ j := by
              rintro rfl
              rw [h1] at hj
              simp only [Option.some.injEq, Fut.mk.injEq] at hj
              exact hne (by rw [hj.1])
            simp [this, h1]
        · intro i hle
          have : i ≠ j := by rintro rfl; rw [hf _ hle] at hj; cases hj
          simp [Reg.setFut, this, hf i hle]
      split at h
      · simp only [Option.some.injEq, Prod.mk.injEq] at h; obtain ⟨rfl, rfl⟩ := h; exact ⟨hu, ho, hf⟩
      · rename_i w n hg0
        simp only [Option.some.injEq, Prod.mk.injEq] at h
        obtain ⟨rfl, rfl⟩ := h
        refine ⟨hu.set _ _, ?_, hf⟩
        intro k' i sub hg
        simp only [] at hg ⊢
        rw [AMap.get_set] at hg
        split at hg
        · rename_i heq; simp only [Prod.mk.injEq] at heq; obtain ⟨rfl, rfl⟩ := heq; exact ho _ _ _ hg0
        · exact ho _ _ _ hg
      · simp only [Option.some.injEq, Prod.mk.injEq] at h; obtain ⟨rfl, rfl⟩ := h; exact rem _
      · simp only [Option.some.injEq, Prod.mk.injEq] at h; obtain ⟨rfl, rfl⟩ := h; exact rem _
    · cases h
  | dropLocked j =>
    simp only [Reg.step, Reg.dropLocked] at h
    split at h
    · rename_i k c hj
      have keep : ∀ st, (∀ sub, AMap.get s.subs (k, j) ≠ some sub) → SubsInv (s.setFut j ⟨k, st⟩) := by
        intro st hno
        refine ⟨hu, ?_, ?_⟩
        · intro k' i sub hg
          have h1 := ho _ _ _ hg
          have : i ≠ j := by
            rintro rfl
            rw [h1] at hj
            simp only [Option.some.injEq, Fut.mk.injEq] at hj
            exact hno sub (by rw [← hj.1]; exact hg)
          simp [Reg.setFut, this, h1]
        · intro i hle
          have : i ≠ j := by rintro rfl; rw [hf _ hle] at hj; cases hj
          simp [Reg.setFut, this, hf i hle]
      split at h
      · rename_i hc
        simp only [Option.map_some, Option.some.injEq, Prod.mk.injEq] at h
        obtain ⟨rfl, rfl⟩ := h
        refine keep _ ?_
        intro sub hg
        have h1 := ho _ _ _ hg
        rw [h1] at hj
        simp only [Option.some.injEq, Fut.mk.injEq, Stage.live.injEq] at hj
        rw [hc] at hj; exact absurd hj.2 (by simp)
      · split at h
        · simp only [Option.map_some, Option.some.injEq, Prod.mk.injEq] at h
          obtain ⟨rfl, rfl⟩ := h
          refine ⟨hu.erase _, ?_, ?_⟩
          · intro k' i sub hg
            simp only [Reg.setFut] at hg ⊢
            rw [AMap.get_erase] at hg
            split at hg
            · cases hg
            · rename_i hne
              have h1 := ho _ _ _ hg
              have : i ≠ j := by
                rintro rfl
                rw [h1] at hj
                simp only [Option.some.injEq, Fut.mk.injEq] at hj
                exact hne (by rw [hj.1])
              simp [this, h1]
          · intro i hle
            have : i ≠ j := by rintro rfl; rw [hf _ hle] at hj; cases hj
            simp [Reg.setFut, this, hf i hle]
        · rename_i hk
          simp only [Option.map_some, Option.some.injEq, Prod.mk.injEq] at h
          obtain ⟨rfl, rfl⟩ := h
          refine keep _ ?_
          intro sub hg
          exact hk (hasKind_iff.mpr ⟨j, by rw [hg]; rfl⟩)
    · cases h
  | dropNotify j =>
    simp only [Reg.step, Reg.dropNotify] at h
    split at h
    · rename_i k sub l hj
      simp only [Option.map_some, Option.some.injEq, Prod.mk.injEq] at h
      obtain ⟨rfl, rfl⟩ := h
      refine ⟨hu, ?_, ?_⟩
      · intro k' i sub' hg
        have h1 := ho _ _ _ hg
        have : i ≠ j := by rintro rfl; rw [h1] at hj; cases hj
        simp [Reg.setFut, this, h1]
      · intro i hle
        have : i ≠ j := by rintro rfl; rw [hf _ hle] at hj; cases hj
        simp [Reg.setFut, this, hf i hle]
    · cases h
  | shutFlag =>
    simp only [Reg.step, Reg.shutFlag] at h
    split at h
    · cases h
    · simp only [Option.map_some, Option.some.injEq, Prod.mk.injEq] at h
      obtain ⟨rfl, rfl⟩ := h; exact ⟨hu, ho, hf⟩
  | shutTake =>
    simp only [Reg.step, Option.some.injEq, Prod.mk.injEq] at h
    obtain ⟨rfl, rfl⟩ := h
    exact ⟨AMap.uniq_nil, (by intro k i sub hg; cases hg), hf⟩
  | shutCancel k j =>
    simp only [Reg.step, Reg.shutCancel] at h
    split at h
    · cases h
    · simp only [Option.map_some, Option.some.injEq, Prod.mk.injEq] at h
      obtain ⟨rfl, rfl⟩ := h; exact ⟨hu, ho, hf⟩

theorem SubsInv.init : SubsInv (Reg.init : Reg K R) :=
  ⟨AMap.uniq_nil, (by intro k i sub h; cases h), fun _ _ => rfl⟩

theorem subs_run_append {debug : Bool} {s s' : Reg K R} {a b : List (Op K R)} :
    Reg.run debug s (a ++ b) = some s' ↔ ∃ m, Reg.run debug s a = some m ∧ Reg.run debug m b = some s' := by
  induction a generalizing s with
  | nil => simp [Reg.run]
  | cons op a ih =>
    simp only [List.cons_append, Reg.run]
    cases h : s.step debug op with
    | none => simp
    | some x => obtain ⟨s1, out⟩ := x; simp [ih]

theorem SubsInv.run {debug : Bool} {s s' : Reg K R} {ops : List (Op K R)} (hi : SubsInv s)
    (h : Reg.run debug s ops = some s') : SubsInv s' := by
  induction ops generalizing s with
  | nil => simp only [Reg.run, Option.some.injEq] at h; subst h; exact hi
  | cons op ops ih =>
    simp only [Reg.run] at h
    split at h
    · cases h
    · rename_i s1 out hs; exact ih (hi.step hs) h

theorem SubsReach.inv {s : Reg K R} (h : SubsReach s) : SubsInv s := by
  obtain ⟨debug, ops, h⟩ := h; exact SubsInv.init.run h

/-- What happens to an entry in one step that is not about it. -/
theorem sub_step {debug : Bool} {s s' : Reg K R} {op : Op K R} {out : Out R} {k : K} {i : Nat}
    (h : s.step debug op = some (s', out)) (h1 : op ≠ .poll i) (h2 : op ≠ .dropLocked i) (h3 : op ≠ .shutTake)
    (h4 : op ≠ .insert i) (h5 : ∀ r, op ≠ .finish k r) :
    AMap.get s'.subs (k, i) = AMap.get s.subs (k, i) := by
  cases op with
  | create k n =>
    simp only [Reg.step, Option.some.injEq, Prod.mk.injEq] at h
    obtain ⟨rfl, rfl⟩ := h
    unfold Reg.create; split <;> rfl
  | insert j =>
    simp only [Reg.step, Reg.insert] at h
    split at h
    · simp only [Option.map_some, Option.some.injEq, Prod.mk.injEq] at h
      obtain ⟨rfl, rfl⟩ := h
      simp only [Reg.setFut]
      rw [AMap.get_set, if_neg]
      intro heq
      simp only [Prod.mk.injEq] at heq
      exact h4 (by rw [heq.2])
    · cases h
  | finish k' r =>
    simp only [Reg.step, Option.some.injEq] at h
    have hk : k ≠ k' := by rintro rfl; exact h5 r rfl
    unfold Reg.finish at h
    split at h
    · simp only at h
      split at h
      · simp only [Prod.mk.injEq] at h; obtain ⟨rfl, rfl⟩ := h; rfl
      · simp only [Prod.mk.injEq] at h
        obtain ⟨rfl, rfl⟩ := h
        simp only [get_wakeAll, hk, if_false]
        cases AMap.get s.subs (k, i) with
        | none => rfl
        | some x => cases x <;> rfl
    · simp only [Prod.mk.injEq] at h; obtain ⟨rfl, rfl⟩ := h; rfl
  | poll j =>
    have hji : i ≠ j := by rintro rfl; exact h1 rfl
    have hne : ∀ k', (k, i) ≠ (k', j) := by intro k' h; simp only [Prod.mk.injEq] at h; exact hji h.2
    simp only [Reg.step, Reg.poll] at h
    split at h
    · split at h
      · simp only [Option.some.injEq, Prod.mk.injEq] at h; obtain ⟨rfl, rfl⟩ := h; rfl
      · simp only [Option.some.injEq, Prod.mk.injEq] at h
        obtain ⟨rfl, rfl⟩ := h
        simp only [AMap.get_set, hne, if_false]
      · simp only [Option.some.injEq, Prod.mk.injEq] at h
        obtain ⟨rfl, rfl⟩ := h
        simp only [Reg.setFut, AMap.get_erase, hne, if_false]
      · simp only [Option.some.injEq, Prod.mk.injEq] at h
        obtain ⟨rfl, rfl⟩ := h
        simp only [Reg.setFut, AMap.get_erase, hne, if_false]
    · cases h
  | dropLocked j =>
    have hji : i ≠ j := by rintro rfl; exact h2 rfl
    have hne : ∀ k', (k, i) ≠ (k', j) := by intro k' h; simp only [Prod.mk.injEq] at h; exact hji h.2
    simp only [Reg.step, Reg.dropLocked] at h
    split at h
    · split at h
      · simp only [Option.map_some, Option.some.injEq, Prod.mk.injEq] at h
        obtain ⟨rfl, rfl⟩ := h; rfl
      · split at h
        · simp only [Option.map_some, Option.some.injEq, Prod.mk.injEq] at h
          obtain ⟨rfl, rfl⟩ := h
          simp only [Reg.setFut, AMap.get_erase, hne, if_false]
        · simp only [Option.map_some, Option.some.injEq, Prod.mk.injEq] at h
          obtain ⟨rfl, rfl⟩ := h; rfl
    · cases h
  | dropNotify j =>
    simp only [Reg.step, Reg.dropNotify] at h
    split at h
    · simp only [Option.map_some, Option.some.injEq, Prod.mk.injEq] at h
      obtain ⟨rfl, rfl⟩ := h; rfl
    · cases h
  | shutFlag =>
    simp only [Reg.step, Reg.shutFlag] at h
    split at h
    · cases h
    · simp only [Option.map_some, Option.some.injEq, Prod.mk.injEq] at h
      obtain ⟨rfl, rfl⟩ := h; rfl
  | shutTake => exact absurd rfl h3
  | shutCancel k' j =>
    simp only [Reg.step, Reg.shutCancel] at h
    split at h
    · cases h
    · simp only [Option.map_some, Option.some.injEq, Prod.mk.injEq] at h
      obtain ⟨rfl, rfl⟩ := h; rfl

/-- The effect of finishing on an entry. -/
theorem sub_finish {debug : Bool} {s : Reg K R} (k k' : K) (i : Nat) (r : R) :
    AMap.get (s.finish debug k r).1.subs (k', i) =
      match AMap.get s.subs (k', i) with
      | some (.pending w n) => if k' = k then some (.ready r) else some (.pending w n)
      | x => x := by
  unfold Reg.finish
  split
  · rename_i hk
    simp only
    split
    · rename_i hp
      simp only [Bool.and_eq_true, List.isEmpty_iff] at hp
      cases hg : AMap.get s.subs (k', i) with
      | none => rfl
      | some x =>
        cases x with
        | pending w n =>
          by_cases h : k' = k
          · subst h
            have := mem_pendingOf hg
            rw [hp.2] at this
            cases this
          · simp [h]
        | _ => rfl
    · exact get_wakeAll _ _ _ _ _
  · rename_i hk
    cases hg : AMap.get s.subs (k', i) with
    | none => rfl
    | some x =>
      cases x with
      | pending w n =>
        by_cases h : k' = k
        · subst h; exact absurd (hasKind_iff.mpr ⟨i, by rw [hg]; rfl⟩) hk
        · simp [h]
      | _ => rfl

/-! ### C35 -/

/-- **C35**: finishing completes every waiter of the kind, waking those that were polled before, and
changes no other one. -/
theorem C35_finish (debug : Bool) (s : Reg K R) (hs : SubsReach s) (k : K) (r : R) :
    (∀ i w, Waits s k i w → (s.finish debug k r).2 = .nothing ∧
      (∃ s', (s.finish debug k r).1.poll i = some (s', .done r)) ∧
      (w = true → i ∈ (s.finish debug k r).1.wakes)) ∧
    (∀ k' i, k' ≠ k ∨ (∀ w, ¬ Waits s k i w) →
      AMap.get (s.finish debug k r).1.subs (k', i) = AMap.get s.subs (k', i)) := by
  have hinv := hs.inv
  constructor
  · rintro i w ⟨n, hg⟩
    have howner := hinv.owner _ _ _ hg
    have hmem := mem_pendingOf hg
    have hk : hasKind s.subs k = true := hasKind_iff.mpr ⟨i, by rw [hg]; rfl⟩
    have hne : (pendingOf s.subs k).isEmpty = false := by
      cases hp : pendingOf s.subs k with
      | nil => rw [hp] at hmem; cases hmem
      | cons a b => rfl
    have heq : s.finish debug k r = (Reg.mk (wakeAll s.subs k r) s.shut s.nextId s.futs s.taken
        (s.wakes ++ ((pendingOf s.subs k).filter (fun e => e.2)).map Prod.fst) s.unwants, .nothing) := by
      simp [Reg.finish, hk, hne]
    refine ⟨by rw [heq], ?_, ?_⟩
    · have hg' : AMap.get (s.finish debug k r).1.subs (k, i) = some (.ready r) := by
        rw [sub_finish, hg]; simp
      have hf : (s.finish debug k r).1.futs i = some ⟨k, .live false⟩ := by rw [heq]; exact howner
      unfold Reg.poll
      rw [hf]
      simp only [hg']
      exact ⟨_, rfl⟩
    · rintro rfl
      rw [heq]
      refine List.mem_append.mpr (Or.inr (List.mem_map.mpr ⟨(i, true), ?_, rfl⟩))
      exact List.mem_filter.mpr ⟨hmem, rfl⟩
  · intro k' i h
    by_cases hk : k' = k
    · subst hk
      have h : ∀ w, ¬ Waits s k' i w := h.resolve_left (fun hh => hh rfl)
      cases hg : AMap.get s.subs (k', i) with
      | none => rw [sub_finish, hg]
      | some x =>
        cases x with
        | pending w n => exact absurd ⟨n, hg⟩ (h w)
        | ready r' => rw [sub_finish, hg]
        | cancelled => rw [sub_finish, hg]
    · rw [sub_finish]
      cases AMap.get s.subs (k', i) with
      | none => rfl
      | some x => cases x <;> simp [hk]

/-- **C35**: the completion is not lost: whatever else happens before the waiter is polled, dropped or the
registry is shut down, the poll gives the result. -/
theorem C35_delivered (debug : Bool) (s s' : Reg K R) (hs : SubsReach s) (k : K) (r : R) (i : Nat) (w : Bool)
    (hw : Waits s k i w) (ops : List (Op K R))
    (hops : ∀ op ∈ ops, op ≠ .poll i ∧ op ≠ .dropLocked i ∧ op ≠ .shutTake)
    (h : Reg.run debug s (.finish k r :: ops) = some s') : ∃ s'', s'.poll i = some (s'', .done r) := by
  obtain ⟨n, hg⟩ := hw
  simp only [Reg.run, Reg.step] at h
  have hinv : SubsInv (s.finish debug k r).1 := hs.inv.step (debug := debug) (op := .finish k r) rfl
  have hg1 : AMap.get (s.finish debug k r).1.subs (k, i) = some (.ready r) := by rw [sub_finish, hg]; simp
  generalize (s.finish debug k r).1 = t at hinv hg1 h
  have key : SubsInv s' ∧ AMap.get s'.subs (k, i) = some (.ready r) := by
    clear hg hs
    induction ops generalizing t with
    | nil => simp only [Reg.run, Option.some.injEq] at h; subst h; exact ⟨hinv, hg1⟩
    | cons op ops ih =>
      simp only [Reg.run] at h
      split at h
      · cases h
      · rename_i t' out ht
        refine ih (fun o ho => hops o (by simp [ho])) t' (hinv.step ht) ?_ h
        have hop := hops op (by simp)
        by_cases hins : op = .insert i
        · subst hins
          simp only [Reg.step, Reg.insert, hinv.owner _ _ _ hg1] at ht
          cases ht
        · by_cases hfin : ∃ r', op = .finish k r'
          · obtain ⟨r', rfl⟩ := hfin
            simp only [Reg.step, Option.some.injEq] at ht
            have : t' = (t.finish debug k r').1 := by rw [ht]
            rw [this, sub_finish, hg1]
          · rw [sub_step ht hop.1 hop.2.1 hop.2.2 hins (fun r' h => hfin ⟨r', h⟩)]
            exact hg1
  unfold Reg.poll
  rw [key.1.owner _ _ _ key.2]
  simp only [key.2]
  exact ⟨_, rfl⟩

theorem creating_not_ready {debug : Bool} {ops : List (Op K R)} {s : Reg K R} {i : Nat} {k : K} {r : R}
    (h : Reg.run debug Reg.init ops = some s) : s.futs i ≠ some ⟨k, .creating (.ready r)⟩ := by
  have key : ∀ (ops : List (Op K R)) (s s' : Reg K R), (∀ i k r, s.futs i ≠ some ⟨k, .creating (.ready r)⟩) →
      Reg.run debug s ops = some s' → ∀ i k r, s'.futs i ≠ some ⟨k, .creating (.ready r)⟩ := by
    intro ops
    induction ops with
    | nil => intro s s' h hr; simp only [Reg.run, Option.some.injEq] at hr; subst hr; exact h
    | cons op ops ih =>
      intro s s' h hr
      simp only [Reg.run] at hr
      split at hr
      · cases hr
      · rename_i s1 out hs
        refine ih s1 s' ?_ hr
        have set : ∀ (t : Reg K R) j f, t.futs = s.futs → (∀ k r, f ≠ ⟨k, .creating (.ready r)⟩) →
            ∀ i k r, (t.setFut j f).futs i ≠ some ⟨k, .creating (.ready r)⟩ := by
          intro t j f ht hf i k r
          simp only [Reg.setFut, ht]
          split
          · intro he; simp only [Option.some.injEq] at he; exact hf k r he
          · exact h i k r
        cases op with
        | create k n =>
          simp only [Reg.step, Option.some.injEq, Prod.mk.injEq] at hs
          obtain ⟨rfl, rfl⟩ := hs
          unfold Reg.create
          split
          · exact set _ _ _ rfl (by intro k r he; cases he)
          · exact set _ _ _ rfl (by intro k r he; cases he)
        | insert j =>
          simp only [Reg.step, Reg.insert] at hs
          split at hs
          · simp only [Option.map_some, Option.some.injEq, Prod.mk.injEq] at hs
            obtain ⟨rfl, rfl⟩ := hs
            exact set _ _ _ rfl (by intro k r he; cases he)
          · cases hs
        | finish k r =>
          simp only [Reg.step, Option.some.injEq] at hs
          unfold Reg.finish at hs
          split at hs
          · simp only at hs
            split at hs <;> (simp only [Prod.mk.injEq] at hs; obtain ⟨rfl, rfl⟩ := hs; exact h)
          · simp only [Prod.mk.injEq] at hs; obtain ⟨rfl, rfl⟩ := hs; exact h
        | poll j =>
          simp only [Reg.step, Reg.poll] at hs
          split at hs
          · split at hs
            · simp only [Option.some.injEq, Prod.mk.injEq] at hs; obtain ⟨rfl, rfl⟩ := hs; exact h
            · simp only [Option.some.injEq, Prod.mk.injEq] at hs; obtain ⟨rfl, rfl⟩ := hs; exact h
            · simp only [Option.some.injEq, Prod.mk.injEq] at hs; obtain ⟨rfl, rfl⟩ := hs
              exact set _ _ _ rfl (by intro k r he; cases he)
            · simp only [Option.some.injEq, Prod.mk.injEq] at hs; obtain ⟨rfl, rfl⟩ := hs
              exact set _ _ _ rfl (by intro k r he; cases he)
          · cases hs
        | dropLocked j =>
          simp only [Reg.step, Reg.dropLocked] at hs
          split at hs
          · split at hs
            · simp only [Option.map_some, Option.some.injEq, Prod.mk.injEq] at hs
              obtain ⟨rfl, rfl⟩ := hs
              exact set _ _ _ rfl (by intro k r he; cases he)
            · split at hs
              · simp only [Option.map_some, Option.some.injEq, Prod.mk.injEq] at hs
                obtain ⟨rfl, rfl⟩ := hs
                exact set _ _ _ rfl (by intro k r he; cases he)
              · simp only [Option.map_some, Option.some.injEq, Prod.mk.injEq] at hs
                obtain ⟨rfl, rfl⟩ := hs
                exact set _ _ _ rfl (by intro k r he; cases he)
          · cases hs
        | dropNotify j =>
          simp only [Reg.step, Reg.dropNotify] at hs
          split at hs
          · simp only [Option.map_some, Option.some.injEq, Prod.mk.injEq] at hs
            obtain ⟨rfl, rfl⟩ := hs
            exact set _ _ _ rfl (by intro k r he; cases he)
          · cases hs
        | shutFlag =>
          simp only [Reg.step, Reg.shutFlag] at hs
          split at hs
          · cases hs
          · simp only [Option.map_some, Option.some.injEq, Prod.mk.injEq] at hs
            obtain ⟨rfl, rfl⟩ := hs; exact h
        | shutTake =>
          simp only [Reg.step, Option.some.injEq, Prod.mk.injEq] at hs
          obtain ⟨rfl, rfl⟩ := hs; exact h
        | shutCancel k j =>
          simp only [Reg.step, Reg.shutCancel] at hs
          split at hs
          · cases hs
          · simp only [Option.map_some, Option.some.injEq, Prod.mk.injEq] at hs
            obtain ⟨rfl, rfl⟩ := hs; exact h
  exact key ops _ _ (by intro i k r; simp [Reg.init]) h i k r

/-- A waiter that is ready was waiting when its kind was finished with that result. -/
theorem ready_source {debug : Bool} (n : Nat) : ∀ (ops : List (Op K R)), ops.length = n →
    ∀ (s : Reg K R), Reg.run debug Reg.init ops = some s → ∀ k i r, AMap.get s.subs (k, i) = some (.ready r) →
    ∃ pre post s0, ops = pre ++ .finish k r :: post ∧ Reg.run debug Reg.init pre = some s0 ∧ ∃ w, Waits s0 k i w := by
  induction n with
  | zero =>
    intro ops hlen
    have := List.eq_nil_of_length_eq_zero hlen
    subst this
    intro s h k i r hg
    simp only [Reg.run, Option.some.injEq] at h
    subst h; cases hg
  | succ n ih =>
    intro ops hlen
    obtain ⟨ops', op, rfl⟩ : ∃ a b, ops = List.concat a b := by
      rcases List.eq_nil_or_concat ops with rfl | h
      · simp at hlen
      · exact h
    have hlen' : ops'.length = n := by simpa using hlen
    intro s h k i r hg
    rw [List.concat_eq_append, subs_run_append] at h
    obtain ⟨m, hm, hs⟩ := h
    have hinv : SubsInv m := SubsInv.init.run hm
    simp only [Reg.run] at hs
    split at hs
    · cases hs
    · rename_i s1 out hstep
      simp only [Option.some.injEq] at hs
      subst hs
      have back : AMap.get m.subs (k, i) = some (.ready r) → _ := fun hgm =>
        ih ops' hlen' m hm k i r hgm
      have lift : (∃ pre post s0, ops' = pre ++ .finish k r :: post ∧ Reg.run debug Reg.init pre = some s0 ∧
          ∃ w, Waits s0 k i w) → ∃ pre post s0, ops'.concat op = pre ++ .finish k r :: post ∧
            Reg.run debug Reg.init pre = some s0 ∧ ∃ w, Waits s0 k i w := by
        rintro ⟨pre, post, s0, rfl, h⟩
        exact ⟨pre, post ++ [op], s0, by simp, h⟩
      by_cases hfin : ∃ r', op = .finish k r'
      · obtain ⟨r', rfl⟩ := hfin
        simp only [Reg.step, Option.some.injEq] at hstep
        have : s1 = (m.finish debug k r').1 := by rw [hstep]
        rw [this, sub_finish] at hg
        cases hgm : AMap.get m.subs (k, i) with
        | none => rw [hgm] at hg; cases hg
        | some x =>
          cases x with
          | pending w n =>
            rw [hgm] at hg
            simp only [if_true, Option.some.injEq, Sub.ready.injEq] at hg
            subst hg
            exact ⟨ops', [], m, by simp, hm, w, n, hgm⟩
          | ready r0 =>
            rw [hgm] at hg
            simp only [Option.some.injEq, Sub.ready.injEq] at hg
            subst hg
            exact lift (back hgm)
          | cancelled => rw [hgm] at hg; cases hg
      · by_cases hpoll : op = .poll i
        · subst hpoll
          simp only [Reg.step, Reg.poll] at hstep
          split at hstep
          · rename_i k' c hf
            split at hstep
            · simp only [Option.some.injEq, Prod.mk.injEq] at hstep
              obtain ⟨rfl, rfl⟩ := hstep
              exact lift (back hg)
            · simp only [Option.some.injEq, Prod.mk.injEq] at hstep
              obtain ⟨rfl, rfl⟩ := hstep
              simp only [AMap.get_set] at hg
              split at hg
              · cases hg
              · exact lift (back hg)
            all_goals
              simp only [Option.some.injEq, Prod.mk.injEq] at hstep
              obtain ⟨rfl, rfl⟩ := hstep
              simp only [Reg.setFut, AMap.get_erase] at hg
              split at hg
              · cases hg
              · exact lift (back hg)
          · cases hstep
        · by_cases hdrop : op = .dropLocked i
          · subst hdrop
            simp only [Reg.step, Reg.dropLocked] at hstep
            split at hstep
            · split at hstep
              · simp only [Option.map_some, Option.some.injEq, Prod.mk.injEq] at hstep
                obtain ⟨rfl, rfl⟩ := hstep
                exact lift (back hg)
              · split at hstep
                · simp only [Option.map_some, Option.some.injEq, Prod.mk.injEq] at hstep
                  obtain ⟨rfl, rfl⟩ := hstep
                  simp only [Reg.setFut, AMap.get_erase] at hg
                  split at hg
                  · cases hg
                  · exact lift (back hg)
                · simp only [Option.map_some, Option.some.injEq, Prod.mk.injEq] at hstep
                  obtain ⟨rfl, rfl⟩ := hstep
                  exact lift (back hg)
            · cases hstep
          · by_cases htake : op = .shutTake
            · subst htake
              simp only [Reg.step, Option.some.injEq, Prod.mk.injEq] at hstep
              obtain ⟨rfl, rfl⟩ := hstep
              cases hg
            · by_cases hins : op = .insert i
              · subst hins
                simp only [Reg.step, Reg.insert] at hstep
                split at hstep
                · rename_i k' sub hf
                  simp only [Option.map_some, Option.some.injEq, Prod.mk.injEq] at hstep
                  obtain ⟨rfl, rfl⟩ := hstep
                  simp only [Reg.setFut, AMap.get_set] at hg
                  split at hg
                  · rename_i heq
                    simp only [Option.some.injEq] at hg
                    subst hg
                    exact absurd hf (creating_not_ready hm)
                  · exact lift (back hg)
                · cases hstep
              · rw [sub_step hstep hpoll hdrop htake hins (fun r' h => hfin ⟨r', h⟩)] at hg
                exact lift (back hg)

/-- **C35**: a waiter completes with a result only if it was waiting when its kind was finished with
just that result. -/
theorem C35_done_sound (debug : Bool) (ops : List (Op K R)) (s s' : Reg K R) (i : Nat) (r : R)
    (h : Reg.run debug Reg.init ops = some s) (hp : s.poll i = some (s', .done r)) :
    ∃ k pre post s0 c, ops = pre ++ .finish k r :: post ∧ Reg.run debug Reg.init pre = some s0 ∧
      (∃ w, Waits s0 k i w) ∧ s.futs i = some ⟨k, .live c⟩ := by
  unfold Reg.poll at hp
  split at hp
  · rename_i k c hf
    split at hp
    · simp at hp
    · simp at hp
    · simp at hp
    · rename_i r' hg
      simp only [Option.some.injEq, Prod.mk.injEq, Out.done.injEq] at hp
      obtain ⟨-, rfl⟩ := hp
      obtain ⟨pre, post, s0, h1, h2, h3⟩ := ready_source _ ops rfl s h k i _ hg
      exact ⟨k, pre, post, s0, c, h1, h2, h3, hf⟩
  · cases hp

/-- The waiter `i` is no longer registered and will not be. -/
def SubOver (s : Reg K R) (k : K) (i : Nat) : Prop :=
  AMap.get s.subs (k, i) = none ∧ ∃ st, s.futs i = some ⟨k, st⟩ ∧ ∀ sub, st ≠ .creating sub

theorem SubOver.step {debug : Bool} {s s' : Reg K R} {op : Op K R} {out : Out R} {k : K} {i : Nat} (hi : SubsInv s)
    (ho : SubOver s k i) (h : s.step debug op = some (s', out)) : SubOver s' k i ∧ (op = .poll i → out = .cancelled) := by
  obtain ⟨hg, st, hf, hst⟩ := ho
  have set : ∀ (t : Reg K R) j f, t.futs = s.futs → AMap.get t.subs (k, i) = none →
      (j = i → ∃ st', f = ⟨k, st'⟩ ∧ ∀ sub, st' ≠ .creating sub) → SubOver (t.setFut j f) k i := by
    intro t j f ht hgt hj
    refine ⟨hgt, ?_⟩
    by_cases hji : j = i
    · obtain ⟨st', rfl, hst'⟩ := hj hji
      exact ⟨st', by simp [Reg.setFut, hji], hst'⟩
    · exact ⟨st, by simp only [Reg.setFut, ht]; rw [if_neg (fun h => hji h.symm)]; exact hf, hst⟩
  cases op with
  | create k' n =>
    refine ⟨?_, by intro h; cases h⟩
    simp only [Reg.step, Option.some.injEq, Prod.mk.injEq] at h
    obtain ⟨rfl, rfl⟩ := h
    have hne : s.nextId = i → False := by
      rintro rfl; rw [hi.fresh _ (Nat.le_refl _)] at hf; cases hf
    unfold Reg.create
    split
    · exact set _ _ _ rfl hg (fun h => (hne h).elim)
    · exact set _ _ _ rfl hg (fun h => (hne h).elim)
  | insert j =>
    refine ⟨?_, by intro h; cases h⟩
    simp only [Reg.step, Reg.insert] at h
    split at h
    · rename_i k' sub hj
      simp only [Option.map_some, Option.some.injEq, Prod.mk.injEq] at h
      obtain ⟨rfl, rfl⟩ := h
      have hne : j ≠ i := by
        rintro rfl
        rw [hf] at hj
        simp only [Option.some.injEq, Fut.mk.injEq] at hj
        exact hst sub hj.2
      refine set _ _ _ rfl ?_ (fun h => absurd h hne)
      rw [AMap.get_set, if_neg]
      · exact hg
      · intro heq; simp only [Prod.mk.injEq] at heq; exact hne heq.2.symm
    · cases h
  | finish k' r =>
    refine ⟨?_, by intro h; cases h⟩
    simp only [Reg.step, Option.some.injEq] at h
    have h1 : s' = (s.finish debug k' r).1 := by rw [h]
    refine ⟨by rw [h1, sub_finish, hg], st, ?_, hst⟩
    rw [h1]; unfold Reg.finish
    split
    · simp only; split <;> exact hf
    · exact hf
  | poll j =>
    simp only [Reg.step, Reg.poll] at h
    split at h
    · rename_i k' c hj
      by_cases hji : j = i
      · subst hji
        rw [hf] at hj
        simp only [Option.some.injEq, Fut.mk.injEq] at hj
        obtain ⟨rfl, rfl⟩ := hj
        simp only [hg, Option.some.injEq, Prod.mk.injEq] at h
        obtain ⟨rfl, rfl⟩ := h
        exact ⟨⟨hg, _, hf, hst⟩, fun _ => rfl⟩
      · refine ⟨?_, by intro h; simp only [Op.poll.injEq] at h; exact absurd h hji⟩
        have hne : (k, i) ≠ (k', j) := by intro h; simp only [Prod.mk.injEq] at h; exact hji h.2.symm
        split at h
        · simp only [Option.some.injEq, Prod.mk.injEq] at h; obtain ⟨rfl, rfl⟩ := h; exact ⟨hg, st, hf, hst⟩
        · simp only [Option.some.injEq, Prod.mk.injEq] at h; obtain ⟨rfl, rfl⟩ := h
          exact ⟨by simp only [AMap.get_set, hne, if_false]; exact hg, st, hf, hst⟩
        · simp only [Option.some.injEq, Prod.mk.injEq] at h; obtain ⟨rfl, rfl⟩ := h
          exact set _ _ _ rfl (by simp only [AMap.get_erase, hne, if_false]; exact hg) (fun h => absurd h hji)
        · simp only [Option.some.injEq, Prod.mk.injEq] at h; obtain ⟨rfl, rfl⟩ := h
          exact set _ _ _ rfl (by simp only [AMap.get_erase, hne, if_false]; exact hg) (fun h => absurd h hji)
    · cases h
  | dropLocked j =>
    refine ⟨?_, by intro h; cases h⟩
    simp only [Reg.step, Reg.dropLocked] at h
    split at h
    · rename_i k' c hj
      have hk : j = i → k' = k := by
        rintro rfl; rw [hf] at hj; simp only [Option.some.injEq, Fut.mk.injEq] at hj; exact hj.1.symm
      split at h
      · simp only [Option.map_some, Option.some.injEq, Prod.mk.injEq] at h
        obtain ⟨rfl, rfl⟩ := h
        exact set _ _ _ rfl hg (fun h => ⟨_, by rw [hk h], by simp⟩)
      · split at h
        · simp only [Option.map_some, Option.some.injEq, Prod.mk.injEq] at h
          obtain ⟨rfl, rfl⟩ := h
          refine set _ _ _ rfl ?_ (fun h => ⟨_, by rw [hk h], by simp⟩)
          rw [AMap.get_erase]; split
          · rfl
          · exact hg
        · simp only [Option.map_some, Option.some.injEq, Prod.mk.injEq] at h
          obtain ⟨rfl, rfl⟩ := h
          exact set _ _ _ rfl hg (fun h => ⟨_, by rw [hk h], by simp⟩)
    · cases h
  | dropNotify j =>
    refine ⟨?_, by intro h; cases h⟩
    simp only [Reg.step, Reg.dropNotify] at h
    split at h
    · rename_i k' sub l hj
      have hk : j = i → k' = k := by
        rintro rfl; rw [hf] at hj; simp only [Option.some.injEq, Fut.mk.injEq] at hj; exact hj.1.symm
      simp only [Option.map_some, Option.some.injEq, Prod.mk.injEq] at h
      obtain ⟨rfl, rfl⟩ := h
      exact set _ _ _ rfl hg (fun h => ⟨_, by rw [hk h], by simp⟩)
    · cases h
  | shutFlag =>
    refine ⟨?_, by intro h; cases h⟩
    simp only [Reg.step, Reg.shutFlag] at h
    split at h
    · cases h
    · simp only [Option.map_some, Option.some.injEq, Prod.mk.injEq] at h
      obtain ⟨rfl, rfl⟩ := h; exact ⟨hg, st, hf, hst⟩
  | shutTake =>
    refine ⟨?_, by intro h; cases h⟩
    simp only [Reg.step, Option.some.injEq, Prod.mk.injEq] at h
    obtain ⟨rfl, rfl⟩ := h; exact ⟨rfl, st, hf, hst⟩
  | shutCancel k' j =>
    refine ⟨?_, by intro h; cases h⟩
    simp only [Reg.step, Reg.shutCancel] at h
    split at h
    · cases h
    · simp only [Option.map_some, Option.some.injEq, Prod.mk.injEq] at h
      obtain ⟨rfl, rfl⟩ := h; exact ⟨hg, st, hf, hst⟩

/-- **C35**: a waiter completes with a result at most once: after its poll was ready, whatever happens, a
further poll does not give a result. -/
theorem C35_once (debug : Bool) (s s1 s2 s3 : Reg K R) (hs : SubsReach s) (i : Nat) (out out' : Out R)
    (hp : s.poll i = some (s1, out)) (hout : out ≠ .pending) (ops : List (Op K R))
    (hr : Reg.run debug s1 ops = some s2) (hp' : s2.poll i = some (s3, out')) : out' = .cancelled := by
  have hinv := hs.inv
  have hinv1 : SubsInv s1 := hinv.step (debug := debug) (op := .poll i) hp
  have hover : ∃ k, SubOver s1 k i := by
    unfold Reg.poll at hp
    split at hp
    · rename_i k c hf
      refine ⟨k, ?_⟩
      split at hp
      · rename_i hg
        simp only [Option.some.injEq, Prod.mk.injEq] at hp
        obtain ⟨rfl, rfl⟩ := hp
        exact ⟨hg, _, hf, by simp⟩
      · simp only [Option.some.injEq, Prod.mk.injEq] at hp
        exact absurd hp.2.symm hout
      · simp only [Option.some.injEq, Prod.mk.injEq] at hp
        obtain ⟨rfl, rfl⟩ := hp
        exact ⟨by simp [Reg.setFut, AMap.get_erase], _, by simp only [Reg.setFut, if_true]; rfl, by simp⟩
      · simp only [Option.some.injEq, Prod.mk.injEq] at hp
        obtain ⟨rfl, rfl⟩ := hp
        exact ⟨by simp [Reg.setFut, AMap.get_erase], _, by simp only [Reg.setFut, if_true]; rfl, by simp⟩
    · cases hp
  obtain ⟨k, hover⟩ := hover
  have key : ∀ (ops : List (Op K R)) (t t' : Reg K R), SubsInv t → SubOver t k i →
      Reg.run debug t ops = some t' → SubsInv t' ∧ SubOver t' k i := by
    intro ops
    induction ops with
    | nil => intro t t' h1 h2 h; simp only [Reg.run, Option.some.injEq] at h; subst h; exact ⟨h1, h2⟩
    | cons op ops ih =>
      intro t t' h1 h2 h
      simp only [Reg.run] at h
      split at h
      · cases h
      · rename_i t1 o ht; exact ih t1 t' (h1.step ht) (h2.step h1 ht).1 h
  obtain ⟨h1, h2⟩ := key ops s1 s2 hinv1 hover hr
  exact (h2.step (debug := debug) (op := .poll i) h1 hp').2 rfl

/-! ### C36 -/

/-- **C36**: a waiter that is dropped, without another thread in between, sends one message just if it was
pending and no subscription to the kind is left. -/
theorem C36_drop_partial (s s1 s2 : Reg K R) (hs : SubsReach s) (i : Nat) (k : K) (c : Bool)
    (hf : s.futs i = some ⟨k, .live c⟩) (h1 : s.dropLocked i = some s1) (h2 : s1.dropNotify i = some s2) :
    (s2.unwants = s.unwants ++ [k] ∧ (∃ w, AMap.get s.subs (k, i) = some (.pending w true)) ∧
      ∀ j, j ≠ i → AMap.get s.subs (k, j) = none) ∨
    (s2.unwants = s.unwants ∧ ((∀ w, AMap.get s.subs (k, i) ≠ some (.pending w true)) ∨
      ∃ j, j ≠ i ∧ AMap.get s.subs (k, j) ≠ none)) := by
  have hinv := hs.inv
  unfold Reg.dropLocked at h1
  rw [hf] at h1
  simp only at h1
  split at h1
  · simp only [Option.some.injEq] at h1
    subst h1
    simp [Reg.dropNotify, Reg.setFut] at h2
  · split at h1
    · simp only [Option.some.injEq] at h1
      subst h1
      simp only [Reg.dropNotify, Reg.setFut, if_true, Option.some.injEq] at h2
      subst h2
      simp only
      have hlast : hasKind (AMap.erase s.subs (k, i)) k = false ↔ ∀ j, j ≠ i → AMap.get s.subs (k, j) = none := by
        rw [← Bool.not_eq_true, hasKind_iff]
        constructor
        · intro h j hj
          cases hg : AMap.get s.subs (k, j) with
          | none => rfl
          | some x => exact absurd ⟨j, by simp [AMap.get_erase, hj, hg]⟩ h
        · rintro h ⟨j, hj⟩
          rw [AMap.get_erase] at hj
          split at hj
          · simp at hj
          · rename_i hne
            rw [h j (by rintro rfl; exact hne rfl)] at hj
            simp at hj
      cases hg : AMap.get s.subs (k, i) with
      | none => right; exact ⟨by simp, Or.inl (by simp)⟩
      | some sub =>
        cases sub with
        | pending w n =>
          cases hk : hasKind (AMap.erase s.subs (k, i)) k with
          | true =>
            right
            refine ⟨by simp [Sub.cancelEffect], Or.inr ?_⟩
            obtain ⟨j, hj⟩ := hasKind_iff.mp hk
            rw [AMap.get_erase] at hj
            split at hj
            · simp at hj
            · rename_i hne
              refine ⟨j, by rintro rfl; exact hne rfl, ?_⟩
              intro h; rw [h] at hj; simp at hj
          | false =>
            cases n with
            | true => left; exact ⟨by simp [Sub.cancelEffect], ⟨w, rfl⟩, hlast.mp hk⟩
            | false => right; exact ⟨by simp [Sub.cancelEffect], Or.inl (by simp)⟩
        | ready r => right; exact ⟨by simp [Sub.cancelEffect], Or.inl (by simp)⟩
        | cancelled => right; exact ⟨by simp [Sub.cancelEffect], Or.inl (by simp)⟩
    · rename_i hk
      simp only [Option.some.injEq] at h1
      subst h1
      simp only [Reg.dropNotify, Reg.setFut, if_true, Option.some.injEq] at h2
      subst h2
      right
      refine ⟨by simp, Or.inl ?_⟩
      intro w hg
      exact hk (hasKind_iff.mpr ⟨i, by rw [hg]; rfl⟩)

/-- **C36**: no message is sent while another waiter of the kind is pending, if the dropping thread is not
interrupted. -/
theorem C36_never_partial (s s1 s2 : Reg K R) (hs : SubsReach s) (i j : Nat) (k : K) (c w : Bool)
    (hf : s.futs i = some ⟨k, .live c⟩) (h1 : s.dropLocked i = some s1) (h2 : s1.dropNotify i = some s2)
    (hj : j ≠ i) (hw : Waits s k j w) : s2.unwants = s.unwants := by
  obtain ⟨n, hw⟩ := hw
  rcases C36_drop_partial s s1 s2 hs i k c hf h1 h2 with ⟨_, _, h⟩ | ⟨h, _⟩
  · rw [h j hj] at hw; cases hw
  · exact h

/-- **C36**: the last waiter to go sends the message, if no completed one that was not polled is left. -/
theorem C36_last_partial (s s1 s2 : Reg K R) (hs : SubsReach s) (i : Nat) (k : K) (c w : Bool)
    (hf : s.futs i = some ⟨k, .live c⟩) (h1 : s.dropLocked i = some s1) (h2 : s1.dropNotify i = some s2)
    (hw : AMap.get s.subs (k, i) = some (.pending w true)) (hlast : ∀ j, j ≠ i → AMap.get s.subs (k, j) = none) :
    s2.unwants = s.unwants ++ [k] := by
  rcases C36_drop_partial s s1 s2 hs i k c hf h1 h2 with ⟨h, _⟩ | ⟨_, h | ⟨j, hj, h⟩⟩
  · exact h
  · exact absurd hw (h w)
  · exact absurd (hlast j hj) h

/-- **C36**: nothing but dropping and shutting down sends messages. -/
theorem C36_only (debug : Bool) (s s' : Reg K R) (op : Op K R) (out : Out R) (h : s.step debug op = some (s', out))
    (h1 : ∀ i, op ≠ .dropNotify i) (h2 : ∀ k i, op ≠ .shutCancel k i) (h3 : s.shut = false) :
    s'.unwants = s.unwants := by
  cases op with
  | create k n =>
    simp only [Reg.step, Option.some.injEq, Prod.mk.injEq] at h
    obtain ⟨rfl, rfl⟩ := h
    simp [Reg.create, h3, Reg.setFut]
  | insert j =>
    simp only [Reg.step, Reg.insert] at h
    split at h
    · simp only [Option.map_some, Option.some.injEq, Prod.mk.injEq] at h; obtain ⟨rfl, rfl⟩ := h; rfl
    · cases h
  | finish k r =>
    simp only [Reg.step, Option.some.injEq] at h
    unfold Reg.finish at h
    split at h
    · simp only at h
      split at h <;> (simp only [Prod.mk.injEq] at h; obtain ⟨rfl, rfl⟩ := h; rfl)
    · simp only [Prod.mk.injEq] at h; obtain ⟨rfl, rfl⟩ := h; rfl
  | poll j =>
    simp only [Reg.step, Reg.poll] at h
    split at h
    · split at h <;> (simp only [Option.some.injEq, Prod.mk.injEq] at h; obtain ⟨rfl, rfl⟩ := h; rfl)
    · cases h
  | dropLocked j =>
    simp only [Reg.step, Reg.dropLocked] at h
    split at h
    · split at h
      · simp only [Option.map_some, Option.some.injEq, Prod.mk.injEq] at h; obtain ⟨rfl, rfl⟩ := h; rfl
      · split at h <;>
          (simp only [Option.map_some, Option.some.injEq, Prod.mk.injEq] at h; obtain ⟨rfl, rfl⟩ := h; rfl)
    · cases h
  | dropNotify j => exact absurd rfl (h1 j)
  | shutFlag =>
    simp only [Reg.step, Reg.shutFlag] at h
    split at h
    · cases h
    · simp only [Option.map_some, Option.some.injEq, Prod.mk.injEq] at h; obtain ⟨rfl, rfl⟩ := h; rfl
  | shutTake =>
    simp only [Reg.step, Option.some.injEq, Prod.mk.injEq] at h
    obtain ⟨rfl, rfl⟩ := h; rfl
  | shutCancel k j => exact absurd rfl (h2 k j)

/-! ### C37 -/

/-- **C37**: shutting down cancels every registered waiter: its poll gives "cancelled", and it is woken
once its turn in the loop comes. -/
theorem C37_pending (s : Reg K R) (hs : SubsReach s) (k : K) (i : Nat) (w : Bool) (hw : Waits s k i w)
    (ht : AMap.get s.taken (k, i) = none) :
    (∃ s', s.shutTake.poll i = some (s', .cancelled)) ∧
    (∃ s', s.shutTake.shutCancel k i = some s' ∧ (w = true → i ∈ s'.wakes)) := by
  obtain ⟨n, hg⟩ := hw
  have hf := hs.inv.owner _ _ _ hg
  constructor
  · refine ⟨s.shutTake, ?_⟩
    have hf' : s.shutTake.futs i = some ⟨k, .live false⟩ := hf
    unfold Reg.poll
    rw [hf']
    rfl
  · have hget : AMap.get s.shutTake.taken (k, i) = some (.pending w n) := by
      simp only [Reg.shutTake]
      generalize s.taken = l at ht
      induction l with
      | nil => exact hg
      | cons e l ih =>
        obtain ⟨a, b⟩ := e
        simp only [AMap.get, List.cons_append] at ht ⊢
        split at ht
        · cases ht
        · rename_i hne
          first
          | exact ih ht
          | (rw [if_neg hne]; exact ih ht)
    unfold Reg.shutCancel
    rw [hget]
    refine ⟨_, rfl, ?_⟩
    rintro rfl
    simp [Sub.cancelEffect]

/-- The registry is shut down, and nothing that was being created when that happened is left. -/
structure IsShut (s : Reg K R) : Prop where
  shut : s.shut = true
  subs : ∀ k i sub, AMap.get s.subs (k, i) = some sub → sub = .cancelled
  creating : ∀ i k sub, s.futs i = some ⟨k, .creating sub⟩ → sub = .cancelled

/-- Taking the map, with the flag set and nothing being created, shuts down. -/
theorem C37_shut (s : Reg K R) (h : s.shut = true) (hc : ∀ i k sub, s.futs i = some ⟨k, .creating sub⟩ → sub = .cancelled) :
    IsShut s.shutTake := ⟨h, (by intro k i sub hg; cases hg), hc⟩

theorem IsShut.step {debug : Bool} {s s' : Reg K R} {op : Op K R} {out : Out R} (hi : IsShut s)
    (h : s.step debug op = some (s', out)) : IsShut s' ∧ (∀ i, op = .poll i → out = .cancelled) := by
  obtain ⟨hsh, hsub, hcr⟩ := hi
  have set : ∀ (t : Reg K R) j f, t.futs = s.futs → t.shut = true →
      (∀ k i sub, AMap.get t.subs (k, i) = some sub → sub = .cancelled) →
      (∀ k sub, f = ⟨k, .creating sub⟩ → sub = .cancelled) → IsShut (t.setFut j f) := by
    intro t j f ht h1 h2 hf
    refine ⟨h1, h2, ?_⟩
    intro i k sub hh
    simp only [Reg.setFut, ht] at hh
    split at hh
    · simp only [Option.some.injEq] at hh; exact hf k sub hh
    · exact hcr i k sub hh
  have hera : ∀ x k i sub, AMap.get (AMap.erase s.subs x) (k, i) = some sub → sub = .cancelled := by
    intro x k i sub hg
    rw [AMap.get_erase] at hg
    split at hg
    · cases hg
    · exact hsub _ _ _ hg
  cases op with
  | create k n =>
    refine ⟨?_, by intro i h; cases h⟩
    simp only [Reg.step, Option.some.injEq, Prod.mk.injEq] at h
    obtain ⟨rfl, rfl⟩ := h
    unfold Reg.create
    rw [if_pos hsh]
    exact set _ _ _ rfl hsh hsub (by intro k sub h; cases h; rfl)
  | insert j =>
    refine ⟨?_, by intro i h; cases h⟩
    simp only [Reg.step, Reg.insert] at h
    split at h
    · rename_i k sub hj
      simp only [Option.map_some, Option.some.injEq, Prod.mk.injEq] at h
      obtain ⟨rfl, rfl⟩ := h
      have hsc := hcr _ _ _ hj
      refine set _ _ _ rfl hsh ?_ (by intro k sub h; cases h)
      intro k' i sub' hg
      rw [AMap.get_set] at hg
      split at hg
      · simp only [Option.some.injEq] at hg; rw [← hg]; exact hsc
      · exact hsub _ _ _ hg
    · cases h
  | finish k r =>
    refine ⟨?_, by intro i h; cases h⟩
    simp only [Reg.step, Option.some.injEq] at h
    have h1 : s' = (s.finish debug k r).1 := by rw [h]
    have hfu : (s.finish debug k r).1.futs = s.futs ∧ (s.finish debug k r).1.shut = s.shut := by
      unfold Reg.finish
      split
      · simp only; split <;> exact ⟨rfl, rfl⟩
      · exact ⟨rfl, rfl⟩
    refine ⟨by rw [h1, hfu.2]; exact hsh, ?_, by rw [h1, hfu.1]; exact hcr⟩
    intro k' i sub hg
    rw [h1, sub_finish] at hg
    cases hgs : AMap.get s.subs (k', i) with
    | none => rw [hgs] at hg; cases hg
    | some x =>
      have hx := hsub _ _ _ hgs
      subst hx
      rw [hgs] at hg
      simp only [Option.some.injEq] at hg
      exact hg.symm
  | poll j =>
    simp only [Reg.step, Reg.poll] at h
    split at h
    · split at h
      · simp only [Option.some.injEq, Prod.mk.injEq] at h; obtain ⟨rfl, rfl⟩ := h
        exact ⟨⟨hsh, hsub, hcr⟩, fun _ _ => rfl⟩
      · rename_i hg; exact absurd (hsub _ _ _ hg) (by simp)
      · simp only [Option.some.injEq, Prod.mk.injEq] at h; obtain ⟨rfl, rfl⟩ := h
        exact ⟨set _ _ _ rfl hsh (hera _) (by intro k sub h; cases h), fun _ _ => rfl⟩
      · rename_i hg; exact absurd (hsub _ _ _ hg) (by simp)
    · cases h
  | dropLocked j =>
    refine ⟨?_, by intro i h; cases h⟩
    simp only [Reg.step, Reg.dropLocked] at h
    split at h
    · split at h
      · simp only [Option.map_some, Option.some.injEq, Prod.mk.injEq] at h; obtain ⟨rfl, rfl⟩ := h
        exact set _ _ _ rfl hsh hsub (by intro k sub h; cases h)
      · split at h
        · simp only [Option.map_some, Option.some.injEq, Prod.mk.injEq] at h; obtain ⟨rfl, rfl⟩ := h
          exact set _ _ _ rfl hsh (hera _) (by intro k sub h; cases h)
        · simp only [Option.map_some, Option.some.injEq, Prod.mk.injEq] at h; obtain ⟨rfl, rfl⟩ := h
          exact set _ _ _ rfl hsh hsub (by intro k sub h; cases h)
    · cases h
  | dropNotify j =>
    refine ⟨?_, by intro i h; cases h⟩
    simp only [Reg.step, Reg.dropNotify] at h
    split at h
    · simp only [Option.map_some, Option.some.injEq, Prod.mk.injEq] at h; obtain ⟨rfl, rfl⟩ := h
      exact set _ _ _ rfl hsh hsub (by intro k sub h; cases h)
    · cases h
  | shutFlag =>
    simp only [Reg.step, Reg.shutFlag, hsh, if_true] at h
    cases h
  | shutTake =>
    refine ⟨?_, by intro i h; cases h⟩
    simp only [Reg.step, Option.some.injEq, Prod.mk.injEq] at h
    obtain ⟨rfl, rfl⟩ := h
    exact ⟨hsh, (by intro k i sub hg; cases hg), hcr⟩
  | shutCancel k j =>
    refine ⟨?_, by intro i h; cases h⟩
    simp only [Reg.step, Reg.shutCancel] at h
    split at h
    · cases h
    · simp only [Option.map_some, Option.some.injEq, Prod.mk.injEq] at h
      obtain ⟨rfl, rfl⟩ := h; exact ⟨hsh, hsub, hcr⟩

/-- **C37**: from then on, whatever happens, every poll gives "cancelled", of earlier and of later
waiters. Missing for the full statement: waiters being created while the registry is shut down
(`C37_race`). -/
theorem C37_after_partial (debug : Bool) (s s1 s2 : Reg K R) (hs : IsShut s) (ops : List (Op K R)) (i : Nat) (out : Out R)
    (hr : Reg.run debug s ops = some s1) (hp : s1.poll i = some (s2, out)) : out = .cancelled := by
  have key : IsShut s1 := by
    induction ops generalizing s with
    | nil => simp only [Reg.run, Option.some.injEq] at hr; subst hr; exact hs
    | cons op ops ih =>
      simp only [Reg.run] at hr
      split at hr
      · cases hr
      · rename_i t o ht; exact ih t (hs.step ht).1 hr
  exact (key.step (debug := debug) (op := .poll i) hp).2 i rfl

/-! ### Examples and witnesses -/

/-- Three waiters, two of them for the same block, one of those polled; the block arrives. -/
example : ∃ s : Reg Nat Nat, Reg.run true Reg.init [.create 7 true, .insert 0, .create 7 true, .insert 1, .poll 1,
      .create 8 true, .insert 2, .finish 7 42] = some s ∧ s.wakes = [1] ∧
    (s.poll 0).map Prod.snd = some (.done 42) ∧ (s.poll 1).map Prod.snd = some (.done 42) ∧
    (s.poll 2).map Prod.snd = some .pending := ⟨_, rfl, by decide⟩

/-- Two waiters dropped: the second one sends the message. -/
example : (Reg.run true (Reg.init : Reg Nat Nat) [.create 7 true, .insert 0, .create 7 true, .insert 1,
      .dropLocked 0, .dropNotify 0]).map Reg.unwants = some [] ∧
    (Reg.run true (Reg.init : Reg Nat Nat) [.create 7 true, .insert 0, .create 7 true, .insert 1,
      .dropLocked 0, .dropNotify 0, .dropLocked 1, .dropNotify 1]).map Reg.unwants = some [7] := by decide

/-- The message is sent after the lock was released: a waiter created in between is pending when the
network is told that the block is not wanted. -/
theorem C36_race : ∃ s : Reg Nat Nat, Reg.run true Reg.init [.create 7 true, .insert 0, .dropLocked 0,
      .create 7 true, .insert 1, .dropNotify 0] = some s ∧ s.unwants = [7] ∧ Waits s 7 1 false :=
  ⟨_, rfl, rfl, true, by decide⟩

/-- A completed waiter that was not polled yet hides the last pending one: no message is ever sent. -/
theorem C36_hidden : ∃ s : Reg Nat Nat, Reg.run true Reg.init [.create 7 true, .insert 0, .finish 7 1,
      .create 7 true, .insert 1, .dropLocked 1, .dropNotify 1, .dropLocked 0, .dropNotify 0] = some s ∧
    s.unwants = [] ∧ s.subs = [] := ⟨_, rfl, rfl, by decide⟩

/-- A waiter that read the flag before it was set and is registered after the map was taken stays pending. -/
theorem C37_race : ∃ s : Reg Nat Nat, Reg.run true Reg.init [.create 7 true, .shutFlag, .shutTake, .insert 0] = some s ∧
    s.shut = true ∧ (s.poll 0).map Prod.snd = some .pending := ⟨_, rfl, rfl, by decide⟩

/-- Finishing a kind again before the waiters were polled panics in debug builds. -/
theorem C35_debug_panic : ∃ s : Reg Nat Nat, Reg.run true Reg.init [.create 7 true, .insert 0, .finish 7 1] = some s ∧
    (s.finish true 7 2).2 = .panic ∧ (s.finish false 7 2).2 = .nothing := ⟨_, rfl, by decide⟩

/-- Shutting down for real: a waiter from before and one from after. -/
example : ∃ t s : Reg Nat Nat,
    Reg.run true Reg.init [.create 7 true, .insert 0, .poll 0, .shutFlag] = some t ∧ IsShut t.shutTake ∧
    Reg.run true t.shutTake [.shutCancel 7 0, .create 8 true, .insert 1] = some s ∧
    s.wakes = [0] ∧ s.unwants = [7, 8] ∧
    (s.poll 0).map Prod.snd = some .cancelled ∧ (s.poll 1).map Prod.snd = some .cancelled := by
  refine ⟨_, _, rfl, C37_shut _ rfl ?_, rfl, by decide⟩
  intro i k sub h
  cases i with
  | zero => cases h
  | succ n => cases h

end Verif.Props
