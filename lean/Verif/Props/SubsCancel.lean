import Verif.Props.Subs

/-! # C36, C37: what dropping, creating after a shutdown and shutting down do, exactly -/

namespace Verif.Props

open Verif Verif.Repo.Subs

variable {K R : Type} [DecidableEq K]

/-- **C36**: dropping a waiter wakes the task registered with it, if it was still pending, and no other. -/
theorem C36_drop_wakes (s s1 s2 : Reg K R) (hs : SubsReach s) (i : Nat) (k : K) (c : Bool)
    (hf : s.futs i = some ⟨k, .live c⟩) (h1 : s.dropLocked i = some s1) (h2 : s1.dropNotify i = some s2) :
    (s2.wakes = s.wakes ++ [i] ∧ Waits s k i true) ∨ (s2.wakes = s.wakes ∧ ¬ Waits s k i true) := by
  have hinv := hs.inv
  unfold Reg.dropLocked at h1
  rw [hf] at h1
  simp only at h1
  split at h1
  · simp only [Option.some.injEq] at h1
    subst h1
    simp [Reg.dropNotify, Reg.setFut] at h2
  · split at h1
    · simp only [Option.some.injEq] at h1
      subst h1
      simp only [Reg.dropNotify, Reg.setFut, if_true, Option.some.injEq] at h2
      subst h2
      simp only
      cases hg : AMap.get s.subs (k, i) with
      | none => right; exact ⟨by simp, by rintro ⟨n, h⟩; rw [hg] at h; cases h⟩
      | some sub =>
        cases sub with
        | pending w n =>
          cases w with
          | true => left; exact ⟨by simp [Sub.cancelEffect], n, hg⟩
          | false => right; exact ⟨by simp [Sub.cancelEffect], by rintro ⟨n, h⟩; rw [hg] at h; cases h⟩
        | ready r => right; exact ⟨by simp [Sub.cancelEffect], by rintro ⟨n, h⟩; rw [hg] at h; cases h⟩
        | cancelled => right; exact ⟨by simp [Sub.cancelEffect], by rintro ⟨n, h⟩; rw [hg] at h; cases h⟩
    · rename_i hk
      simp only [Option.some.injEq] at h1
      subst h1
      simp only [Reg.dropNotify, Reg.setFut, if_true, Option.some.injEq] at h2
      subst h2
      right
      refine ⟨by simp, ?_⟩
      rintro ⟨w, hg⟩
      exact hk (hasKind_iff.mpr ⟨i, by rw [hg]; rfl⟩)

omit [DecidableEq K] in
/-- **C36**: a waiter made after the shutdown sends its message at once; one made before sends none. -/
theorem C36_create (s : Reg K R) (k : K) :
    (s.create k true).unwants = (if s.shut then s.unwants ++ [k] else s.unwants) ∧
    (s.create k false).unwants = s.unwants ∧ ∀ n, (s.create k n).wakes = s.wakes := by
  cases h : s.shut <;> simp [Reg.create, h, Sub.cancelEffect, Reg.setFut]

/-- What `shutdown` took is no longer registered. -/
def TakenOver (s : Reg K R) : Prop := ∀ k i sub, AMap.get s.taken (k, i) = some sub → SubOver s k i

theorem amap_get_append {κ ν : Type} [DecidableEq κ] (a b : AMap κ ν) (k : κ) :
    AMap.get (a ++ b) k = (AMap.get a k).or (AMap.get b k) := by
  induction a with
  | nil => simp [AMap.get]
  | cons e a ih =>
    obtain ⟨x, y⟩ := e
    simp only [List.cons_append, AMap.get]
    split
    · simp
    · exact ih

/-- A step changes what was taken only by taking all, or by going through one. -/
theorem taken_step {debug : Bool} {s s' : Reg K R} {op : Op K R} {out : Out R}
    (h : s.step debug op = some (s', out)) :
    s'.taken = s.taken ∨ (s'.taken = s.taken ++ s.subs ∧ s' = s.shutTake) ∨
      ∃ k i, op = .shutCancel k i ∧ s'.taken = AMap.erase s.taken (k, i) ∧
        s'.subs = s.subs ∧ s'.futs = s.futs := by
  cases op with
  | create k n =>
    simp only [Reg.step, Option.some.injEq, Prod.mk.injEq] at h
    obtain ⟨rfl, rfl⟩ := h
    left; unfold Reg.create; split <;> rfl
  | insert j =>
    simp only [Reg.step, Reg.insert] at h
    split at h
    · simp only [Option.map_some, Option.some.injEq, Prod.mk.injEq] at h; obtain ⟨rfl, rfl⟩ := h; left; rfl
    · cases h
  | finish k r =>
    simp only [Reg.step, Option.some.injEq] at h
    unfold Reg.finish at h
    left
    split at h
    · simp only at h
      split at h <;> (simp only [Prod.mk.injEq] at h; obtain ⟨rfl, rfl⟩ := h; rfl)
    · simp only [Prod.mk.injEq] at h; obtain ⟨rfl, rfl⟩ := h; rfl
  | poll j =>
    simp only [Reg.step, Reg.poll] at h
    left
    split at h
    · split at h <;> (simp only [Option.some.injEq, Prod.mk.injEq] at h; obtain ⟨rfl, rfl⟩ := h; rfl)
    · cases h
  | dropLocked j =>
    simp only [Reg.step, Reg.dropLocked] at h
    left
    split at h
    · split at h
      · simp only [Option.map_some, Option.some.injEq, Prod.mk.injEq] at h; obtain ⟨rfl, rfl⟩ := h; rfl
      · split at h <;>
          (simp only [Option.map_some, Option.some.injEq, Prod.mk.injEq] at h; obtain ⟨rfl, rfl⟩ := h; rfl)
    · cases h
  | dropNotify j =>
    simp only [Reg.step, Reg.dropNotify] at h
    left
    split at h
    · simp only [Option.map_some, Option.some.injEq, Prod.mk.injEq] at h; obtain ⟨rfl, rfl⟩ := h; rfl
    · cases h
  | shutFlag =>
    simp only [Reg.step, Reg.shutFlag] at h
    left
    split at h
    · cases h
    · simp only [Option.map_some, Option.some.injEq, Prod.mk.injEq] at h; obtain ⟨rfl, rfl⟩ := h; rfl
  | shutTake =>
    simp only [Reg.step, Option.some.injEq, Prod.mk.injEq] at h
    obtain ⟨rfl, rfl⟩ := h; exact Or.inr (Or.inl ⟨rfl, rfl⟩)
  | shutCancel k j =>
    simp only [Reg.step, Reg.shutCancel] at h
    split at h
    · cases h
    · simp only [Option.map_some, Option.some.injEq, Prod.mk.injEq] at h
      obtain ⟨rfl, rfl⟩ := h
      exact Or.inr (Or.inr ⟨k, j, rfl, rfl, rfl, rfl⟩)

theorem TakenOver.step {debug : Bool} {s s' : Reg K R} {op : Op K R} {out : Out R} (hi : SubsInv s)
    (ht : TakenOver s) (h : s.step debug op = some (s', out)) : TakenOver s' := by
  intro k i sub hg
  rcases taken_step h with e | ⟨e, e'⟩ | ⟨k', j, _, e, _, _⟩
  · rw [e] at hg
    exact ((ht k i sub hg).step hi h).1
  · rw [e, amap_get_append] at hg
    cases h1 : AMap.get s.taken (k, i) with
    | some x => exact ((ht k i x h1).step hi h).1
    | none =>
      rw [h1, Option.none_or] at hg
      subst e'
      exact ⟨rfl, _, hi.owner _ _ _ hg, by simp⟩
  · rw [e, AMap.get_erase] at hg
    split at hg
    · cases hg
    · exact ((ht k i sub hg).step hi h).1

/-- Both invariants along a schedule. -/
theorem taken_run {debug : Bool} {s s' : Reg K R} {ops : List (Op K R)} (hi : SubsInv s) (ht : TakenOver s)
    (h : Reg.run debug s ops = some s') : SubsInv s' ∧ TakenOver s' := by
  induction ops generalizing s with
  | nil => simp only [Reg.run, Option.some.injEq] at h; subst h; exact ⟨hi, ht⟩
  | cons op ops ih =>
    simp only [Reg.run] at h
    split at h
    · cases h
    · rename_i s1 out hs; exact ih (hi.step hs) (ht.step hi hs) h

/-- **C37**: a shutdown goes through every waiter at most once, so none is woken, and no message sent for
it, a second time: once the loop has cancelled it, whatever else happens, the loop does not come to it
again. -/
theorem C37_cancel_once (debug : Bool) (s s1 s2 : Reg K R) (hs : SubsReach s) (k : K) (i : Nat)
    (h1 : s.shutCancel k i = some s1) (ops : List (Op K R)) (h2 : Reg.run debug s1 ops = some s2) :
    s2.shutCancel k i = none := by
  obtain ⟨debug', ops', hr⟩ := hs
  obtain ⟨hi, ht⟩ := taken_run SubsInv.init (by intro k i sub h; cases h) hr
  have hstep : s.step debug (.shutCancel k i) = some (s1, .nothing) := by simp [Reg.step, h1]
  have hi1 := hi.step hstep
  have ho1 : SubOver s1 k i := by
    unfold Reg.shutCancel at h1
    cases hg : AMap.get s.taken (k, i) with
    | none => simp [hg] at h1
    | some sub => exact ((ht k i sub hg).step hi hstep).1
  have hn1 : AMap.get s1.taken (k, i) = none := by
    unfold Reg.shutCancel at h1
    split at h1
    · cases h1
    · simp only [Option.some.injEq] at h1; subst h1; simp [AMap.get_erase]
  have key : AMap.get s2.taken (k, i) = none := by
    clear h1 hstep
    induction ops generalizing s1 with
    | nil => simp only [Reg.run, Option.some.injEq] at h2; subst h2; exact hn1
    | cons op ops ih =>
      simp only [Reg.run] at h2
      split at h2
      · cases h2
      · rename_i s3 out hs3
        refine ih s3 h2 (hi1.step hs3) (ho1.step hi1 hs3).1 ?_
        rcases taken_step hs3 with e | ⟨e, _⟩ | ⟨k', j, _, e, _, _⟩
        · rw [e, hn1]
        · rw [e, amap_get_append, hn1, ho1.1]; rfl
        · rw [e, AMap.get_erase]; split
          · rfl
          · exact hn1
  unfold Reg.shutCancel
  rw [key]

/-- Two waiters of one kind are cancelled by a shutdown, each once. -/
example : ∃ s s1 s2 : Reg Nat Nat, Reg.run true Reg.init [.create 7 true, .insert 0, .create 7 true, .insert 1,
      .poll 0, .shutFlag, .shutTake] = some s ∧ s.shutCancel 7 0 = some s1 ∧
    Reg.run true s1 [.shutCancel 7 1, .dropLocked 0, .dropNotify 0, .shutTake] = some s2 ∧
    s2.wakes = [0] ∧ s2.unwants = [7, 7] ∧ s2.shutCancel 7 0 = none :=
  ⟨_, _, _, rfl, rfl, rfl, rfl, rfl, rfl⟩

/-- A waiter that was polled is dropped. -/
example : ∃ s s1 s2 : Reg Nat Nat, Reg.run true Reg.init [.create 7 true, .insert 0, .poll 0] = some s ∧
    s.dropLocked 0 = some s1 ∧ s1.dropNotify 0 = some s2 ∧ s2.wakes = [0] ∧ s2.unwants = [7] :=
  ⟨_, _, _, rfl, rfl, rfl, rfl, rfl⟩

end Verif.Props
