import Verif.Repo.FsPinsLemmas
import Verif.Props.PinsMem

/-! # C31, C58: the filesystem pin store tracks exactly the pinned blocks, also across crashes -/

namespace Verif.Props

open Verif Verif.Repo Verif.Spec

/-- The changes a user operation makes to the files; the stream of descendants is complete. -/
def fsSteps (le : Cid → Cid → Bool) (refs : Cid → List Cid) (g : FsPins) :
    PinOp → Except PinErr (List DiskStep)
  | .insertDirect c => g.insertDirect c
  | .removeDirect c => g.removeDirect c
  | .insertRecursive c => g.insertRecursive le c ((refs c).map some)
  | .removeRecursive c => g.removeRecursive c

/-- One uninterrupted operation. -/
def fsStep (le : Cid → Cid → Bool) (refs : Cid → List Cid) (g : FsPins) (op : PinOp) :
    Except PinErr Unit × FsPins :=
  match fsSteps le refs g op with
  | .error e => (.error e, g)
  | .ok steps => (.ok (), runSteps g steps)

/-- When an operation succeeds. -/
def FsAllows (s : Pins) : PinOp → Prop
  | .insertDirect c => s.root c = false
  | .removeDirect c => s.direct c = true
  | .insertRecursive _ => True
  | .removeRecursive c => s.root c = true ∨ s.direct c = true

/-- After any number of its disk steps an operation has happened or has not; after all of them it
has. -/
theorem fs_steps {le : Cid → Cid → Bool} {refs : Cid → List Cid} {g : FsPins} {s : Pins}
    (h : FsInv refs g s) (op : PinOp) :
    (FsAllows s op ∧ ∃ steps, fsSteps le refs g op = .ok steps ∧
      FsInv refs (runSteps g steps) (s.after op) ∧
      ∀ k, FsInv refs (runSteps g (steps.take k)) s ∨
        FsInv refs (runSteps g (steps.take k)) (s.after op)) ∨
    (¬ FsAllows s op ∧ ∃ e, fsSteps le refs g op = .error e) := by
  cases op with
  | insertDirect c =>
    simp only [fsSteps, FsPins.insertDirect, h.isRoot, FsAllows]
    cases hr : s.root c with
    | true => exact Or.inr ⟨by simp, _, rfl⟩
    | false =>
      refine Or.inl ⟨rfl, _, rfl, h.createDirect c _ hr, fun k => ?_⟩
      match k with
      | 0 => exact Or.inl h
      | k + 1 => exact Or.inr (by rw [List.take_of_length_le (by simp)]; exact h.createDirect c _ hr)
  | removeDirect c =>
    simp only [fsSteps, FsPins.removeDirect, h.isRoot, FsAllows]
    cases hr : s.root c with
    | true =>
      refine Or.inr ⟨?_, _, rfl⟩
      intro hd
      have := h.excl c hd
      simp [hr] at this
    | false =>
      rw [h.isDirect hr]
      cases hd : s.direct c with
      | false => exact Or.inr ⟨by simp, _, rfl⟩
      | true =>
        refine Or.inl ⟨rfl, _, rfl, h.removeDirect c hr, fun k => ?_⟩
        match k with
        | 0 => exact Or.inl h
        | k + 1 => exact Or.inr (by rw [List.take_of_length_le (by simp)]; exact h.removeDirect c hr)
  | insertRecursive c =>
    simp only [fsSteps, FsPins.insertRecursive, collectRefs_ok, FsAllows]
    have h1 := h.temp c .torn
    have h2 := h1.temp c (.json (toSet le (refs c)))
    have h3 := h2.rename c (toSet le (refs c)) (AMap.get_set_eq _ _ _) (fun x => mem_toSet le x _)
    have h4 := h3.dropLeftOver c (by simp [Pins.after])
    refine Or.inl ⟨trivial, _, rfl, h4, fun k => ?_⟩
    match k with
    | 0 => exact Or.inl h
    | 1 => exact Or.inl h1
    | 2 => exact Or.inl h2
    | 3 => exact Or.inr h3
    | k + 4 => exact Or.inr (by rw [List.take_of_length_le (by simp)]; exact h4)
  | removeRecursive c =>
    simp only [fsSteps, FsPins.removeRecursive, h.isRoot, FsAllows]
    cases hr : s.root c with
    | true =>
      rw [Bool.or_true]
      have h1 := h.dropLeftOver c hr
      have h2 := h1.removeRoot c (by rw [isFile_erase]; simp)
      refine Or.inl ⟨Or.inl rfl, _, rfl, h2, fun k => ?_⟩
      match k with
      | 0 => exact Or.inl h
      | 1 => exact Or.inl h1
      | k + 2 => exact Or.inr (by rw [List.take_of_length_le (by simp)]; exact h2)
    | false =>
      rw [h.isDirect hr]
      cases hd : s.direct c with
      | false => exact Or.inr ⟨by simp, _, rfl⟩
      | true =>
        have h1 := h.removeDirect c hr
        have h2 := h1.removeRoot c (by rw [isFile_erase]; simp)
        have e : ∀ op', (op' = PinOp.removeDirect c) →
            s.after op' = s.after (.removeRecursive c) := by
          rintro _ rfl
          simp only [Pins.after, Pins.mk.injEq, true_and]
          funext a
          split
          · rename_i ha; rw [ha, hr]
          · rfl
        have e2 : (s.after (.removeDirect c)).after (.removeRecursive c) =
            s.after (.removeRecursive c) := by
          simp only [Pins.after, Pins.mk.injEq, and_true]
          funext a
          split <;> rfl
        rw [e2] at h2
        rw [e _ rfl] at h1
        refine Or.inl ⟨Or.inr rfl, _, rfl, h2, fun k => ?_⟩
        match k with
        | 0 => exact Or.inl h
        | 1 => exact Or.inr h1
        | k + 2 => exact Or.inr (by rw [List.take_of_length_le (by simp)]; exact h2)

/-- The invariant after every uninterrupted history. -/
theorem fs_reachable (le : Cid → Cid → Bool) (refs : Cid → List Cid) (ops : List PinOp) :
    FsInv refs (track (fsStep le refs) [] Pins.none ops).1
      (track (fsStep le refs) [] Pins.none ops).2 := by
  refine track_inv (P := FsInv refs) (A := fun _ => True) ?_ (fun _ _ => trivial) (FsInv.nil refs)
  intro g s op _ h
  rcases fs_steps (le := le) h op with ⟨_, st, e, i, _⟩ | ⟨_, e', e⟩
  · refine ⟨fun u g2 e2 => ?_, fun er g2 e2 => ?_⟩
    · simp only [fsStep, e] at e2; cases e2; exact i
    · simp only [fsStep, e] at e2; cases e2
  · refine ⟨fun u g2 e2 => ?_, fun er g2 e2 => ?_⟩
    · simp only [fsStep, e] at e2; cases e2
    · simp only [fsStep, e] at e2; cases e2; exact h

/-- **C31**: after every history of pin operations on the filesystem store, exactly the cids that are
pinned directly, recursively, or are descendants of a recursive root are reported as pinned. -/
theorem C31_fs_tracks (le : Cid → Cid → Bool) (refs : Cid → List Cid) (ops : List PinOp) (c : Cid) :
    ∃ b, (track (fsStep le refs) [] Pins.none ops).1.isPinned c = .ok b ∧
      (b = true ↔ (track (fsStep le refs) [] Pins.none ops).2.Pinned refs c) :=
  (fs_reachable le refs ops).isPinned c

/-- **C31**: after every history, the next operation succeeds exactly when the rules allow it. -/
theorem C31_fs_answers (le : Cid → Cid → Bool) (refs : Cid → List Cid) (ops : List PinOp)
    (op : PinOp) :
    (∃ g', fsStep le refs (track (fsStep le refs) [] Pins.none ops).1 op = (.ok (), g')) ↔
      FsAllows (track (fsStep le refs) [] Pins.none ops).2 op := by
  rcases fs_steps (le := le) (fs_reachable le refs ops) op with ⟨h1, st, e, _⟩ | ⟨h1, e', e⟩
  · exact ⟨fun _ => h1, fun _ => by simp only [fsStep, e]; exact ⟨_, rfl⟩⟩
  · refine ⟨fun ⟨g', e2⟩ => ?_, fun h2 => absurd h2 h1⟩
    simp only [fsStep, e] at e2
    cases e2

/-- Histories of operations, some of them cut short by a crash after `k` disk steps (latest first),
and the files left behind. -/
inductive FsRun (le : Cid → Cid → Bool) (refs : Cid → List Cid) :
    List (PinOp × Outcome) → FsPins → Prop where
  | nil : FsRun le refs [] []
  | ok {h : List (PinOp × Outcome)} {g : FsPins} {op : PinOp} {st : List DiskStep} :
      FsRun le refs h g → fsSteps le refs g op = .ok st →
      FsRun le refs ((op, .ok) :: h) (runSteps g st)
  | failed {h : List (PinOp × Outcome)} {g : FsPins} {op : PinOp} {e : PinErr} :
      FsRun le refs h g → fsSteps le refs g op = .error e → FsRun le refs ((op, .failed) :: h) g
  | crashed {h : List (PinOp × Outcome)} {g : FsPins} {op : PinOp} {st : List DiskStep} (k : Nat) :
      FsRun le refs h g → fsSteps le refs g op = .ok st →
      FsRun le refs ((op, .crashed) :: h) (runSteps g (st.take k))

theorem FsRun.inv {le : Cid → Cid → Bool} {refs : Cid → List Cid} {h : List (PinOp × Outcome)}
    {g : FsPins} (r : FsRun le refs h g) : ∃ s, Explains h s ∧ FsInv refs g s := by
  induction r with
  | nil => exact ⟨_, .nil, FsInv.nil refs⟩
  | @ok h g op st _ e ih =>
    obtain ⟨s, hs, hi⟩ := ih
    rcases fs_steps (le := le) hi op with ⟨_, st', e', i, _⟩ | ⟨_, e', e2⟩
    · rw [e] at e'; cases e'; exact ⟨_, .ok hs, i⟩
    · rw [e] at e2; cases e2
  | @failed h g op e _ e1 ih =>
    obtain ⟨s, hs, hi⟩ := ih
    exact ⟨s, .failed hs, hi⟩
  | @crashed h g op st k _ e ih =>
    obtain ⟨s, hs, hi⟩ := ih
    rcases fs_steps (le := le) hi op with ⟨_, st', e', _, i⟩ | ⟨_, e', e2⟩
    · rw [e] at e'; cases e'
      rcases i k with i | i
      · exact ⟨s, .crashedBefore hs, i⟩
      · exact ⟨_, .crashedAfter hs, i⟩
    · rw [e] at e2; cases e2

/-- **C58**: whatever operations were cut short by a crash, and wherever, the files say what is
pinned after a history in which each of these operations has either happened or not. -/
theorem C58_fs_pins_crash (le : Cid → Cid → Bool) (refs : Cid → List Cid)
    (h : List (PinOp × Outcome)) (g : FsPins) (r : FsRun le refs h g) :
    ∃ s, Explains h s ∧ ∀ c, ∃ b, g.isPinned c = .ok b ∧ (b = true ↔ s.Pinned refs c) := by
  obtain ⟨s, hs, hi⟩ := r.inv
  exact ⟨s, hs, hi.isPinned⟩

-- the shared descendant stays pinned, the other one goes
example : (track (fsStep exLe exRefs) [] Pins.none exOps).1.isPinned (pcid .v1 9) = .ok true ∧
    (track (fsStep exLe exRefs) [] Pins.none exOps).1.isPinned (pcid .v1 8) = .ok false ∧
    (track (fsStep exLe exRefs) [] Pins.none exOps).2.root (pcid .v1 2) = true := by
  decide +kernel

-- both versions of a root are fine here
example : (track (fsStep exLe exRefs) [] Pins.none [.insertRecursive (pcid .v0 1),
    .insertRecursive (pcid .v1 1), .removeRecursive (pcid .v0 1)]).1.isPinned (pcid .v1 9) =
      .ok true := by
  decide +kernel

-- a crash with a direct pin file left over, and one which leaves a torn temporary file
example : ∃ g, FsRun exLe exRefs [(.insertRecursive (pcid .v1 2), .crashed),
    (.insertRecursive (pcid .v1 1), .crashed), (.insertDirect (pcid .v1 1), .ok)] g ∧
    g.isFile (pcid .v1 1) .direct = true ∧ g.isFile (pcid .v1 1) .recursive = true ∧
    g.get (pcid .v1 2, .recursiveTemp) = some .torn :=
  ⟨_, .crashed 1 (.crashed 3 (.ok .nil rfl) rfl) rfl, by decide +kernel, by decide +kernel,
    by decide +kernel⟩

end Verif.Props
