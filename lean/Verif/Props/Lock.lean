import Verif.Repo.Lock
import Mathlib.Tactic.SplitIfs

/-!
# C80: a repository is used by one node at a time

Specification: a node uses the repository (`LockUses`) if its `init` succeeded and somebody still has a handle of it; it works on the disk
(`WorksOn`) if one of its blocking tasks runs.
-/

namespace Verif.Props

open Verif.Repo

/-- The node was started and is still there. -/
def LockUses (w : LockWorld) (n : Nat) : Prop := (w.node n).ready = true ∧ (w.node n).handles ≠ 0

/-- The node has the lock file open. -/
def LockKeeps (w : LockWorld) (n : Nat) : Prop := (w.node n).file = true ∧ (w.node n).handles ≠ 0

/-- The node reads or writes files. -/
def WorksOn (w : LockWorld) (n : Nat) : Prop := (w.node n).jobs ≠ 0

/-- The lock of the system is that of the node that has the file open. -/
structure LockInv (w : LockWorld) : Prop where
  own : ∀ n, w.owner = some n ↔ LockKeeps w n
  rdy : ∀ n, (w.node n).ready = true → (w.node n).file = true

theorem lockInv_init (dir : Bool) : LockInv (LockWorld.init dir) := by
  constructor <;> simp [LockWorld.init, LockKeeps]

theorem lockInv_upd {w : LockWorld} (h : LockInv w) (n : Nat) (x : LockNode) (hk : (x.file = true ∧ x.handles ≠ 0) ↔ LockKeeps w n)
    (hr : x.ready = true → x.file = true) : LockInv (w.upd n x) := by
  constructor
  · intro k
    rw [show (w.upd n x).owner = w.owner from rfl, h.own k]
    by_cases hkn : k = n
    · subst hkn; simp only [LockKeeps, LockWorld.upd, if_pos] at hk ⊢; exact hk.symm
    · simp only [LockKeeps, LockWorld.upd, if_neg hkn]
  · intro k
    by_cases hkn : k = n
    · simpa [LockWorld.upd, hkn] using hr
    · simpa [LockWorld.upd, hkn] using h.rdy k

theorem lockInv_close {w : LockWorld} (h : LockInv w) (n j : Nat) : LockInv (w.close n j) := by
  constructor
  · intro k
    by_cases hkn : k = n
    · subst hkn
      simp only [LockWorld.close, LockWorld.upd, LockKeeps, if_true]
      by_cases ho : w.owner = some k
      · simp [ho]
      · simp [ho]
    · have := h.own k
      simp only [LockWorld.close, LockWorld.upd, LockKeeps, if_neg hkn] at this ⊢
      rw [← this]
      by_cases ho : w.owner = some n
      · simp [ho, Ne.symm hkn]
      · simp [ho]
  · intro k
    by_cases hkn : k = n
    · simp [LockWorld.close, LockWorld.upd, hkn]
    · simpa [LockWorld.close, LockWorld.upd, hkn] using h.rdy k

theorem lockInv_initRepo {w : LockWorld} (h : LockInv w) (n : Nat) (ok : Bool) (hn : (w.node n).handles ≠ 0) : LockInv (w.initRepo n ok).2 := by
  simp only [LockWorld.initRepo, LockWorld.tryExclusive]
  by_cases hd : w.dir = true
  · simp only [hd, not_true, if_false]
    cases ho : w.owner with
    | some k => exact h
    | none =>
      have hno : ∀ k, ¬ LockKeeps w k := fun k hk => by
        have := (h.own k).2 hk
        rw [ho] at this; cases this
      have h1 : LockInv ({ w.upd n { w.node n with file := true } with owner := some n } : LockWorld) := by
        constructor
        · intro k
          by_cases hkn : k = n
          · subst hkn; simp [LockKeeps, LockWorld.upd, hn]
          · have := hno k
            simp only [LockKeeps, LockWorld.upd, if_neg hkn] at this ⊢
            exact ⟨fun hh => absurd (Option.some.inj hh).symm hkn, fun hh => absurd hh this⟩
        · intro k
          by_cases hkn : k = n
          · simp [LockWorld.upd, hkn]
          · simpa [LockWorld.upd, hkn] using h.rdy k
      cases ok with
      | false => simpa using h1
      | true =>
        simp only [if_true]
        refine lockInv_upd h1 n _ ?_ ?_
        · simp [LockKeeps]
        · simp [LockWorld.upd]
  · simpa [hd] using h

theorem lockInv_step (w : LockWorld) (e : LockEv) (w' : LockWorld) (h : LockInv w) (hs : w.step e = some w') : LockInv w' := by
  cases e with
  | make n =>
    simp only [LockWorld.step] at hs
    split_ifs at hs with hh
    cases hs
    exact lockInv_upd h n _ (by simp [LockKeeps, hh.1]) (by simp)
  | start n ok =>
    simp only [LockWorld.step] at hs
    split_ifs at hs with hh
    cases hs
    exact lockInv_initRepo h n ok hh
  | share n =>
    simp only [LockWorld.step] at hs
    split_ifs at hs with hh
    cases hs
    exact lockInv_upd h n _ (by simp [LockKeeps, hh]) (h.rdy n)
  | drop n =>
    simp only [LockWorld.step] at hs
    split at hs
    · cases hs
    · cases hs; exact lockInv_close h n _
    · rename_i j hj
      cases hs
      exact lockInv_upd h n _ (by simp [LockKeeps, hj]) (h.rdy n)
  | job n =>
    simp only [LockWorld.step] at hs
    split_ifs at hs with hh
    cases hs
    exact lockInv_upd h n _ (by simp [LockKeeps]) (h.rdy n)
  | jobDone n =>
    simp only [LockWorld.step] at hs
    split at hs
    · cases hs
    · cases hs
      exact lockInv_upd h n _ (by simp [LockKeeps]) (h.rdy n)
  | kill n =>
    simp only [LockWorld.step, Option.some.injEq] at hs
    subst hs
    exact lockInv_close h n 0
  | mkdir =>
    simp only [LockWorld.step, Option.some.injEq] at hs
    subst hs
    exact ⟨h.own, h.rdy⟩

theorem lockInv_run (es : List LockEv) : ∀ w w' : LockWorld, LockInv w → w.run es = some w' → LockInv w' := by
  induction es with
  | nil => intro w w' h hr; simp only [LockWorld.run, Option.some.injEq] at hr; exact hr ▸ h
  | cons e es ih =>
    intro w w' h hr
    simp only [LockWorld.run] at hr
    cases hs : w.step e with
    | none => rw [hs] at hr; cases hr
    | some w1 => rw [hs] at hr; exact ih w1 w' (lockInv_step w e w1 h hs) hr

/-- C80: whatever nodes are made, started, shared, dropped and killed in whatever order, no two nodes use the repository. -/
theorem C80_one (dir : Bool) (es : List LockEv) (w : LockWorld) (h : (LockWorld.init dir).run es = some w) (a b : Nat)
    (ha : LockUses w a) (hb : LockUses w b) : a = b := by
  have hi := lockInv_run es _ w (lockInv_init dir) h
  have h1 := (hi.own a).2 ⟨hi.rdy a ha.1, ha.2⟩
  have h2 := (hi.own b).2 ⟨hi.rdy b hb.1, hb.2⟩
  exact Option.some.inj (h1.symm.trans h2)

example : ∃ w, (LockWorld.init true).run [.make 1, .make 2, .start 1 true, .start 2 true] = some w ∧ LockUses w 1 ∧ ¬ LockUses w 2 :=
  ⟨_, rfl, ⟨by decide +kernel, by decide +kernel⟩, fun h => absurd h.1 (by decide +kernel)⟩

/-- C80: starting a node succeeds just if the directory is there, the stores can make theirs, and no node has the lock; as long as one uses
the repository others are told so; a start that does not succeed leaves the users as they were. -/
theorem C80_start (dir : Bool) (es : List LockEv) (w : LockWorld) (h : (LockWorld.init dir).run es = some w) (n : Nat) (ok : Bool)
    (hn : (w.node n).handles ≠ 0) :
    ((w.initRepo n ok).1 = .ok ↔ w.dir = true ∧ ok = true ∧ ∀ k, ¬ LockKeeps w k) ∧
    ((w.initRepo n ok).1 = .inUse ↔ w.dir = true ∧ ∃ k, LockKeeps w k) ∧
    ((w.initRepo n ok).1 = .ok → ∀ k, LockUses (w.initRepo n ok).2 k ↔ k = n) ∧
    ((w.initRepo n ok).1 ≠ .ok → ∀ k, LockUses (w.initRepo n ok).2 k ↔ LockUses w k) := by
  have hi := lockInv_run es _ w (lockInv_init dir) h
  by_cases hd : w.dir = true
  · cases ho : w.owner with
    | some k =>
      have hk := (hi.own k).1 ho
      have he : w.initRepo n ok = (.inUse, w) := by simp [LockWorld.initRepo, LockWorld.tryExclusive, hd, ho]
      rw [he]
      exact ⟨⟨fun hh => (by cases hh), fun hh => absurd hk (hh.2.2 k)⟩, ⟨fun _ => ⟨hd, k, hk⟩, fun _ => rfl⟩, fun hh => (by cases hh), fun _ _ => Iff.rfl⟩
    | none =>
      have hno : ∀ k, ¬ LockKeeps w k := fun k hk => by
        have := (hi.own k).2 hk
        rw [ho] at this; cases this
      cases ok with
      | true =>
        have h1 : (w.initRepo n true).1 = .ok := by simp [LockWorld.initRepo, LockWorld.tryExclusive, hd, ho]
        refine ⟨⟨fun _ => ⟨hd, rfl, hno⟩, fun _ => h1⟩, ?_, fun _ k => ?_, fun hh => absurd h1 hh⟩
        · rw [h1]; exact ⟨fun hh => (by cases hh), fun hh => absurd hh.2.choose_spec (hno _)⟩
        · have h2 : (w.initRepo n true).2.node = fun k => if k = n then ⟨(w.node n).handles, true, true, (w.node n).jobs⟩ else w.node k := by
            funext k
            by_cases hk : k = n <;> simp [LockWorld.initRepo, LockWorld.tryExclusive, hd, ho, LockWorld.upd, hk]
          by_cases hk : k = n
          · simp [LockUses, h2, hk, hn]
          · have := hno k
            have hr := hi.rdy k
            simp only [LockUses, h2, hk, iff_false]
            exact fun hu => this ⟨hr hu.1, hu.2⟩
      | false =>
        have h1 : (w.initRepo n false).1 = .noStore := by simp [LockWorld.initRepo, LockWorld.tryExclusive, hd, ho]
        refine ⟨⟨fun hh => (by rw [h1] at hh; cases hh), fun hh => (by cases hh.2.1)⟩, ?_, fun hh => (by rw [h1] at hh; cases hh), fun _ k => ?_⟩
        · rw [h1]; exact ⟨fun hh => (by cases hh), fun hh => absurd hh.2.choose_spec (hno _)⟩
        · have h2 : (w.initRepo n false).2.node = fun k => if k = n then ⟨(w.node n).handles, true, (w.node n).ready, (w.node n).jobs⟩ else w.node k := by
            funext k
            by_cases hk : k = n <;> simp [LockWorld.initRepo, LockWorld.tryExclusive, hd, ho, LockWorld.upd, hk]
          by_cases hk : k = n
          · subst hk; simp [LockUses, h2]
          · simp [LockUses, h2, hk]
  · have he : w.initRepo n ok = (.noLockFile, w) := by simp [LockWorld.initRepo, LockWorld.tryExclusive, hd]
    rw [he]
    exact ⟨⟨fun hh => (by cases hh), fun hh => absurd hh.1 hd⟩, ⟨fun hh => (by cases hh), fun hh => absurd hh.1 hd⟩, fun hh => (by cases hh), fun _ _ => Iff.rfl⟩

/-- C80: when a process ends, or the last handle is dropped, the node no longer has the lock and all others are as before. -/
theorem C80_released (w w' : LockWorld) (n : Nat) (e : LockEv) (he : e = .kill n ∨ (e = .drop n ∧ (w.node n).handles = 1))
    (h : w.step e = some w') : ¬ LockKeeps w' n ∧ ¬ LockUses w' n ∧ ∀ k, k ≠ n → (LockKeeps w' k ↔ LockKeeps w k) ∧ (LockUses w' k ↔ LockUses w k) := by
  have hc : ∃ j, w' = w.close n j := by
    rcases he with rfl | ⟨rfl, hh⟩
    · simp only [LockWorld.step, Option.some.injEq] at h; exact ⟨0, h.symm⟩
    · simp only [LockWorld.step, hh, Option.some.injEq] at h; exact ⟨_, h.symm⟩
  obtain ⟨j, rfl⟩ := hc
  refine ⟨by simp [LockKeeps, LockWorld.close, LockWorld.upd], by simp [LockUses, LockWorld.close, LockWorld.upd], fun k hk => ?_⟩
  simp [LockKeeps, LockUses, LockWorld.close, LockWorld.upd, hk]

/-- How many handles of a node there are after a history: one when it is made, one more when it is shared, one less when one is dropped. -/
def handlesAfter (n : Nat) : Nat → List LockEv → Nat
  | k, [] => k
  | k, .make m :: es => handlesAfter n (if m = n then 1 else k) es
  | k, .share m :: es => handlesAfter n (if m = n then k + 1 else k) es
  | k, .drop m :: es => handlesAfter n (if m = n then k - 1 else k) es
  | k, .kill m :: es => handlesAfter n (if m = n then 0 else k) es
  | k, _ :: es => handlesAfter n k es

theorem handles_initRepo (w : LockWorld) (n k : Nat) (ok : Bool) : ((w.initRepo n ok).2.node k).handles = (w.node k).handles ∧
    (w.initRepo n ok).2.dir = w.dir := by
  simp only [LockWorld.initRepo, LockWorld.tryExclusive]
  by_cases hd : w.dir = true
  · simp only [hd, not_true, if_false]
    cases ho : w.owner with
    | some k => exact ⟨rfl, hd⟩
    | none => cases ok <;> by_cases hk : k = n <;> simp [LockWorld.upd, hk, hd]
  · simp [hd]

theorem handles_run (es : List LockEv) : ∀ w w' : LockWorld, w.run es = some w' → ∀ k,
    (w'.node k).handles = handlesAfter k (w.node k).handles es ∧ w'.dir = (w.dir || decide (LockEv.mkdir ∈ es)) := by
  induction es with
  | nil => intro w w' h k; simp only [LockWorld.run, Option.some.injEq] at h; subst h; simp [handlesAfter]
  | cons e es ih =>
    intro w w' h k
    simp only [LockWorld.run] at h
    cases hs : w.step e with
    | none => rw [hs] at h; cases h
    | some w1 =>
      rw [hs] at h
      obtain ⟨h1, h2⟩ := ih w1 w' h k
      rw [h1, h2]
      cases e with
      | make n =>
        simp only [LockWorld.step] at hs
        split_ifs at hs; cases hs
        by_cases hk : k = n
        · simp [handlesAfter, LockWorld.upd, hk]
        · simp [handlesAfter, LockWorld.upd, hk, Ne.symm hk]
      | start n ok =>
        simp only [LockWorld.step] at hs
        split_ifs at hs; cases hs
        obtain ⟨h3, h4⟩ := handles_initRepo w n k ok
        rw [h3, h4]
        simp [handlesAfter]
      | share n =>
        simp only [LockWorld.step] at hs
        split_ifs at hs; cases hs
        by_cases hk : k = n
        · simp [handlesAfter, LockWorld.upd, hk]
        · simp [handlesAfter, LockWorld.upd, hk, Ne.symm hk]
      | drop n =>
        simp only [LockWorld.step] at hs
        split at hs
        · cases hs
        · rename_i hj
          cases hs
          by_cases hk : k = n
          · subst hk; simp [handlesAfter, LockWorld.close, LockWorld.upd, hj]
          · simp [handlesAfter, LockWorld.close, LockWorld.upd, hk, Ne.symm hk]
        · rename_i j hj
          cases hs
          by_cases hk : k = n
          · subst hk; simp [handlesAfter, LockWorld.upd, hj]
          · simp [handlesAfter, LockWorld.upd, hk, Ne.symm hk]
      | job n =>
        simp only [LockWorld.step] at hs
        split_ifs at hs; cases hs
        by_cases hk : k = n
        · simp [handlesAfter, LockWorld.upd, hk]
        · simp [handlesAfter, LockWorld.upd, hk]
      | jobDone n =>
        simp only [LockWorld.step] at hs
        split at hs
        · cases hs
        · cases hs
          by_cases hk : k = n
          · simp [handlesAfter, LockWorld.upd, hk]
          · simp [handlesAfter, LockWorld.upd, hk]
      | kill n =>
        simp only [LockWorld.step, Option.some.injEq] at hs
        subst hs
        by_cases hk : k = n
        · simp [handlesAfter, LockWorld.close, LockWorld.upd, hk]
        · simp [handlesAfter, LockWorld.close, LockWorld.upd, hk, Ne.symm hk]
      | mkdir =>
        simp only [LockWorld.step, Option.some.injEq] at hs
        subst hs
        simp [handlesAfter]

/-- C80: the repository can always be taken over: if of all nodes only the one that was just made is left, it can be started just if the
directory was there or was made. -/
theorem C80_again (dir : Bool) (es : List LockEv) (w : LockWorld) (n : Nat) (h : (LockWorld.init dir).run (es ++ [.make n]) = some w)
    (ho : ∀ k, k ≠ n → handlesAfter k 0 es = 0) :
    (w.initRepo n true).1 = if dir = true ∨ LockEv.mkdir ∈ es then .ok else .noLockFile := by
  have hi := lockInv_run _ _ w (lockInv_init dir) h
  have hh := fun k => (handles_run _ _ w h k).1
  have hd := (handles_run _ _ w h n).2
  have hap : ∀ (es : List LockEv) (k j : Nat), handlesAfter k j (es ++ [.make n]) = if k = n then 1 else handlesAfter k j es := by
    intro es
    induction es with
    | nil => intro k j; by_cases hk : k = n <;> simp [handlesAfter, hk, Ne.symm]
    | cons e es ih => intro k j; cases e <;> simp only [List.cons_append, handlesAfter, ih]
  have hnone : w.owner = none := by
    cases hw : w.owner with
    | none => rfl
    | some k =>
      exfalso
      obtain ⟨hf, hk⟩ := (hi.own k).1 hw
      have h1 := hh k
      rw [hap] at h1
      by_cases hkn : k = n
      · subst hkn
        -- the node was just made, so it has no file
        have hfile : (w.node k).file = false := by
          have hsp : ∀ (es : List LockEv) (v w : LockWorld), v.run (es ++ [.make k]) = some w → (w.node k).file = false := by
            intro es
            induction es with
            | nil =>
              intro v w hr
              simp only [List.nil_append, LockWorld.run, LockWorld.step] at hr
              split_ifs at hr
              · simp only [Option.bind_some, Option.some.injEq] at hr; subst hr; simp [LockWorld.upd]
              · cases hr
            | cons e es ih =>
              intro v w hr
              simp only [List.cons_append, LockWorld.run] at hr
              cases hs : v.step e with
              | none => rw [hs] at hr; cases hr
              | some v1 => rw [hs] at hr; exact ih v1 w hr
          exact hsp es _ w h
        rw [hfile] at hf; cases hf
      · rw [if_neg hkn] at h1
        exact hk (h1.trans (ho k hkn))
  have hdir : w.dir = true ↔ dir = true ∨ LockEv.mkdir ∈ es := by
    rw [hd]; simp [LockWorld.init]
  by_cases hx : w.dir = true
  · rw [if_pos (hdir.1 hx)]
    simp [LockWorld.initRepo, LockWorld.tryExclusive, hx, hnone]
  · rw [if_neg (fun hc => hx (hdir.2 hc))]
    simp [LockWorld.initRepo, LockWorld.tryExclusive, hx]

/-- The first node is shared and both handles are dropped. -/
example : ∃ w, (LockWorld.init false).run ([.mkdir, .make 1, .start 1 true, .share 1, .drop 1, .drop 1] ++ [.make 2]) = some w ∧
    handlesAfter 1 0 [.mkdir, .make 1, .start 1 true, .share 1, .drop 1, .drop 1] = 0 ∧ (w.initRepo 2 true).1 = .ok :=
  ⟨_, rfl, rfl, by decide +kernel⟩

/-- No node loses its last handle while it has blocking tasks. -/
def LockTidy (w : LockWorld) : List LockEv → Prop
  | [] => True
  | e :: es => (∀ n, e = .drop n → (w.node n).handles = 1 → (w.node n).jobs = 0) ∧ ∀ w', w.step e = some w' → LockTidy w' es

theorem jobs_upd {w : LockWorld} (h : ∀ k, WorksOn w k → LockUses w k) (n : Nat) (x : LockNode)
    (hx : x.jobs ≠ 0 → x.ready = true ∧ x.handles ≠ 0) : ∀ k, WorksOn (w.upd n x) k → LockUses (w.upd n x) k := by
  intro k hk
  by_cases hkn : k = n
  · subst hkn; simp only [WorksOn, LockUses, LockWorld.upd, if_true] at hk ⊢; exact hx hk
  · have := h k
    simp only [WorksOn, LockUses, LockWorld.upd, if_neg hkn] at hk this ⊢
    exact this hk

theorem jobs_step (w w' : LockWorld) (e : LockEv) (h : ∀ k, WorksOn w k → LockUses w k)
    (ht : ∀ n, e = .drop n → (w.node n).handles = 1 → (w.node n).jobs = 0) (hs : w.step e = some w') : ∀ k, WorksOn w' k → LockUses w' k := by
  have hclose : ∀ n, ∀ k, WorksOn (w.close n 0) k → LockUses (w.close n 0) k := by
    intro n
    have := jobs_upd h n ⟨0, false, false, 0⟩ (fun hh => absurd rfl hh)
    simpa [WorksOn, LockUses, LockWorld.close] using this
  cases e with
  | make n =>
    simp only [LockWorld.step] at hs
    split_ifs at hs with hh
    cases hs
    exact jobs_upd h n _ (by simp)
  | start n ok =>
    simp only [LockWorld.step] at hs
    split_ifs at hs with hh
    cases hs
    simp only [LockWorld.initRepo, LockWorld.tryExclusive]
    by_cases hd : w.dir = true
    · simp only [hd, not_true, if_false]
      cases ho : w.owner with
      | some k => exact h
      | none =>
        have h1 := jobs_upd h n { w.node n with file := true } (fun hj => h n hj)
        cases ok with
        | false => simpa [WorksOn, LockUses] using h1
        | true =>
          simp only [if_true]
          refine jobs_upd (w := ({ w.upd n { w.node n with file := true } with owner := some n } : LockWorld)) h1 n _ (fun _ => ⟨rfl, ?_⟩)
          simpa [LockWorld.upd] using hh
    · simpa [hd] using h
  | share n =>
    simp only [LockWorld.step] at hs
    split_ifs at hs with hh
    cases hs
    exact jobs_upd h n _ (fun hj => ⟨(h n hj).1, by simp⟩)
  | drop n =>
    simp only [LockWorld.step] at hs
    split at hs
    · cases hs
    · rename_i hh
      cases hs
      rw [ht n rfl hh]
      exact hclose n
    · rename_i j hj
      cases hs
      exact jobs_upd h n _ (fun hj => ⟨(h n hj).1, by simp⟩)
  | job n =>
    simp only [LockWorld.step] at hs
    split_ifs at hs with hh
    cases hs
    exact jobs_upd h n _ (fun _ => ⟨hh.2, hh.1⟩)
  | jobDone n =>
    simp only [LockWorld.step] at hs
    split at hs
    · cases hs
    · rename_i j hj
      cases hs
      exact jobs_upd h n _ (fun _ => h n (by simp [WorksOn, hj]))
  | kill n =>
    simp only [LockWorld.step, Option.some.injEq] at hs
    subst hs
    exact hclose n
  | mkdir =>
    simp only [LockWorld.step, Option.some.injEq] at hs
    subst hs
    exact h

theorem jobs_run (es : List LockEv) : ∀ w w' : LockWorld, (∀ k, WorksOn w k → LockUses w k) → LockTidy w es → w.run es = some w' →
    ∀ k, WorksOn w' k → LockUses w' k := by
  induction es with
  | nil => intro w w' h _ hr; simp only [LockWorld.run, Option.some.injEq] at hr; exact hr ▸ h
  | cons e es ih =>
    intro w w' h ht hr
    simp only [LockWorld.run] at hr
    cases hs : w.step e with
    | none => rw [hs] at hr; cases hr
    | some w1 => rw [hs] at hr; exact ih w1 w' (jobs_step w w1 e h ht.1 hs) (ht.2 w1 hs) hr

/-- C80, in part: files are read and written only by the one node that uses the repository, as long as no node is dropped while one of its
blocking tasks runs. Missing: without that the tasks go on after the lock was released (`C80_outlives`). -/
theorem C80_partial (dir : Bool) (es : List LockEv) (w : LockWorld) (h : (LockWorld.init dir).run es = some w)
    (ht : LockTidy (LockWorld.init dir) es) (a b : Nat) (ha : WorksOn w a) (hb : LockUses w b ∨ WorksOn w b) : a = b := by
  have hj := jobs_run es _ w (by simp [LockWorld.init, WorksOn]) ht h
  rcases hb with hb | hb
  · exact C80_one dir es w h a b (hj a ha) hb
  · exact C80_one dir es w h a b (hj a ha) (hj b hb)

example : ∃ w, (LockWorld.init true).run [.make 1, .start 1 true, .job 1] = some w ∧ LockTidy (LockWorld.init true) [.make 1, .start 1 true, .job 1] ∧
    WorksOn w 1 ∧ LockUses w 1 := by
  refine ⟨_, rfl, ?_, by unfold WorksOn; decide +kernel, ⟨by decide +kernel, by decide +kernel⟩⟩
  exact ⟨fun n h => (by cases h), fun w' _ => ⟨fun n h => (by cases h), fun w'' _ => ⟨fun n h => (by cases h), fun _ _ => trivial⟩⟩⟩

/-- The whole statement: only the node that uses the repository reads and writes files. -/
def OnlyUserWorks : Prop :=
  ∀ (es : List LockEv) (w : LockWorld), (LockWorld.init true).run es = some w → ∀ a b, WorksOn w a → LockUses w b → a = b

/-- The code does not meet it: a request is cancelled while its blocking task runs, the node is dropped, and another one starts. -/
theorem C80_outlives : ¬ OnlyUserWorks := by
  intro h
  have := h [.make 1, .start 1 true, .job 1, .drop 1, .make 2, .start 2 true] _ rfl 1 2 (by unfold WorksOn; decide +kernel)
    ⟨by decide +kernel, by decide +kernel⟩
  cases this

/-- The lock file is in the directory of the repository, and it is opened before anything makes that directory: a node cannot be started
on a path that does not exist, though the stores would make it. -/
theorem C80_no_directory (es : List LockEv) (w : LockWorld) (h : (LockWorld.init false).run es = some w) (hm : LockEv.mkdir ∉ es) (n : Nat)
    (ok : Bool) : (w.initRepo n ok).1 = .noLockFile ∧ ¬ LockUses w n := by
  have key : ∀ (es : List LockEv) (v w : LockWorld), v.dir = false → (∀ n, ¬ LockUses v n) → LockEv.mkdir ∉ es → v.run es = some w →
      w.dir = false ∧ ∀ n, ¬ LockUses w n := by
    intro es
    induction es with
    | nil => intro v w hv hu _ hr; simp only [LockWorld.run, Option.some.injEq] at hr; subst hr; exact ⟨hv, hu⟩
    | cons e es ih =>
      intro v w hv hu hme hr
      simp only [LockWorld.run] at hr
      cases hs : v.step e with
      | none => rw [hs] at hr; cases hr
      | some v1 =>
        rw [hs] at hr
        have hv1 : v1.dir = false ∧ ∀ n, ¬ LockUses v1 n := by
          have hupd : ∀ n x, (x.ready = true ∧ x.handles ≠ 0 → LockUses v n) → (v.upd n x).dir = false ∧ ∀ k, ¬ LockUses (v.upd n x) k := by
            intro n x hx
            refine ⟨hv, fun k hk => ?_⟩
            by_cases hkn : k = n
            · subst hkn
              simp only [LockUses, LockWorld.upd, if_true] at hk
              exact hu k (hx hk)
            · have := hu k
              simp only [LockUses, LockWorld.upd, if_neg hkn] at hk this
              exact this hk
          have hcl : ∀ n j, (v.close n j).dir = false ∧ ∀ k, ¬ LockUses (v.close n j) k := by
            intro n j
            have := hupd n ⟨0, false, false, j⟩ (by simp)
            simpa [LockWorld.close, LockUses, LockWorld.upd] using this
          cases e with
          | mkdir => exact absurd (List.mem_cons_self) hme
          | make n =>
            simp only [LockWorld.step] at hs
            split_ifs at hs; cases hs
            exact hupd n _ (by simp)
          | start n ok =>
            simp only [LockWorld.step] at hs
            split_ifs at hs; cases hs
            simp only [LockWorld.initRepo, LockWorld.tryExclusive, hv]
            exact ⟨hv, hu⟩
          | share n =>
            simp only [LockWorld.step] at hs
            split_ifs at hs with hh; cases hs
            exact hupd n _ (fun hx => ⟨hx.1, hh⟩)
          | drop n =>
            simp only [LockWorld.step] at hs
            split at hs
            · cases hs
            · cases hs; exact hcl n _
            · rename_i j hj
              cases hs
              exact hupd n _ (fun hx => ⟨hx.1, by omega⟩)
          | job n =>
            simp only [LockWorld.step] at hs
            split_ifs at hs with hh; cases hs
            exact hupd n _ (fun hx => hx)
          | jobDone n =>
            simp only [LockWorld.step] at hs
            split at hs
            · cases hs
            · cases hs; exact hupd n _ (fun hx => hx)
          | kill n =>
            simp only [LockWorld.step, Option.some.injEq] at hs
            subst hs; exact hcl n 0
        exact ih v1 w hv1.1 hv1.2 (fun hh => hme (List.mem_cons_of_mem _ hh)) hr
  obtain ⟨h1, h2⟩ := key es _ w rfl (by simp [LockWorld.init, LockUses]) hm h
  exact ⟨by simp [LockWorld.initRepo, LockWorld.tryExclusive, h1], h2 n⟩

end Verif.Props
