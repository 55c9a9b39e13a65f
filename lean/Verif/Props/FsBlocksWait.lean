import Verif.Props.FsBlocksProgress

/-! # C26: gets and removals wait for a put in progress; a dropped call never answers -/

namespace Verif.Props

open Verif Verif.Repo.FsBlocks

/-- A step of another call leaves call `i` alone. -/
theorem act_other {data : Bytes} {s s' : State} {i : Nat} {t : Task} (ht : s.tasks[i]? = some t) {a : Act}
    (hr : s.act data a = some s') (hc : a ≠ .crash) (h1 : ∀ k f, a ≠ .run i k f) (h2 : a ≠ .cancel i) :
    s'.tasks[i]? = some t := by
  have hlt : i < s.tasks.length := (List.getElem?_eq_some_iff.mp ht).1
  have spawn : ∀ t', s'.tasks = s.tasks ++ [t'] → s'.tasks[i]? = some t := by
    intro t' e; rw [e, List.getElem?_append_left hlt, ht]
  have set : ∀ k, k ≠ i → (∃ t0 t', s.tasks[k]? = some t0 ∧ (∀ a, t0.pc ≠ .ended a) ∧
      s'.tasks = s.tasks.set k t') → s'.tasks[i]? = some t := by
    rintro k hk ⟨_, t', _, _, e⟩; rw [e, List.getElem?_set_ne hk, ht]
  cases a with
  | spawnPut => cases hr; exact spawn _ rfl
  | spawnGet => cases hr; exact spawn _ rfl
  | spawnContains => cases hr; exact spawn _ rfl
  | spawnRemove => cases hr; exact spawn _ rfl
  | run k n fail => exact set k (fun e => h1 n fail (by rw [e])) (run_shape hr)
  | cancel k => exact set k (fun e => h2 (by rw [e])) (cancel_shape hr)
  | crash => exact absurd rfl hc

/-- The call waits on channel `ch`, over which `n` messages were sent when it started to, or its future
was dropped. -/
def WaitsOn (ch n : Nat) (t : Task) : Prop :=
  ((t.pc = .gWait ∨ t.pc = .rWait) ∧ t.ch = ch ∧ t.rx = n) ∨ t.pc = .gone

theorem WaitsOn.act {data : Bytes} {s s' : State} {i ch n : Nat} {t : Task} (ht : s.tasks[i]? = some t)
    (hw : WaitsOn ch n t) {a : Act} (hr : s.act data a = some s') (hc : a ≠ .crash)
    (hq : (s.msgs ch).length ≤ n ∧ s.open ch = true) :
    ∃ t', s'.tasks[i]? = some t' ∧ WaitsOn ch n t' := by
  have hlt : i < s.tasks.length := (List.getElem?_eq_some_iff.mp ht).1
  by_cases h1 : ∃ k f, a = .run i k f
  · obtain ⟨k, f, rfl⟩ := h1
    exfalso
    have hp : s.recv ch n = .pending := by
      simp only [State.recv, List.drop_of_length_le hq.1, hq.2, if_true]
    simp only [State.act, State.run, ht] at hr
    rcases hw with ⟨h | h, rfl, rfl⟩ | h
    · simp [h, hp] at hr
    · simp [h, hp] at hr
    · simp [h] at hr
  · by_cases h2 : a = .cancel i
    · subst h2
      simp only [State.act, State.cancel, ht] at hr
      split at hr
      · cases hr
      · rcases hw with ⟨h | h, rfl, rfl⟩ | h
        · simp only [h] at hr; cases hr
          exact ⟨_, by simp only [State.setTask]; rw [List.getElem?_set_self hlt], Or.inr rfl⟩
        · simp only [h] at hr; cases hr
          exact ⟨_, by simp only [State.setTask]; rw [List.getElem?_set_self hlt], Or.inr rfl⟩
        · simp [h] at hr
    · exact ⟨t, act_other ht hr hc (fun k f e => h1 ⟨k, f, e⟩) h2, hw⟩

/-- **C26**: a get or a removal that finds a put of the block in progress does not read, remove or answer
anything before some put has reported its outcome over the channel or all those writing have let go of
it. Removals, failing system calls and dropped futures may occur. -/
theorem C26_waits (data : Bytes) (s s1 s2 : State) (i k : Nat) (f : Bool) (ch : Nat) (t : Task)
    (ht : s.tasks[i]? = some t) (hpc : t.pc = .gStart ∨ t.pc = .rStart) (he : s.entry = some ch)
    (h1 : s.run data i k f = some s1) (as : List Act) (hc : ∀ a ∈ as, a ≠ .crash)
    (h2 : s1.acts data as = some s2) (a : Answer) (ha : answerOf s2 i = some a) :
    ∃ as1 as2 sm, as = as1 ++ as2 ∧ s1.acts data as1 = some sm ∧
      ((s.msgs ch).length < (sm.msgs ch).length ∨ sm.open ch = false) := by
  have hlt : i < s.tasks.length := (List.getElem?_eq_some_iff.mp ht).1
  have h0 : ∃ t', s1.tasks[i]? = some t' ∧ WaitsOn ch (s.msgs ch).length t' := by
    simp only [State.run, ht] at h1
    rcases hpc with h | h
    · simp only [h, he] at h1; cases h1
      exact ⟨_, by simp only [State.setTask]; rw [List.getElem?_set_self hlt], Or.inl ⟨Or.inl rfl, rfl, rfl⟩⟩
    · simp only [h, he] at h1; cases h1
      exact ⟨_, by simp only [State.setTask]; rw [List.getElem?_set_self hlt], Or.inl ⟨Or.inr rfl, rfl, rfl⟩⟩
  clear h1 ht
  induction as generalizing s1 with
  | nil =>
    exfalso
    obtain ⟨t', e, hw⟩ := h0
    cases h2
    obtain ⟨t2, e2, hp⟩ := answerOf_some ha
    rw [e] at e2; cases e2
    rcases hw with ⟨h | h, _⟩ | h <;> (rw [h] at hp; cases hp)
  | cons x as ih =>
    by_cases hq : (s1.msgs ch).length ≤ (s.msgs ch).length ∧ s1.open ch = true
    · simp only [State.acts] at h2
      split at h2
      · cases h2
      · rename_i s3 e
        obtain ⟨t', e', hw⟩ := h0
        obtain ⟨as1, as2, sm, e1, e2, e3⟩ := ih s3 (fun a ha => hc a (by simp [ha])) h2
          (WaitsOn.act e' hw e (hc x (by simp)) hq)
        exact ⟨x :: as1, as2, sm, by rw [e1]; rfl, by simp only [State.acts, e]; exact e2, e3⟩
    · refine ⟨[], x :: as, s1, rfl, rfl, ?_⟩
      by_cases hl : (s1.msgs ch).length ≤ (s.msgs ch).length
      · right
        cases ho : s1.open ch with
        | false => rfl
        | true => exact absurd ⟨hl, ho⟩ hq
      · left; omega

/-- A removal starts while a put writes; it answers after the put has. -/
example : ∃ s s1 s2, State.init.acts [7] [.spawnPut, .spawnRemove, go 0, go 0] = some s ∧
    s.entry = some 0 ∧ s.tasks[1]? = some { pc := .rStart } ∧ s.run [7] 1 0 false = some s1 ∧
    s1.acts [7] [go 0, go 0, go 0, go 0, go 0, go 0, go 1, go 1] = some s2 ∧ answerOf s2 1 = some .removed :=
  ⟨_, _, _, rfl, rfl, rfl, rfl, rfl, by decide +kernel⟩

/-- The call was dropped; only the blocking part of a put may still be running. -/
def Dropped (t : Task) : Prop :=
  t.pc = .gone ∨ (t.alive = false ∧ (writing t.pc = true ∨ (∃ r, t.pc = .pDone r) ∨ t.pc = .pCreate ∨ t.pc = .pUndo))

theorem Dropped.act {data : Bytes} {s s' : State} {i : Nat} {t : Task} (ht : s.tasks[i]? = some t)
    (hw : Dropped t) {a : Act} (hr : s.act data a = some s') (hc : a ≠ .crash) :
    ∃ t', s'.tasks[i]? = some t' ∧ Dropped t' := by
  have hlt : i < s.tasks.length := (List.getElem?_eq_some_iff.mp ht).1
  have set : ∀ (s0 : State) (t' : Task), s' = s0.setTask i t' → s0.tasks = s.tasks → Dropped t' →
      ∃ t', s'.tasks[i]? = some t' ∧ Dropped t' := by
    intro s0 t' e' e hd
    subst e'
    exact ⟨t', by simp only [State.setTask, e]; rw [List.getElem?_set_self hlt], hd⟩
  by_cases h1 : ∃ k f, a = .run i k f
  · obtain ⟨k, f, rfl⟩ := h1
    simp only [State.act, State.run, ht] at hr
    rcases hw with h | ⟨hal, hw⟩
    · simp [h] at hr
    · cases hpc : t.pc with
      | pCreate =>
        simp only [hpc] at hr
        split at hr
        · cases hr; exact set _ _ rfl rfl (Or.inr ⟨hal, Or.inr (Or.inl ⟨_, rfl⟩)⟩)
        · split at hr
          · cases hr; exact set _ _ rfl rfl (Or.inr ⟨hal, Or.inr (Or.inl ⟨_, rfl⟩)⟩)
          · cases hr; exact set _ _ rfl rfl (Or.inr ⟨hal, Or.inl rfl⟩)
      | pWon =>
        simp only [hpc] at hr
        split at hr
        · cases hr; exact set _ _ rfl rfl (Or.inr ⟨hal, Or.inr (Or.inr (Or.inr rfl))⟩)
        · split at hr
          · cases hr; exact set _ _ rfl rfl (Or.inr ⟨hal, Or.inl rfl⟩)
          · cases hr; exact set _ _ rfl rfl (Or.inr ⟨hal, Or.inl rfl⟩)
      | pTemp j pos =>
        simp only [hpc] at hr
        split at hr
        · cases hr; exact set _ _ rfl rfl (Or.inr ⟨hal, Or.inr (Or.inr (Or.inr rfl))⟩)
        · split at hr
          · cases hr; exact set _ _ rfl rfl (Or.inr ⟨hal, Or.inl rfl⟩)
          · cases hr; exact set _ _ rfl rfl (Or.inr ⟨hal, Or.inl rfl⟩)
      | pRename j =>
        simp only [hpc] at hr
        split at hr
        · cases hr; exact set _ _ rfl rfl (Or.inr ⟨hal, Or.inr (Or.inr (Or.inr rfl))⟩)
        · split at hr
          · cases hr; exact set _ _ rfl rfl (Or.inr ⟨hal, Or.inr (Or.inl ⟨_, rfl⟩)⟩)
          · cases hr; exact set _ _ rfl rfl (Or.inr ⟨hal, Or.inr (Or.inr (Or.inr rfl))⟩)
      | pUndo =>
        simp only [hpc] at hr
        cases hr; exact set _ _ rfl rfl (Or.inr ⟨hal, Or.inr (Or.inl ⟨_, rfl⟩)⟩)
      | pDone r =>
        simp only [hpc, hal] at hr
        cases hr; exact set _ _ rfl rfl (Or.inl rfl)
      | _ => exfalso; rw [hpc] at hw; simp [writing] at hw
  · by_cases h2 : a = .cancel i
    · subst h2
      exfalso
      simp only [State.act, State.cancel, ht] at hr
      split at hr
      · cases hr
      · rename_i hn
        rcases hw with h | ⟨hal, _⟩
        · simp [h] at hr
        · exact hn (by rw [hal]; rfl)
    · exact ⟨t, act_other ht hr hc (fun k f e => h1 ⟨k, f, e⟩) h2, hw⟩

/-- **C26**: a call whose future was dropped never answers. -/
theorem C26_dropped (data : Bytes) (s s1 s2 : State) (i : Nat) (h1 : s.cancel i = some s1) (as : List Act)
    (hc : ∀ a ∈ as, a ≠ .crash) (h2 : s1.acts data as = some s2) : answerOf s2 i = none := by
  have h0 : ∃ t', s1.tasks[i]? = some t' ∧ Dropped t' := by
    unfold State.cancel at h1
    cases ht : s.tasks[i]? with
    | none => simp [ht] at h1
    | some t =>
      have hlt : i < s.tasks.length := (List.getElem?_eq_some_iff.mp ht).1
      have set : ∀ (s0 : State) (t' : Task), s0.tasks = s.tasks → Dropped t' → s1 = s0.setTask i t' →
          ∃ t', s1.tasks[i]? = some t' ∧ Dropped t' := by
        intro s0 t' e hd e'
        subst e'
        exact ⟨t', by simp only [State.setTask, e]; rw [List.getElem?_set_self hlt], hd⟩
      simp only [ht] at h1
      split at h1
      · cases h1
      · cases hpc : t.pc <;> simp only [hpc] at h1
        all_goals first
          | (cases h1; done)
          | (cases h1; exact set _ _ rfl (Or.inl rfl) rfl)
          | (cases h1; exact set { s with entry := none } _ rfl (Or.inr ⟨rfl, by simp [writing]⟩) rfl)
  clear h1
  induction as generalizing s1 with
  | nil =>
    cases h2
    obtain ⟨t, e, hw⟩ := h0
    cases hx : answerOf s2 i with
    | none => rfl
    | some a =>
      exfalso
      obtain ⟨t2, e2, hp⟩ := answerOf_some hx
      rw [e] at e2; cases e2
      rcases hw with h | ⟨_, h | ⟨r, h⟩ | h | h⟩
      · rw [h] at hp; cases hp
      · rw [hp] at h; simp [writing] at h
      · rw [h] at hp; cases hp
      · rw [h] at hp; cases hp
      · rw [h] at hp; cases hp
  | cons x as ih =>
    simp only [State.acts] at h2
    split at h2
    · cases h2
    · rename_i s3 e
      obtain ⟨t, e', hw⟩ := h0
      exact ih s3 (fun a ha => hc a (by simp [ha])) h2 (Dropped.act e' hw e (hc x (by simp)))

/-- A put and a get are dropped; the put still completes the file. -/
example : ∃ s s1 s2, State.init.acts [7] [.spawnPut, go 0, go 0, go 0] = some s ∧
    s.cancel 0 = some s1 ∧ s1.acts [7] [go 0, go 0, go 0, go 0, .spawnGet, go 1, go 1, go 1] = some s2 ∧
    answerOf s2 0 = none ∧ answerOf s2 1 = some (.got (some [7])) :=
  ⟨_, _, _, rfl, rfl, rfl, by decide +kernel, by decide +kernel⟩

end Verif.Props
