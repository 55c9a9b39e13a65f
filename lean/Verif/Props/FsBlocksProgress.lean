import Verif.Props.FsBlocks

/-!
# The filesystem block store: no deadlock, crashes (C26, C27)
-/

namespace Verif.Props

open Verif Verif.Repo.FsBlocks

/-- Whoever put the entry into `writes` still holds a sender, and a dropped future had started. -/
structure Held (s : State) : Prop where
  entry : ∀ ch, s.entry = some ch → ∃ t ∈ s.tasks, t.holdsTx = true ∧ t.ch = ch ∧ ∀ r, t.pc ≠ .pSend r
  dead : ∀ t ∈ s.tasks, t.pc = .pStart → t.alive = true

/-- The entry stays and so does the sender of call `k`, if it had one. -/
theorem Held.keep {s s' s1 : State} (h : Held s) {k : Nat} {t t' : Task} (hk : s.tasks[k]? = some t)
    (e : some (s1.setTask k t') = some s') (e1 : s1.tasks = s.tasks) (e2 : s1.entry = s.entry)
    (e3 : t.holdsTx = true → (∀ r, t.pc ≠ .pSend r) →
      t'.holdsTx = true ∧ t'.ch = t.ch ∧ ∀ r, t'.pc ≠ .pSend r) (e4 : t'.pc ≠ .pStart) : Held s' := by
  have hlt : k < s.tasks.length := (List.getElem?_eq_some_iff.mp hk).1
  cases e
  refine ⟨fun ch hch => ?_, fun x hx hp => ?_⟩
  · simp only [State.setTask, e2] at hch
    simp only [State.setTask, e1]
    obtain ⟨x, hx, h1, h2, h3⟩ := h.entry ch hch
    obtain ⟨a, ha⟩ := List.getElem?_of_mem hx
    by_cases hka : k = a
    · subst hka
      rw [hk] at ha
      cases ha
      obtain ⟨g1, g2, g3⟩ := e3 h1 h3
      exact ⟨t', List.mem_set hlt _, g1, by rw [g2, h2], g3⟩
    · exact ⟨x, List.mem_of_getElem? (by rw [List.getElem?_set_ne hka]; exact ha), h1, h2, h3⟩
  · simp only [State.setTask, e1] at hx
    rcases List.mem_or_eq_of_mem_set hx with hx | rfl
    · exact h.dead x hx hp
    · exact absurd hp e4

/-- The entry is removed. -/
theorem Held.drop {s s' s1 : State} (h : Held s) {k : Nat} {t' : Task}
    (e : some (s1.setTask k t') = some s') (e1 : s1.tasks = s.tasks) (e2 : s1.entry = none)
    (e4 : t'.pc ≠ .pStart) : Held s' := by
  cases e
  refine ⟨fun ch hch => ?_, fun x hx hp => ?_⟩
  · simp [State.setTask, e2] at hch
  · simp only [State.setTask, e1] at hx
    rcases List.mem_or_eq_of_mem_set hx with hx | rfl
    · exact h.dead x hx hp
    · exact absurd hp e4

theorem Held.run {data : Bytes} {s s' : State} (h : Held s) {k n : Nat} {fail : Bool}
    (hr : s.run data k n fail = some s') : Held s' := by
  unfold State.run at hr
  cases hk : s.tasks[k]? with
  | none => simp [hk] at hr
  | some t =>
    simp only [hk] at hr
    have hlt : k < s.tasks.length := (List.getElem?_eq_some_iff.mp hk).1
    cases hpc : t.pc with
    | pStart =>
      simp only [hpc] at hr
      split at hr
      · exact h.keep hk hr rfl rfl (by simp [Task.holdsTx, hpc]) (by simp)
      · have hal := h.dead t (List.mem_of_getElem? hk) hpc
        cases hr
        refine ⟨fun ch hch => ?_, fun x hx hp => ?_⟩
        · simp only [State.setTask, Option.some.injEq] at hch
          refine ⟨{ t with pc := .pCreate, ch := s.nextChan, rx := 0 }, List.mem_set hlt _, ?_, hch, by simp⟩
          simp [Task.holdsTx, hal]
        · simp only [State.setTask] at hx
          rcases List.mem_or_eq_of_mem_set hx with hx | rfl
          · exact h.dead x hx hp
          · simp at hp
    | pDone r =>
      simp only [hpc] at hr
      split at hr
      · exact h.drop hr rfl rfl (by simp)
      · rename_i hal
        exact h.keep hk hr rfl rfl (by simp [Task.holdsTx, hal]) (by simp)
    | pSend r =>
      simp only [hpc] at hr
      cases r <;> exact h.keep hk hr rfl rfl (fun _ x => absurd hpc (x _)) (by simp)
    | ended a => simp [hpc] at hr
    | gone => simp [hpc] at hr
    | _ =>
      simp only [hpc] at hr
      repeat' split at hr
      all_goals first
        | (cases hr; done)
        | exact h.keep hk hr rfl rfl (by simp [Task.holdsTx, hpc]) (by simp)

theorem Held.cancel {s s' : State} (h : Held s) {k : Nat} (hr : s.cancel k = some s') : Held s' := by
  unfold State.cancel at hr
  cases hk : s.tasks[k]? with
  | none => simp [hk] at hr
  | some t =>
    simp only [hk] at hr
    split at hr
    · cases hr
    · cases hpc : t.pc <;> simp only [hpc] at hr
      all_goals first
        | (cases hr; done)
        | exact h.drop hr rfl rfl (by simp)
        | exact h.keep hk hr rfl rfl (by simp [Task.holdsTx, hpc]) (by simp)

theorem Held.acts {data : Bytes} {s s' : State} (h : Held s) {as : List Act}
    (hr : s.acts data as = some s') : Held s' := by
  induction as generalizing s with
  | nil => cases hr; exact h
  | cons a as ih =>
    simp only [State.acts] at hr
    split at hr
    · cases hr
    · rename_i s1 e
      refine ih ?_ hr
      have spawn : ∀ t : Task, t.alive = true → Held { s with tasks := s.tasks ++ [t] } := by
        intro t ht
        refine ⟨fun ch hch => ?_, fun x hx hp => ?_⟩
        · obtain ⟨x, hx, hw⟩ := h.entry ch hch
          exact ⟨x, by simp [hx], hw⟩
        · rcases List.mem_append.mp hx with hx | hx
          · exact h.dead x hx hp
          · simp only [List.mem_singleton] at hx; subst hx; exact ht
      cases a with
      | spawnPut => cases e; exact spawn _ rfl
      | spawnGet => cases e; exact spawn _ rfl
      | spawnContains => cases e; exact spawn _ rfl
      | spawnRemove => cases e; exact spawn _ rfl
      | run k n fail => exact h.run e
      | cancel k => exact h.cancel e
      | crash => cases e; exact ⟨by simp, by simp⟩

theorem Held.init : Held State.init := ⟨by simp [State.init], by simp [State.init]⟩

/-- A call holding a sender can always go on. -/
theorem holder_runs (data : Bytes) {s : State} {t : Task} (ht : t ∈ s.tasks) (hx : t.holdsTx = true) :
    ∃ i, (s.run data i 1 false).isSome = true := by
  obtain ⟨i, hi⟩ := List.getElem?_of_mem ht
  refine ⟨i, ?_⟩
  unfold State.run
  simp only [hi]
  cases hpc : t.pc with
  | pSend r => cases r <;> rfl
  | _ => first
    | (simp [Task.holdsTx, hpc] at hx; done)
    | (simp only; repeat' split
       all_goals first | rfl | simp_all)

theorem waiting_not_stuck {data : Bytes} {s : State} (h : Held s) {ch rx : Nat}
    (hp : s.recv ch rx = .pending) : ∃ i, (s.run data i 1 false).isSome = true := by
  unfold State.recv at hp
  split at hp
  · split at hp
    · rename_i ho
      simp only [State.open, Bool.or_eq_true, beq_iff_eq, List.any_eq_true, Bool.and_eq_true] at ho
      rcases ho with ho | ⟨x, hx, h1, _⟩
      · obtain ⟨x, hx, h1, _⟩ := h.entry ch ho
        exact holder_runs data hx h1
      · exact holder_runs data hx h1
    · cases hp
  · cases hp
  · cases hp

/-- **C26**: the store never deadlocks: whatever happened before, including removals, disk failures,
dropped futures and crashes, while some call has not ended some call can take a step. -/
theorem C26_no_deadlock (data : Bytes) (as : List Act) (s : State)
    (hs : State.init.acts data as = some s) (i : Nat) (t : Task) (hi : s.tasks[i]? = some t)
    (hne : ∀ a, t.pc ≠ .ended a) (hng : t.pc ≠ .gone) :
    ∃ j, (s.run data j 1 false).isSome = true := by
  have h := Held.init.acts hs
  by_cases hp : s.recv t.ch t.rx = .pending
  · exact waiting_not_stuck h hp
  · refine ⟨i, ?_⟩
    unfold State.run
    simp only [hi]
    cases hpc : t.pc with
    | ended a => exact absurd hpc (hne a)
    | gone => exact absurd hpc hng
    | pSend r => cases r <;> rfl
    | _ => simp only; repeat' split
           all_goals first | rfl | simp_all

/-- A waiting put and a waiting get: only the writer can go on, and it can. -/
example : ∃ s, State.init.acts [1] [.spawnPut, .spawnPut, .spawnGet, go 0, go 1, go 2, go 0, go 1]
      = some s ∧ (s.run [1] 2 1 false).isSome = false ∧ (s.run [1] 0 1 false).isSome = true :=
  ⟨_, rfl, rfl, rfl⟩

/-! ### Crashes -/

/-- **C27** fails: a crash between `create_new` and `rename` leaves an empty file under the name of
the block. After the restart get returns zero bytes for the cid, and a later put answers "existed"
and does not make the block readable. -/
theorem C27_crash_leaves_empty : ∃ s, State.init.acts [1, 2, 3]
      [.spawnPut, go 0, go 0, go 0, go 0, .crash,
       .spawnGet, go 0, go 0, go 0,
       .spawnPut, go 1, go 1, go 1, go 1, go 1,
       .spawnGet, go 2, go 2, go 2] = some s ∧
    answerOf s 0 = some (.got (some [])) ∧ answerOf s 1 = some .existed ∧
    answerOf s 2 = some (.got (some [])) :=
  ⟨_, rfl, by decide +kernel, by decide +kernel, by decide +kernel⟩

/-- **C27** (in part): whatever crashes happened at whatever points, and whatever puts, gets and
dropped futures came before and after, a get returns nothing, zero bytes or all the bytes of the
block, never a proper part of it. Missing: that it does not return zero bytes, and that a later put
repairs the block; both are false by `C27_crash_leaves_empty`. -/
theorem C27_get_partial (data : Bytes) (as1 as2 : List Act) (hc1 : ∀ a ∈ as1, a.calm = true)
    (hc2 : ∀ a ∈ as2, a.calm = true) (s : State)
    (hs : State.init.acts data (as1 ++ .crash :: as2) = some s) (i : Nat) (b : Bytes)
    (hb : answerOf s i = some (.got (some b))) : b = [] ∨ b = data := by
  refine (C26_never_torn_partial data _ ?_ s hs i).1 b hb
  intro a ha
  rcases List.mem_append.mp ha with h | h
  · exact hc1 a h
  · rcases List.mem_cons.mp h with rfl | h
    · rfl
    · exact hc2 a h

theorem acts_append (data : Bytes) (s : State) (as bs : List Act) :
    s.acts data (as ++ bs) = (s.acts data as).bind (fun s' => s'.acts data bs) := by
  induction as generalizing s with
  | nil => rfl
  | cons a as ih =>
    simp only [List.cons_append, State.acts]
    split
    · rfl
    · rw [ih]

theorem run_shape {data : Bytes} {s s' : State} {k n : Nat} {fail : Bool}
    (hr : s.run data k n fail = some s') :
    ∃ t t', s.tasks[k]? = some t ∧ (∀ a, t.pc ≠ .ended a) ∧ s'.tasks = s.tasks.set k t' := by
  unfold State.run at hr
  cases hk : s.tasks[k]? with
  | none => simp [hk] at hr
  | some t =>
    simp only [hk] at hr
    refine ⟨t, ?_⟩
    cases hpc : t.pc with
    | ended a => simp [hpc] at hr
    | gone => simp [hpc] at hr
    | pSend r => cases r <;> (simp only [hpc] at hr; cases hr; exact ⟨_, rfl, by simp, rfl⟩)
    | _ =>
      simp only [hpc] at hr
      repeat' split at hr
      all_goals first
        | (cases hr; done)
        | (cases hr; exact ⟨_, rfl, by simp, rfl⟩)

theorem cancel_shape {s s' : State} {k : Nat} (hr : s.cancel k = some s') :
    ∃ t t', s.tasks[k]? = some t ∧ (∀ a, t.pc ≠ .ended a) ∧ s'.tasks = s.tasks.set k t' := by
  unfold State.cancel at hr
  cases hk : s.tasks[k]? with
  | none => simp [hk] at hr
  | some t =>
    simp only [hk] at hr
    refine ⟨t, ?_⟩
    split at hr
    · cases hr
    · cases hpc : t.pc <;> simp only [hpc] at hr
      all_goals first
        | (cases hr; done)
        | (cases hr; exact ⟨_, rfl, by simp, rfl⟩)

/-- An answer once given stays until the process stops. -/
theorem answer_stays {data : Bytes} {s s' : State} {i : Nat} {a : Answer}
    (h : answerOf s i = some a) {as : List Act} (hc : ∀ x ∈ as, x ≠ .crash)
    (hr : s.acts data as = some s') : answerOf s' i = some a := by
  induction as generalizing s with
  | nil => cases hr; exact h
  | cons x as ih =>
    simp only [State.acts] at hr
    split at hr
    · cases hr
    · rename_i s1 e
      refine ih ?_ (fun y hy => hc y (by simp [hy])) hr
      obtain ⟨t, ht, hp⟩ := answerOf_some h
      have hlt : i < s.tasks.length := (List.getElem?_eq_some_iff.mp ht).1
      have set : (∃ k t0 t', s.tasks[k]? = some t0 ∧ (∀ a, t0.pc ≠ .ended a) ∧
          s1.tasks = s.tasks.set k t') → answerOf s1 i = some a := by
        rintro ⟨k, t0, t', h1, h2, h3⟩
        have hki : k ≠ i := by
          rintro rfl
          rw [ht] at h1
          cases h1
          exact h2 a hp
        simp only [answerOf, h3, List.getElem?_set_ne hki, ht, hp]
      have spawn : ∀ t', s1.tasks = s.tasks ++ [t'] → answerOf s1 i = some a := by
        intro t' h3
        simp only [answerOf, h3, List.getElem?_append_left hlt, ht, hp]
      cases x with
      | spawnPut => cases e; exact spawn _ rfl
      | spawnGet => cases e; exact spawn _ rfl
      | spawnContains => cases e; exact spawn _ rfl
      | spawnRemove => cases e; exact spawn _ rfl
      | run k n fail => exact set ⟨k, run_shape e⟩
      | cancel k => exact set ⟨k, cancel_shape e⟩
      | crash => exact absurd rfl (hc .crash (by simp))

/-- **C27**: a block is durable once a put has answered "new": after any further calls and a crash,
a get returns exactly the bytes. -/
theorem C27_new_is_durable (data : Bytes) (as1 as2 as3 : List Act) (hc1 : ∀ a ∈ as1, a.calm = true)
    (hc2 : ∀ a ∈ as2, a.calm = true ∧ a ≠ .crash) (hc3 : ∀ a ∈ as3, a.calm = true ∧ a ≠ .crash)
    (s1 s2 s3 : State) (h1 : State.init.acts data as1 = some s1) (p : Nat)
    (hp : answerOf s1 p = some .new) (h2 : s1.acts data as2 = some s2)
    (h3 : s2.acts data (.crash :: .spawnGet :: as3) = some s3) (a : Answer)
    (ha : answerOf s3 0 = some a) : a = .got (some data) := by
  have hb1 := (BInv.init data).acts hc1 h1
  have hb2 := hb1.acts (fun a ha => (hc2 a ha).1) h2
  have hp2 := full_of_new hb2 (answer_stays hp (fun a ha => (hc2 a ha).2) h2)
  obtain ⟨i1, t1, c1, w1⟩ := hp2
  have hcr : BInv data { s2 with entry := none, msgs := fun _ => [], nextChan := 0, tasks := [] } := hb2.act (a := .crash) rfl rfl
  exact get_after_full (s1 := { s2 with entry := none, msgs := fun _ => [], nextChan := 0, tasks := [] }) hcr
    ⟨i1, t1, c1, by intro x hx; simp at hx⟩ hc3 h3 ha

/-- The put answers, another put loses, the process stops, and the block is there. -/
example : ∃ s1 s2 s3, State.init.acts [1, 2, 3]
      [.spawnPut, go 0, go 0, go 0, go 0, go 0, go 0, go 0, go 0] = some s1 ∧
    answerOf s1 0 = some .new ∧
    s1.acts [1, 2, 3] [.spawnPut, go 1, go 1] = some s2 ∧
    s2.acts [1, 2, 3] (.crash :: .spawnGet :: [go 0, go 0, go 0]) = some s3 ∧
    answerOf s3 0 = some (.got (some [1, 2, 3])) :=
  ⟨_, _, _, rfl, by decide +kernel, rfl, rfl, by decide +kernel⟩

/-- **C27**, a repair that works: after a crash at any point, removing the block (a sequential
`remove`) leads to a state from which puts and gets behave: the removal ends, when further calls have
ended exactly one put answers "new", and a get after it returns exactly the bytes. -/
theorem C27_remove_repairs (data : Bytes) (as : List Act) (hc : ∀ a ∈ as, a.calm = true) (s : State)
    (hs : State.init.acts data as = some s) :
    ∃ s1, s.acts data [.crash, .spawnRemove, .run 0 1 false, .run 0 1 false] = some s1 ∧
      (answerOf s1 0 = some .removed ∨ answerOf s1 0 = some .notFound) ∧
      ∀ as2 s2, (∀ a ∈ as2, a.steady = true) → s1.acts data as2 = some s2 →
        (∀ t ∈ s2.tasks, ∃ a, t.pc = .ended a) →
        ∀ i, answerOf s2 i = some .new ∨ answerOf s2 i = some .existed →
          (∃ j, answerOf s2 j = some .new ∧ ∀ k, answerOf s2 k = some .new → k = j) ∧
          ∀ as3 s3 a, (∀ a ∈ as3, a.calm = true ∧ a ≠ .crash) →
            s2.acts data (.spawnGet :: as3) = some s3 →
            answerOf s3 s2.tasks.length = some a → a = .got (some data) := by
  have hb := (BInv.init data).acts hc hs
  -- after the removal no file is left and no call is under way
  have key : ∀ s1 : State, BInv data s1 → Owned s1 → AllAlive s1 →
      ∀ as2 s2, (∀ a ∈ as2, a.steady = true) → s1.acts data as2 = some s2 →
        (∀ t ∈ s2.tasks, ∃ a, t.pc = .ended a) →
        ∀ i, answerOf s2 i = some .new ∨ answerOf s2 i = some .existed →
          (∃ j, answerOf s2 j = some .new ∧ ∀ k, answerOf s2 k = some .new → k = j) ∧
          ∀ as3 s3 a, (∀ a ∈ as3, a.calm = true ∧ a ≠ .crash) →
            s2.acts data (.spawnGet :: as3) = some s3 →
            answerOf s3 s2.tasks.length = some a → a = .got (some data) := by
    intro s1 b1 o1 l1 as2 s2 hc2 h2 hend i hi
    obtain ⟨b2, o2, _⟩ := Owned.acts b1 o1 l1 hc2 h2
    have h1 := exactly_one_new b2 o2 hend hi
    obtain ⟨j, hj, hu⟩ := h1
    exact ⟨⟨j, hj, hu⟩, fun as3 s3 a hc3 h3 ha => get_after_new b2 hj hc3 h3 ha⟩
  have hclean : ∀ s1 : State, s1.target = none → (∀ ch, s1.msgs ch = []) →
      (∀ j, s1.temp = some j → j < s1.nextInode) →
      (∃ a, s1.tasks = [{ pc := .ended a }] ∧ (a = .removed ∨ a = .notFound)) →
      BInv data s1 ∧ Owned s1 ∧ AllAlive s1 := by
    rintro s1 ht hm htl ⟨a, htask, ha⟩
    have no : ∀ p : Pc → Bool, p (.ended a) = false → Nowhere p s1 := by
      intro p hp x hx
      rw [htask, List.mem_singleton] at hx
      subst hx
      exact hp
    have one : ∀ p : Pc → Bool, p (.ended a) = false → AtMostOne p s1 := by
      intro p hp i j ti tj hi _ pi _
      have := (no p hp).at hi
      simp [this] at pi
    refine ⟨⟨by simp [ht], htl, by simp [ht], ?_, ?_, ?_, ?_, Or.inl ⟨ht, ?_, ?_⟩, Or.inl hm⟩,
      ⟨by simp [ht], ?_⟩, ?_⟩
    · rcases ha with rfl | rfl <;> exact no _ rfl
    · intro t h; rw [htask, List.mem_singleton] at h; subst h
      rcases ha with rfl | rfl <;> trivial
    · rcases ha with rfl | rfl <;> exact one _ rfl
    · rcases ha with rfl | rfl <;> exact one _ rfl
    · rcases ha with rfl | rfl <;> exact no _ rfl
    · rcases ha with rfl | rfl <;> exact no _ rfl
    · rintro ⟨t, h, hl⟩; rw [htask, List.mem_singleton] at h; subst h
      rcases ha with rfl | rfl <;> simp [lostPut] at hl
    · intro t h; rw [htask, List.mem_singleton] at h; subst h; rfl
  cases htg : s.target with
  | none =>
    refine ⟨{ s with entry := none, msgs := fun _ => [], nextChan := 0,
                     tasks := [{ pc := .ended .notFound }] }, ?_, Or.inr rfl, ?_⟩
    · simp [State.acts, State.act, State.run, State.setTask, htg]
    · have hh := hclean (State.mk s.target s.temp s.inode s.nextInode none (fun _ => []) 0
        [{ pc := .ended .notFound }]) htg (fun _ => rfl) hb.tempLt ⟨_, rfl, Or.inr rfl⟩
      exact key _ hh.1 hh.2.1 hh.2.2
  | some j =>
    refine ⟨{ s with target := none, entry := none, msgs := fun _ => [], nextChan := 0,
                     tasks := [{ pc := .ended .removed }] }, ?_, Or.inl rfl, ?_⟩
    · simp [State.acts, State.act, State.run, State.setTask, htg]
    · have hh := hclean (State.mk none s.temp s.inode s.nextInode none (fun _ => []) 0
        [{ pc := .ended .removed }]) rfl (fun _ => rfl) hb.tempLt ⟨_, rfl, Or.inl rfl⟩
      exact key _ hh.1 hh.2.1 hh.2.2

/-- The torn block of `C27_crash_leaves_empty` is repaired. -/
example : ∃ s, State.init.acts [1, 2, 3]
      [.spawnPut, go 0, go 0, go 0, go 0, .crash, .spawnRemove, .run 0 1 false, .run 0 1 false,
       .spawnPut, go 1, go 1, go 1, go 1, go 1, go 1, go 1, go 1,
       .spawnGet, go 2, go 2, go 2] = some s ∧
    answerOf s 0 = some .removed ∧ answerOf s 1 = some .new ∧
    answerOf s 2 = some (.got (some [1, 2, 3])) :=
  ⟨_, rfl, by decide +kernel, by decide +kernel, by decide +kernel⟩

end Verif.Props
