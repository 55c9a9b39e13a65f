import Verif.Repo.FsBlocks

/-! # C26, C27: concurrent puts and crashes of the filesystem block store -/

namespace Verif.Props

open Verif Verif.Repo.FsBlocks

/-- The answer of call `i`, if it has ended. -/
def answerOf (s : State) (i : Nat) : Option Answer :=
  match s.tasks[i]? with
  | some t => match t.pc with
    | .ended a => some a
    | _ => none
  | none => none

/-- A step of call `i` without failure. -/
def go (i : Nat) : Act := .run i 100 false

/-! ## Witnesses -/

/-- **C26 fails**: one put is writing, a second one loses against it and thereby removes the entry
under which others would wait; a third put then answers "existed" at once, and a get started after
that answer returns an empty block instead of the bytes. No removal, failure or cancellation is
involved. -/
theorem C26_torn_read :
    ∃ s, State.acts [7] State.init
      [.spawnPut, .spawnPut, go 0, go 1, go 0, go 1, go 1, .spawnPut, go 2, go 2, go 2, go 2, go 2] = some s ∧
      answerOf s 2 = some .existed ∧
    ∃ s', State.acts [7] s [.spawnGet, go 3, go 3, go 3] = some s' ∧
      answerOf s' 3 = some (.got (some [])) := by
  refine ⟨_, rfl, by decide +kernel, _, rfl, by decide +kernel⟩

/-- **C26 fails**: if the file cannot be created (read-only or full disk), put answers "existed" for
a block that is not there. -/
theorem C26_io_error_existed :
    ∃ s, State.acts [7] State.init
      [.spawnPut, go 0, .run 0 0 true, go 0, go 0, go 0, .spawnGet, go 1, go 1] = some s ∧
      answerOf s 0 = some .existed ∧ answerOf s 1 = some (.got none) := by
  exact ⟨_, rfl, by decide +kernel, by decide +kernel⟩

/-- A failed write followed by a successful one over the same channel panics a waiting reader, in a
branch the code marks as unreachable. -/
theorem C26_lagged_panic :
    ∃ s, State.acts [7] State.init
      [.spawnPut, .spawnPut, .spawnGet, go 0, go 1, go 2, go 0, .run 0 0 true, go 0,
        go 1, go 1, go 1, go 1, go 1, go 1, go 1, go 0, go 0, go 2] = some s ∧
      answerOf s 0 = some .failed ∧ answerOf s 1 = some .new ∧ answerOf s 2 = some .panic := by
  exact ⟨_, rfl, by decide +kernel, by decide +kernel, by decide +kernel⟩

/-- Three puts and a removal: the first put answers "new" after the removal has answered, yet the
block is gone when everything has ended, because two writers shared one temporary file. -/
theorem C26_remove_race :
    ∃ s, State.acts [7] State.init
      [.spawnPut, .spawnPut, .spawnPut, .spawnRemove, go 0, go 1, go 0, go 0, go 0, go 1, go 1, go 3, go 3,
        go 2, go 2, go 2, go 0, go 0, go 0, go 0, go 2, go 2, go 2, go 2, go 2, go 2, go 1, go 1,
        .spawnGet, go 4, go 4] = some s ∧
      answerOf s 3 = some .removed ∧ answerOf s 0 = some .new ∧ answerOf s 2 = some .failed ∧
      answerOf s 4 = some (.got none) := by
  exact ⟨_, rfl, by decide +kernel, by decide +kernel, by decide +kernel, by decide +kernel⟩

/-! ## What holds without removals and disk failures -/

/-- Neither a removal nor a failing system call. Cancellations and crashes are allowed. -/
def _root_.Verif.Repo.FsBlocks.Act.calm : Act → Bool
  | .spawnRemove => false
  | .run _ _ fail => !fail
  | _ => true

/-- The call created the target and has not renamed yet. -/
def writing : Pc → Bool
  | .pWon | .pTemp .. | .pRename _ => true
  | _ => false

/-- The call has written the block. -/
def wrote : Pc → Bool
  | .pDone .good | .pSend .good | .ended .new => true
  | _ => false

/-- The call has written the block and not announced it. -/
def unsent : Pc → Bool
  | .pDone .good | .pSend .good => true
  | _ => false

/-- Places calm schedules do not reach. -/
def wild : Pc → Bool
  | .pUndo | .pDone .bad | .pSend .bad | .ended .failed | .ended .panic | .rStart | .rWait
  | .rRemove => true
  | _ => false

/-- What a call in this place relies on. -/
def PcOk (data : Bytes) (s : State) : Pc → Prop
  | .pTemp j pos => s.temp = some j ∧ s.inode j = data.take pos ∧ pos ≤ data.length
  | .pRename j => s.temp = some j ∧ s.inode j = data
  | .gOpen j => j < s.nextInode ∧ s.temp ≠ some j ∧ (s.inode j = [] ∨ s.inode j = data)
  | .ended (.got (some b)) => b = [] ∨ b = data
  | _ => True

/-- At most one call is in such a place. -/
def AtMostOne (p : Pc → Bool) (s : State) : Prop :=
  ∀ (a b : Nat) (ta tb : Task), s.tasks[a]? = some ta → s.tasks[b]? = some tb →
    p ta.pc = true → p tb.pc = true → a = b

/-- No call is in such a place. -/
def Nowhere (p : Pc → Bool) (s : State) : Prop := ∀ t ∈ s.tasks, p t.pc = false

structure BInv (data : Bytes) (s : State) : Prop where
  targetLt : ∀ i, s.target = some i → i < s.nextInode
  tempLt : ∀ j, s.temp = some j → j < s.nextInode
  sep : ∀ i, s.target = some i → s.temp ≠ some i
  tame : Nowhere wild s
  ok : ∀ t ∈ s.tasks, PcOk data s t.pc
  oneWriting : AtMostOne writing s
  oneWrote : AtMostOne wrote s
  phase : (s.target = none ∧ Nowhere writing s ∧ Nowhere wrote s) ∨
    (∃ i, s.target = some i ∧ s.inode i = [] ∧ Nowhere wrote s) ∨
    (∃ i, s.target = some i ∧ s.inode i = data ∧ Nowhere writing s)
  sent : (∀ ch, s.msgs ch = []) ∨
    ((∃ ch0, s.msgs ch0 = [true] ∧ ∀ ch, ch ≠ ch0 → s.msgs ch = []) ∧ Nowhere unsent s ∧
      ∃ i, s.target = some i ∧ s.inode i = data ∧ Nowhere writing s)

theorem BInv.init (data : Bytes) : BInv data State.init := by
  refine ⟨by simp [State.init], by simp [State.init], by simp [State.init], ?_, ?_, ?_, ?_, ?_, ?_⟩ <;>
    simp [State.init, Nowhere, AtMostOne]

theorem Nowhere.set {p : Pc → Bool} {s s' : State} {i : Nat} {t' : Task} (h : Nowhere p s)
    (hs : s'.tasks = s.tasks.set i t') (ht : p t'.pc = false) : Nowhere p s' := by
  intro x hx
  rw [hs] at hx
  rcases List.mem_or_eq_of_mem_set hx with hx | rfl
  · exact h x hx
  · exact ht

theorem Nowhere.at {p : Pc → Bool} {s : State} {i : Nat} {t : Task} (h : Nowhere p s)
    (hi : s.tasks[i]? = some t) : p t.pc = false := h t (List.mem_of_getElem? hi)

theorem AtMostOne.set {p : Pc → Bool} {s s' : State} {i : Nat} {t t' : Task} (h : AtMostOne p s)
    (hi : s.tasks[i]? = some t) (hs : s'.tasks = s.tasks.set i t')
    (ht : p t'.pc = true → p t.pc = true) : AtMostOne p s' := by
  have key : ∀ (a : Nat) ta, s'.tasks[a]? = some ta → p ta.pc = true →
      ∃ ta', s.tasks[a]? = some ta' ∧ p ta'.pc = true := by
    intro a ta ha hp
    rw [hs] at ha
    by_cases hai : i = a
    · subst hai
      have hlt : i < s.tasks.length := (List.getElem?_eq_some_iff.mp hi).1
      rw [List.getElem?_set_self hlt] at ha
      cases ha
      exact ⟨t, hi, ht hp⟩
    · rw [List.getElem?_set_ne hai] at ha
      exact ⟨ta, ha, hp⟩
  intro a b ta tb ha hb pa pb
  obtain ⟨ta', ha', pa'⟩ := key a ta ha pa
  obtain ⟨tb', hb', pb'⟩ := key b tb hb pb
  exact h a b ta' tb' ha' hb' pa' pb'

/-- The first to get there. -/
theorem AtMostOne.first {p : Pc → Bool} {s s' : State} {i : Nat} {t' : Task} (h : Nowhere p s)
    (hs : s'.tasks = s.tasks.set i t') : AtMostOne p s' := by
  have key : ∀ (a : Nat) ta, s'.tasks[a]? = some ta → p ta.pc = true → a = i := by
    intro a ta ha hp
    rw [hs] at ha
    by_cases hai : i = a
    · exact hai.symm
    · rw [List.getElem?_set_ne hai] at ha
      have := h.at ha
      simp [this] at hp
  intro a b ta tb ha hb pa pb
  rw [key a ta ha pa, key b tb hb pb]

/-- The only one leaves. -/
theorem AtMostOne.last {p : Pc → Bool} {s s' : State} {i : Nat} {t t' : Task} (h : AtMostOne p s)
    (hi : s.tasks[i]? = some t) (hp : p t.pc = true) (hs : s'.tasks = s.tasks.set i t')
    (ht : p t'.pc = false) : Nowhere p s' := by
  intro x hx
  rw [hs] at hx
  obtain ⟨a, ha⟩ := List.getElem?_of_mem hx
  by_cases hai : i = a
  · subst hai
    have hlt : i < s.tasks.length := (List.getElem?_eq_some_iff.mp hi).1
    rw [List.getElem?_set_self hlt] at ha
    cases ha
    exact ht
  · rw [List.getElem?_set_ne hai] at ha
    cases hx2 : p x.pc with
    | false => rfl
    | true => exact absurd (h i a t x hi ha hp hx2) hai

theorem PcOk.same {data : Bytes} {s s' : State} {pc : Pc} (h : PcOk data s pc) (h1 : s'.temp = s.temp)
    (h2 : s'.inode = s.inode) (h3 : s'.nextInode = s.nextInode) : PcOk data s' pc := by
  unfold PcOk at *
  rw [h1, h2, h3]
  exact h

theorem PcOk.ended {data : Bytes} {s : State} {a : Answer} (h : PcOk data s (.ended a)) (s' : State) :
    PcOk data s' (.ended a) := by
  cases a with
  | got b => cases b <;> exact h
  | _ => trivial

/-- A step that does not touch the files nor send. -/
theorem BInv.quiet {data : Bytes} {s s' : State} {i : Nat} {t t' : Task} (h : BInv data s)
    (hi : s.tasks[i]? = some t) (hs : s'.tasks = s.tasks.set i t')
    (h1 : s'.temp = s.temp) (h2 : s'.inode = s.inode) (h3 : s'.nextInode = s.nextInode)
    (h4 : s'.target = s.target) (h5 : s'.msgs = s.msgs)
    (hw : writing t'.pc = true → writing t.pc = true) (ho : wrote t'.pc = true → wrote t.pc = true)
    (hu : unsent t'.pc = true → unsent t.pc = true) (hb : wild t'.pc = false)
    (hk : PcOk data s t'.pc) : BInv data s' := by
  have hno : ∀ {p : Pc → Bool}, (p t'.pc = true → p t.pc = true) → Nowhere p s → Nowhere p s' := by
    intro p hp hn
    refine hn.set hs ?_
    cases hx : p t'.pc with
    | false => rfl
    | true => have := hn.at hi; simp [hp hx] at this
  refine ⟨?_, ?_, ?_, h.tame.set hs hb, ?_, h.oneWriting.set hi hs hw, h.oneWrote.set hi hs ho, ?_, ?_⟩
  · rw [h4, h3]; exact h.targetLt
  · rw [h1, h3]; exact h.tempLt
  · rw [h4, h1]; exact h.sep
  · intro x hx
    rw [hs] at hx
    rcases List.mem_or_eq_of_mem_set hx with hx | rfl
    · exact (h.ok x hx).same h1 h2 h3
    · exact hk.same h1 h2 h3
  · rw [h4, h2]
    rcases h.phase with ⟨a, b, c⟩ | ⟨j, a, b, c⟩ | ⟨j, a, b, c⟩
    · exact Or.inl ⟨a, hno hw b, hno ho c⟩
    · exact Or.inr (Or.inl ⟨j, a, b, hno ho c⟩)
    · exact Or.inr (Or.inr ⟨j, a, b, hno hw c⟩)
  · rw [h5, h4, h2]
    rcases h.sent with a | ⟨a, b, j, c, d, e⟩
    · exact Or.inl a
    · exact Or.inr ⟨a, hno hu b, j, c, d, hno hw e⟩

theorem BInv.msgs_short {data : Bytes} {s : State} (h : BInv data s) (ch rx : Nat) :
    (s.msgs ch).drop rx = [] ∨ (s.msgs ch).drop rx = [true] := by
  have : s.msgs ch = [] ∨ s.msgs ch = [true] := by
    rcases h.sent with a | ⟨⟨ch0, a, b⟩, _⟩
    · exact Or.inl (a ch)
    · by_cases hc : ch = ch0
      · subst hc; exact Or.inr a
      · exact Or.inl (b ch hc)
  rcases this with h1 | h1
  · left; simp [h1]
  · rw [h1]
    cases rx with
    | zero => right; rfl
    | succ n => left; simp

theorem BInv.recv {data : Bytes} {s : State} (h : BInv data s) (ch rx : Nat) :
    s.recv ch rx = .pending ∨ s.recv ch rx = .closed ∨ s.recv ch rx = .message true := by
  unfold State.recv
  rcases h.msgs_short ch rx with h1 | h1
  · rw [h1]
    simp only
    split
    · exact Or.inl rfl
    · exact Or.inr (Or.inl rfl)
  · rw [h1]; exact Or.inr (Or.inr rfl)

theorem BInv.run {data : Bytes} {s s' : State} (h : BInv data s) {i k : Nat}
    (hr : s.run data i k false = some s') : BInv data s' := by
  unfold State.run at hr
  cases hi : s.tasks[i]? with
  | none => simp [hi] at hr
  | some t =>
    simp only [hi] at hr
    have hok := h.ok t (List.mem_of_getElem? hi)
    have htame := h.tame.at hi
    cases hpc : t.pc with
    | pStart =>
      simp only [hpc] at hr
      split at hr <;> cases hr <;>
        exact h.quiet hi rfl rfl rfl rfl rfl rfl (by simp [writing]) (by simp [wrote])
          (by simp [unsent]) (by simp [wild]) trivial
    | pCreate =>
      simp only [hpc, Bool.false_eq_true, if_false] at hr
      split at hr <;> cases hr
      · exact h.quiet hi rfl rfl rfl rfl rfl rfl (by simp [writing]) (by simp [wrote])
          (by simp [unsent]) (by simp [wild]) trivial
      · rename_i ht
        have hph : Nowhere writing s ∧ Nowhere wrote s := by
          rcases h.phase with ⟨_, b, c⟩ | ⟨j, a, _⟩ | ⟨j, a, _⟩
          · exact ⟨b, c⟩
          · simp [ht] at a
          · simp [ht] at a
        have hin : ∀ j, j < s.nextInode → upd s.inode s.nextInode [] j = s.inode j := by
          intro j hj; simp [upd, Nat.ne_of_lt hj]
        refine ⟨?_, ?_, ?_, h.tame.set rfl (by simp [wild]), ?_, AtMostOne.first hph.1 rfl,
          (h.oneWrote.set hi rfl (by simp [wrote])), ?_, ?_⟩
        · intro j hj
          simp only [State.setTask, Option.some.injEq] at hj ⊢
          omega
        · intro j hj
          have := h.tempLt j hj
          simp only [State.setTask]; omega
        · intro j hj hj2
          simp only [State.setTask, Option.some.injEq] at hj hj2
          have := h.tempLt j hj2
          omega
        · intro x hx
          rcases List.mem_or_eq_of_mem_set hx with hx | rfl
          · have hw := hph.1 x hx
            have hx := h.ok x hx
            cases hxp : x.pc with
            | gOpen j =>
              rw [hxp] at hx
              obtain ⟨a, b, c⟩ := hx
              refine ⟨?_, b, ?_⟩
              · simp only [State.setTask]; omega
              · show upd s.inode s.nextInode [] j = [] ∨ _
                simp only [State.setTask]
                rw [hin j a]; exact c
            | pTemp j pos => simp [hxp, writing] at hw
            | pRename j => simp [hxp, writing] at hw
            | ended a =>
              rw [hxp] at hx
              exact hx.ended _
            | _ => trivial
          · trivial
        · refine Or.inr (Or.inl ⟨s.nextInode, rfl, by simp [State.setTask, upd], ?_⟩)
          exact hph.2.set rfl (by simp [wrote])
        · rcases h.sent with a | ⟨_, _, j, c, _⟩
          · exact Or.inl a
          · simp [ht] at c
    | pWon =>
      have hp2 : ∃ i0, s.target = some i0 ∧ s.inode i0 = [] ∧ Nowhere wrote s := by
        rcases h.phase with ⟨_, b, _⟩ | a | ⟨_, _, _, b⟩
        · have := b.at hi; simp [hpc, writing] at this
        · exact a
        · have := b.at hi; simp [hpc, writing] at this
      have hs0 : ∀ ch, s.msgs ch = [] := by
        rcases h.sent with a | ⟨_, _, _, _, _, b⟩
        · exact a
        · have := b.at hi; simp [hpc, writing] at this
      obtain ⟨i0, t0, c0, w0⟩ := hp2
      have i0lt := h.targetLt i0 t0
      simp only [hpc, Bool.false_eq_true, if_false] at hr
      have others : ∀ x ∈ s.tasks, ∀ j, (∃ pos, x.pc = .pTemp j pos) ∨ x.pc = .pRename j → x = t := by
        intro x hx j hj
        obtain ⟨a, ha⟩ := List.getElem?_of_mem hx
        have hwx : writing x.pc = true := by
          rcases hj with ⟨pos, hj⟩ | hj <;> simp [hj, writing]
        have := h.oneWriting a i x t ha hi hwx (by simp [hpc, writing])
        subst this
        rw [hi] at ha
        exact (Option.some.inj ha).symm
      split at hr <;> cases hr
      · rename_i j ht
        have jlt := h.tempLt j ht
        have jne : i0 ≠ j := fun e => h.sep i0 t0 (e ▸ ht)
        refine ⟨h.targetLt, h.tempLt, h.sep, h.tame.set rfl (by simp [wild]), ?_,
          h.oneWriting.set hi rfl (by simp [hpc, writing]), h.oneWrote.set hi rfl (by simp [wrote]), ?_,
          Or.inl hs0⟩
        · intro x hx
          rcases List.mem_or_eq_of_mem_set hx with hx | rfl
          · have hxo := h.ok x hx
            cases hxp : x.pc with
            | gOpen j' =>
              rw [hxp] at hxo
              obtain ⟨a, b, c⟩ := hxo
              refine ⟨a, b, ?_⟩
              have : j' ≠ j := fun e => b (by rw [e]; exact ht)
              simpa [State.setTask, upd, this] using c
            | pTemp j' pos => have := others x hx j' (Or.inl ⟨pos, hxp⟩); subst this; simp [hpc] at hxp
            | pRename j' => have := others x hx j' (Or.inr hxp); subst this; simp [hpc] at hxp
            | ended a => rw [hxp] at hxo; exact hxo.ended _
            | _ => trivial
          · exact ⟨ht, by simp [State.setTask, upd], Nat.zero_le _⟩
        · refine Or.inr (Or.inl ⟨i0, t0, ?_, w0.set rfl (by simp [wrote])⟩)
          simpa [State.setTask, upd, jne] using c0
      · rename_i ht
        have inn : ∀ j, j < s.nextInode → upd s.inode s.nextInode [] j = s.inode j := by
          intro j hj; simp [upd, Nat.ne_of_lt hj]
        refine ⟨?_, ?_, ?_, h.tame.set rfl (by simp [wild]), ?_,
          h.oneWriting.set hi rfl (by simp [hpc, writing]), h.oneWrote.set hi rfl (by simp [wrote]), ?_,
          Or.inl hs0⟩
        · intro j hj
          have := h.targetLt j hj
          simp only [State.setTask]; omega
        · intro j hj
          simp only [State.setTask, Option.some.injEq] at hj ⊢
          omega
        · intro j hj hj2
          have := h.targetLt j hj
          simp only [State.setTask, Option.some.injEq] at hj2
          omega
        · intro x hx
          rcases List.mem_or_eq_of_mem_set hx with hx | rfl
          · have hxo := h.ok x hx
            cases hxp : x.pc with
            | gOpen j' =>
              rw [hxp] at hxo
              obtain ⟨a, b, c⟩ := hxo
              refine ⟨?_, ?_, ?_⟩
              · simp only [State.setTask]; omega
              · simp only [State.setTask, ne_eq, Option.some.injEq]; omega
              · simp only [State.setTask, inn j' a]; exact c
            | pTemp j' pos => have := others x hx j' (Or.inl ⟨pos, hxp⟩); subst this; simp [hpc] at hxp
            | pRename j' => have := others x hx j' (Or.inr hxp); subst this; simp [hpc] at hxp
            | ended a => rw [hxp] at hxo; exact hxo.ended _
            | _ => trivial
          · exact ⟨rfl, by simp [State.setTask, upd], Nat.zero_le _⟩
        · refine Or.inr (Or.inl ⟨i0, t0, ?_, w0.set rfl (by simp [wrote])⟩)
          simp only [State.setTask, inn i0 i0lt]; exact c0
    | pTemp j pos =>
      rw [hpc] at hok
      obtain ⟨ht, hc, hle⟩ := hok
      simp only [hpc, Bool.false_eq_true, if_false] at hr
      split at hr <;> cases hr
      · rename_i hpos
        exact h.quiet hi rfl rfl rfl rfl rfl rfl (by simp [hpc, writing]) (by simp [wrote])
          (by simp [unsent]) (by simp [wild]) ⟨ht, by rw [hc, hpos]; simp⟩
      · have hp2 : ∃ i0, s.target = some i0 ∧ s.inode i0 = [] ∧ Nowhere wrote s := by
          rcases h.phase with ⟨_, b, _⟩ | a | ⟨_, _, _, b⟩
          · have := b.at hi; simp [hpc, writing] at this
          · exact a
          · have := b.at hi; simp [hpc, writing] at this
        have hs0 : ∀ ch, s.msgs ch = [] := by
          rcases h.sent with a | ⟨_, _, _, _, _, b⟩
          · exact a
          · have := b.at hi; simp [hpc, writing] at this
        obtain ⟨i0, t0, c0, w0⟩ := hp2
        have jne : i0 ≠ j := fun e => h.sep i0 t0 (e ▸ ht)
        refine ⟨h.targetLt, h.tempLt, h.sep, h.tame.set rfl (by simp [wild]), ?_,
          h.oneWriting.set hi rfl (by simp [hpc, writing]), h.oneWrote.set hi rfl (by simp [wrote]), ?_,
          Or.inl hs0⟩
        · intro x hx
          simp only [State.setTask] at hx
          obtain ⟨a, ha⟩ := List.getElem?_of_mem hx
          by_cases hai : i = a
          · subst hai
            have hlt : i < s.tasks.length := (List.getElem?_eq_some_iff.mp hi).1
            rw [List.getElem?_set_self hlt] at ha
            cases ha
            refine ⟨ht, ?_, Nat.min_le_right _ _⟩
            simp only [State.setTask, upd, if_true, hc]
            rw [List.drop_eq_nil_of_le, List.append_nil]
            simp only [List.length_take]; omega
          · rw [List.getElem?_set_ne hai] at ha
            have hxo := h.ok x (List.mem_of_getElem? ha)
            cases hxp : x.pc with
            | gOpen j' =>
              rw [hxp] at hxo
              obtain ⟨a, b, c⟩ := hxo
              refine ⟨a, b, ?_⟩
              have : j' ≠ j := fun e => b (by rw [e]; exact ht)
              simpa [State.setTask, upd, this] using c
            | pTemp j' pos' =>
              exact absurd (h.oneWriting i a t x hi ha (by simp [hpc, writing]) (by simp [hxp, writing])) hai
            | pRename j' =>
              exact absurd (h.oneWriting i a t x hi ha (by simp [hpc, writing]) (by simp [hxp, writing])) hai
            | ended a => rw [hxp] at hxo; exact hxo.ended _
            | _ => trivial
        · refine Or.inr (Or.inl ⟨i0, t0, ?_, w0.set rfl (by simp [wrote])⟩)
          simpa [State.setTask, upd, jne] using c0
    | pRename j =>
      rw [hpc] at hok
      obtain ⟨ht, hc⟩ := hok
      simp only [hpc, Bool.false_eq_true, if_false, ht] at hr
      cases hr
      have hp2 : ∃ i0, s.target = some i0 ∧ s.inode i0 = [] ∧ Nowhere wrote s := by
        rcases h.phase with ⟨_, b, _⟩ | a | ⟨_, _, _, b⟩
        · have := b.at hi; simp [hpc, writing] at this
        · exact a
        · have := b.at hi; simp [hpc, writing] at this
      have hs0 : ∀ ch, s.msgs ch = [] := by
        rcases h.sent with a | ⟨_, _, _, _, _, b⟩
        · exact a
        · have := b.at hi; simp [hpc, writing] at this
      obtain ⟨i0, t0, c0, w0⟩ := hp2
      have hnw := h.oneWriting.last (s' := { s with target := some j, temp := none }.setTask i
        { t with pc := .pDone .good }) hi (by simp [hpc, writing]) rfl (by simp [writing])
      refine ⟨?_, ?_, ?_, h.tame.set rfl (by simp [wild]), ?_,
        h.oneWriting.set hi rfl (by simp [writing]), AtMostOne.first w0 rfl, ?_, Or.inl hs0⟩
      · intro j' hj
        simp only [State.setTask, Option.some.injEq] at hj
        subst hj
        exact h.tempLt j ht
      · intro j' hj; simp [State.setTask] at hj
      · intro j' _ hj; simp [State.setTask] at hj
      · intro x hx
        have hxw := hnw x hx
        rcases List.mem_or_eq_of_mem_set hx with hx | rfl
        · have hxo := h.ok x hx
          cases hxp : x.pc with
          | gOpen j' =>
            rw [hxp] at hxo
            obtain ⟨a, b, c⟩ := hxo
            exact ⟨a, by simp [State.setTask], c⟩
          | pTemp j' pos' => simp [hxp, writing] at hxw
          | pRename j' => simp [hxp, writing] at hxw
          | ended a => rw [hxp] at hxo; exact hxo.ended _
          | _ => trivial
        · trivial
      · exact Or.inr (Or.inr ⟨j, rfl, hc, hnw⟩)
    | pUndo => simp [hpc, wild] at htame
    | pDone r =>
      simp only [hpc] at hr
      have hr2 : r ≠ .bad := by rintro rfl; simp [hpc, wild] at htame
      split at hr <;> cases hr
      · refine h.quiet hi rfl rfl rfl rfl rfl rfl ?_ ?_ ?_ ?_ ?_ <;>
          cases r <;> simp_all [writing, wrote, unsent, wild, PcOk]
      · exact h.quiet hi rfl rfl rfl rfl rfl rfl (by simp [writing]) (by simp [wrote])
          (by simp [unsent]) (by simp [wild]) trivial
    | pSend r =>
      simp only [hpc] at hr
      cases r with
      | bad => simp [hpc, wild] at htame
      | lost =>
        cases hr
        exact h.quiet hi rfl rfl rfl rfl rfl rfl (by simp [writing]) (by simp [wrote])
          (by simp [unsent]) (by simp [wild]) trivial
      | good =>
        cases hr
        have hp3 : ∃ i0, s.target = some i0 ∧ s.inode i0 = data ∧ Nowhere writing s := by
          rcases h.phase with ⟨_, _, b⟩ | ⟨_, _, _, b⟩ | a
          · have := b.at hi; simp [hpc, wrote] at this
          · have := b.at hi; simp [hpc, wrote] at this
          · exact a
        obtain ⟨i0, t0, c0, w0⟩ := hp3
        have hs0 : ∀ ch, s.msgs ch = [] := by
          rcases h.sent with a | ⟨_, b, _⟩
          · exact a
          · have := b.at hi; simp [hpc, unsent] at this
        have hsub : ∀ pc, unsent pc = true → wrote pc = true := by
          intro pc hp
          unfold unsent at hp
          split at hp <;> simp_all [wrote]
        have w1 := w0.set (s' := { s with msgs := upd s.msgs t.ch (s.msgs t.ch ++ [true]) }.setTask i
          { t with pc := .ended .new }) rfl (by simp [writing])
        refine ⟨h.targetLt, h.tempLt, h.sep, h.tame.set rfl (by simp [wild]), ?_,
          h.oneWriting.set hi rfl (by simp [writing]), h.oneWrote.set hi rfl (by simp [hpc, wrote]),
          Or.inr (Or.inr ⟨i0, t0, c0, w1⟩), Or.inr ⟨⟨t.ch, ?_, ?_⟩, ?_, i0, t0, c0, w1⟩⟩
        · intro x hx
          rcases List.mem_or_eq_of_mem_set hx with hx | rfl
          · exact (h.ok x hx).same rfl rfl rfl
          · trivial
        · simp [State.setTask, upd, hs0]
        · intro ch hch; simp [State.setTask, upd, hch, hs0]
        · have : AtMostOne unsent s := fun a b ta tb ha hb pa pb =>
            h.oneWrote a b ta tb ha hb (hsub _ pa) (hsub _ pb)
          exact this.last hi (by simp [hpc, unsent]) rfl (by simp [unsent])
    | pWait =>
      simp only [hpc] at hr
      rcases h.recv t.ch t.rx with e | e | e <;> simp only [e] at hr <;> cases hr <;>
        exact h.quiet hi rfl rfl rfl rfl rfl rfl (by simp [writing]) (by simp [wrote])
          (by simp [unsent]) (by simp [wild]) trivial
    | gStart =>
      simp only [hpc] at hr
      split at hr <;> cases hr <;>
        exact h.quiet hi rfl rfl rfl rfl rfl rfl (by simp [writing]) (by simp [wrote])
          (by simp [unsent]) (by simp [wild]) trivial
    | gWait =>
      simp only [hpc] at hr
      rcases h.recv t.ch t.rx with e | e | e <;> simp only [e] at hr <;> cases hr <;>
        exact h.quiet hi rfl rfl rfl rfl rfl rfl (by simp [writing]) (by simp [wrote])
          (by simp [unsent]) (by simp [wild]) trivial
    | gRead =>
      simp only [hpc] at hr
      split at hr <;> cases hr
      · exact h.quiet hi rfl rfl rfl rfl rfl rfl (by simp [writing]) (by simp [wrote])
          (by simp [unsent]) (by simp [wild]) trivial
      · rename_i j ht
        refine h.quiet hi rfl rfl rfl rfl rfl rfl (by simp [writing]) (by simp [wrote])
          (by simp [unsent]) (by simp [wild]) ⟨h.targetLt j ht, h.sep j ht, ?_⟩
        rcases h.phase with ⟨a, _⟩ | ⟨i0, a, b, _⟩ | ⟨i0, a, b, _⟩
        · simp [ht] at a
        · rw [ht] at a; cases a; exact Or.inl b
        · rw [ht] at a; cases a; exact Or.inr b
    | gOpen j =>
      simp only [hpc] at hr
      cases hr
      rw [hpc] at hok
      exact h.quiet hi rfl rfl rfl rfl rfl rfl (by simp [writing]) (by simp [wrote])
          (by simp [unsent]) (by simp [wild]) hok.2.2
    | rStart => simp [hpc, wild] at htame
    | rWait => simp [hpc, wild] at htame
    | rRemove => simp [hpc, wild] at htame
    | cStat =>
      simp only [hpc] at hr
      cases hr
      exact h.quiet hi rfl rfl rfl rfl rfl rfl (by simp [writing]) (by simp [wrote])
          (by simp [unsent]) (by simp [wild]) trivial
    | ended a => simp [hpc] at hr
    | gone => simp [hpc] at hr

theorem BInv.cancel {data : Bytes} {s s' : State} (h : BInv data s) {i : Nat}
    (hr : s.cancel i = some s') : BInv data s' := by
  unfold State.cancel at hr
  cases hi : s.tasks[i]? with
  | none => simp [hi] at hr
  | some t =>
    simp only [hi] at hr
    have hok := h.ok t (List.mem_of_getElem? hi)
    have htame := h.tame.at hi
    split at hr
    · cases hr
    · split at hr
      all_goals first
        | (cases hr; done)
        | (cases hr
           refine h.quiet hi rfl rfl rfl rfl rfl rfl ?_ ?_ ?_ ?_ ?_ <;>
             first | exact fun x => x | exact htame | exact hok | simp [writing, wrote, unsent, wild, PcOk])

theorem BInv.spawn {data : Bytes} {s : State} (h : BInv data s) (t : Task)
    (hw : writing t.pc = false) (ho : wrote t.pc = false) (hu : unsent t.pc = false)
    (hb : wild t.pc = false) (hk : PcOk data s t.pc) :
    BInv data { s with tasks := s.tasks ++ [t] } := by
  have hno : ∀ {p : Pc → Bool}, p t.pc = false → Nowhere p s →
      Nowhere p { s with tasks := s.tasks ++ [t] } := by
    intro p hp hn x hx
    rcases List.mem_append.mp hx with hx | hx
    · exact hn x hx
    · simp only [List.mem_singleton] at hx; subst hx; exact hp
  have hone : ∀ {p : Pc → Bool}, p t.pc = false → AtMostOne p s →
      AtMostOne p { s with tasks := s.tasks ++ [t] } := by
    intro p hp hn
    have key : ∀ (a : Nat) ta, (s.tasks ++ [t])[a]? = some ta → p ta.pc = true → s.tasks[a]? = some ta := by
      intro a ta ha hpa
      rw [List.getElem?_append] at ha
      split at ha
      · exact ha
      · have := List.mem_of_getElem? ha
        simp only [List.mem_singleton] at this
        subst this
        simp [hp] at hpa
    intro a b ta tb ha hb pa pb
    exact hn a b ta tb (key a ta ha pa) (key b tb hb pb) pa pb
  refine ⟨h.targetLt, h.tempLt, h.sep, hno hb h.tame, ?_, hone hw h.oneWriting, hone ho h.oneWrote, ?_, ?_⟩
  · intro x hx
    rcases List.mem_append.mp hx with hx | hx
    · exact h.ok x hx
    · simp only [List.mem_singleton] at hx; subst hx; exact hk
  · rcases h.phase with ⟨a, b, c⟩ | ⟨j, a, b, c⟩ | ⟨j, a, b, c⟩
    · exact Or.inl ⟨a, hno hw b, hno ho c⟩
    · exact Or.inr (Or.inl ⟨j, a, b, hno ho c⟩)
    · exact Or.inr (Or.inr ⟨j, a, b, hno hw c⟩)
  · rcases h.sent with a | ⟨a, b, j, c, d, e⟩
    · exact Or.inl a
    · exact Or.inr ⟨a, hno hu b, j, c, d, hno hw e⟩

theorem BInv.act {data : Bytes} {s s' : State} (h : BInv data s) {a : Act} (hc : a.calm = true)
    (hr : s.act data a = some s') : BInv data s' := by
  cases a with
  | spawnPut => cases hr; exact h.spawn _ rfl rfl rfl rfl trivial
  | spawnGet => cases hr; exact h.spawn _ rfl rfl rfl rfl trivial
  | spawnContains => cases hr; exact h.spawn _ rfl rfl rfl rfl trivial
  | spawnRemove => simp [Act.calm] at hc
  | run i k fail =>
    simp only [Act.calm, Bool.not_eq_true'] at hc
    subst hc
    exact h.run hr
  | cancel i => exact h.cancel hr
  | crash =>
    cases hr
    refine ⟨h.targetLt, h.tempLt, h.sep, ?_, ?_, ?_, ?_, ?_, ?_⟩
    · simp [Nowhere]
    · simp
    · simp [AtMostOne]
    · simp [AtMostOne]
    · rcases h.phase with ⟨a, _⟩ | ⟨j, a, b, _⟩ | ⟨j, a, b, _⟩
      · exact Or.inl ⟨a, by simp [Nowhere], by simp [Nowhere]⟩
      · exact Or.inr (Or.inl ⟨j, a, b, by simp [Nowhere]⟩)
      · exact Or.inr (Or.inr ⟨j, a, b, by simp [Nowhere]⟩)
    · exact Or.inl fun _ => rfl

theorem BInv.acts {data : Bytes} {s s' : State} (h : BInv data s) {as : List Act}
    (hc : ∀ a ∈ as, a.calm = true) (hr : s.acts data as = some s') : BInv data s' := by
  induction as generalizing s with
  | nil => cases hr; exact h
  | cons a as ih =>
    simp only [State.acts] at hr
    split at hr
    · cases hr
    · rename_i e
      exact ih (h.act (hc a (by simp)) e) (fun x hx => hc x (by simp [hx])) hr

theorem answerOf_some {s : State} {i : Nat} {a : Answer} (h : answerOf s i = some a) :
    ∃ t, s.tasks[i]? = some t ∧ t.pc = .ended a := by
  unfold answerOf at h
  split at h
  · rename_i t ht
    split at h
    · rename_i a' hp
      cases h
      exact ⟨t, ht, hp⟩
    · cases h
  · cases h

/-- **C26**: without removals and disk failures, under every schedule with any number of calls,
cancellations and crashes, at most one put answers "new". -/
theorem C26_at_most_one_new (data : Bytes) (as : List Act) (hc : ∀ a ∈ as, a.calm = true) (s : State)
    (hs : State.init.acts data as = some s) (i j : Nat) (hi : answerOf s i = some .new)
    (hj : answerOf s j = some .new) : i = j := by
  have h := (BInv.init data).acts hc hs
  obtain ⟨ti, e1, p1⟩ := answerOf_some hi
  obtain ⟨tj, e2, p2⟩ := answerOf_some hj
  exact h.oneWrote i j ti tj e1 e2 (by simp [p1, wrote]) (by simp [p2, wrote])

/-- **C26, C27** (in part): under every such schedule a get returns nothing, the empty block or the
bytes, never a part of them, and no call fails or panics. Missing: that the empty block is not
returned, which is false by `C26_torn_read`. -/
theorem C26_never_torn_partial (data : Bytes) (as : List Act) (hc : ∀ a ∈ as, a.calm = true)
    (s : State) (hs : State.init.acts data as = some s) (i : Nat) :
    (∀ b, answerOf s i = some (.got (some b)) → b = [] ∨ b = data) ∧
    answerOf s i ≠ some .failed ∧ answerOf s i ≠ some .panic := by
  have h := (BInv.init data).acts hc hs
  refine ⟨fun b hb => ?_, fun hb => ?_, fun hb => ?_⟩
  · obtain ⟨t, e, p⟩ := answerOf_some hb
    have := h.ok t (List.mem_of_getElem? e)
    rw [p] at this
    exact this
  · obtain ⟨t, e, p⟩ := answerOf_some hb
    have := h.tame.at e
    simp [p, wild] at this
  · obtain ⟨t, e, p⟩ := answerOf_some hb
    have := h.tame.at e
    simp [p, wild] at this

/-! ### A get started after "new" -/

/-- Where a get may be once the file `i` is complete. -/
def GetOk (data : Bytes) (i : Nat) : Pc → Prop
  | .gStart | .gWait | .gRead | .gone => True
  | .gOpen j => j = i
  | .ended a => a = .got (some data)
  | _ => False

structure Settled (data : Bytes) (g i : Nat) (s : State) : Prop where
  inv : BInv data s
  target : s.target = some i
  full : s.inode i = data
  nobody : Nowhere writing s
  get : ∃ t, s.tasks[g]? = some t ∧ GetOk data i t.pc

theorem Settled.run {data : Bytes} {g i : Nat} {s s' : State} (h : Settled data g i s) {k n : Nat}
    (hr : s.run data k n false = some s') : Settled data g i s' := by
  have hinv := h.inv.run hr
  unfold State.run at hr
  cases hk : s.tasks[k]? with
  | none => simp [hk] at hr
  | some t =>
    simp only [hk] at hr
    have hnw := h.nobody.at hk
    have htame := h.inv.tame.at hk
    have hlt : k < s.tasks.length := (List.getElem?_eq_some_iff.mp hk).1
    obtain ⟨tg, hg, hgo⟩ := h.get
    -- a step that leaves the file alone and moves call `k` to a good place
    have fin : ∀ (s1 : State) (t' : Task), some (s1.setTask k t') = some s' → s1.target = s.target →
        s1.inode = s.inode → s1.tasks = s.tasks → writing t'.pc = false →
        (k = g → GetOk data i t.pc → GetOk data i t'.pc) → Settled data g i s' := by
      intro s1 t' e e1 e2 e3 e4 e5
      cases e
      refine ⟨hinv, by rw [← h.target, ← e1]; rfl, ?_, ?_, ?_⟩
      · rw [← h.full, ← e2]; rfl
      · exact h.nobody.set (by simp only [State.setTask, e3]; rfl) e4
      · simp only [State.setTask, e3]
        by_cases hkg : k = g
        · subst hkg
          rw [hk] at hg
          cases hg
          exact ⟨t', List.getElem?_set_self hlt, e5 rfl hgo⟩
        · exact ⟨tg, by rw [List.getElem?_set_ne hkg]; exact hg, hgo⟩
    cases hpc : t.pc with
    | pStart =>
      simp only [hpc] at hr
      split at hr <;> exact fin _ _ hr rfl rfl rfl rfl (by simp [hpc, GetOk])
    | pCreate =>
      simp only [hpc, Bool.false_eq_true, if_false, h.target] at hr
      exact fin _ _ hr rfl rfl rfl rfl (by simp [hpc, GetOk])
    | pWon => simp [hpc, writing] at hnw
    | pTemp j pos => simp [hpc, writing] at hnw
    | pRename j => simp [hpc, writing] at hnw
    | pUndo => simp [hpc, wild] at htame
    | pDone r =>
      simp only [hpc] at hr
      split at hr <;> exact fin _ _ hr rfl rfl rfl rfl (by simp [hpc, GetOk])
    | pSend r =>
      simp only [hpc] at hr
      cases r <;> exact fin _ _ hr rfl rfl rfl rfl (by simp [hpc, GetOk])
    | pWait =>
      simp only [hpc] at hr
      split at hr <;> first
        | (cases hr; done)
        | exact fin _ _ hr rfl rfl rfl rfl (by simp [hpc, GetOk])
    | gStart =>
      simp only [hpc] at hr
      split at hr <;> exact fin _ _ hr rfl rfl rfl rfl (by simp [GetOk])
    | gWait =>
      simp only [hpc] at hr
      rcases h.inv.recv t.ch t.rx with e | e | e <;> simp only [e] at hr <;> first
        | (cases hr; done)
        | exact fin _ _ hr rfl rfl rfl rfl (by simp [GetOk])
    | gRead =>
      simp only [hpc, h.target] at hr
      exact fin _ _ hr rfl rfl rfl rfl (by simp [GetOk])
    | gOpen j =>
      simp only [hpc] at hr
      refine fin _ _ hr rfl rfl rfl rfl (fun _ hj => ?_)
      simp only [hpc, GetOk] at hj
      subst hj
      simp [GetOk, h.full]
    | rStart => simp [hpc, wild] at htame
    | rWait => simp [hpc, wild] at htame
    | rRemove => simp [hpc, wild] at htame
    | cStat =>
      simp only [hpc] at hr
      exact fin _ _ hr rfl rfl rfl rfl (by simp [hpc, GetOk])
    | ended a => simp [hpc] at hr
    | gone => simp [hpc] at hr

theorem Settled.cancel {data : Bytes} {g i : Nat} {s s' : State} (h : Settled data g i s) {k : Nat}
    (hr : s.cancel k = some s') : Settled data g i s' := by
  have hinv := h.inv.cancel hr
  unfold State.cancel at hr
  cases hk : s.tasks[k]? with
  | none => simp [hk] at hr
  | some t =>
    simp only [hk] at hr
    have hnw := h.nobody.at hk
    have hlt : k < s.tasks.length := (List.getElem?_eq_some_iff.mp hk).1
    obtain ⟨tg, hg, hgo⟩ := h.get
    have fin : ∀ (s1 : State) (t' : Task), some (s1.setTask k t') = some s' → s1.target = s.target →
        s1.inode = s.inode → s1.tasks = s.tasks → writing t'.pc = false →
        (k = g → GetOk data i t.pc → GetOk data i t'.pc) → Settled data g i s' := by
      intro s1 t' e e1 e2 e3 e4 e5
      cases e
      refine ⟨hinv, by rw [← h.target, ← e1]; rfl, ?_, ?_, ?_⟩
      · rw [← h.full, ← e2]; rfl
      · exact h.nobody.set (by simp only [State.setTask, e3]; rfl) e4
      · simp only [State.setTask, e3]
        by_cases hkg : k = g
        · subst hkg
          rw [hk] at hg
          cases hg
          exact ⟨t', List.getElem?_set_self hlt, e5 rfl hgo⟩
        · exact ⟨tg, by rw [List.getElem?_set_ne hkg]; exact hg, hgo⟩
    split at hr
    · cases hr
    · split at hr
      all_goals first
        | (cases hr; done)
        | exact fin _ _ hr rfl rfl rfl hnw (fun _ x => x)
        | exact fin _ _ hr rfl rfl rfl rfl (fun _ _ => trivial)

theorem Settled.acts {data : Bytes} {g i : Nat} {s s' : State} (h : Settled data g i s)
    {as : List Act} (hc : ∀ a ∈ as, a.calm = true ∧ a ≠ .crash) (hr : s.acts data as = some s') :
    Settled data g i s' := by
  induction as generalizing s with
  | nil => cases hr; exact h
  | cons a as ih =>
    simp only [State.acts] at hr
    split at hr
    · cases hr
    · rename_i s1 e
      refine ih ?_ (fun x hx => hc x (by simp [hx])) hr
      obtain ⟨c1, c2⟩ := hc a (by simp)
      have spawn : ∀ t : Task, BInv data { s with tasks := s.tasks ++ [t] } → writing t.pc = false →
          Settled data g i { s with tasks := s.tasks ++ [t] } := by
        intro t hb hw
        refine ⟨hb, h.target, h.full, ?_, ?_⟩
        · intro x hx
          rcases List.mem_append.mp hx with hx | hx
          · exact h.nobody x hx
          · simp only [List.mem_singleton] at hx; subst hx; exact hw
        · obtain ⟨tg, hg, hgo⟩ := h.get
          refine ⟨tg, ?_, hgo⟩
          have hlt : g < s.tasks.length := (List.getElem?_eq_some_iff.mp hg).1
          simp only
          rw [List.getElem?_append_left hlt]; exact hg
      have hb := h.inv.act c1 e
      cases a with
      | spawnPut => cases e; exact spawn _ hb rfl
      | spawnGet => cases e; exact spawn _ hb rfl
      | spawnContains => cases e; exact spawn _ hb rfl
      | spawnRemove => simp [Act.calm] at c1
      | run k n fail =>
        simp only [Act.calm, Bool.not_eq_true'] at c1
        subst c1
        exact h.run e
      | cancel k => exact h.cancel e
      | crash => exact absurd rfl c2

theorem full_of_new {data : Bytes} {s : State} (h : BInv data s) {p : Nat}
    (hp : answerOf s p = some .new) :
    ∃ i0, s.target = some i0 ∧ s.inode i0 = data ∧ Nowhere writing s := by
  obtain ⟨t, e, ep⟩ := answerOf_some hp
  rcases h.phase with ⟨_, _, b⟩ | ⟨_, _, _, b⟩ | a
  · have := b.at e; simp [ep, wrote] at this
  · have := b.at e; simp [ep, wrote] at this
  · exact a

theorem get_after_full {data : Bytes} {s1 s2 : State} (h : BInv data s1)
    (hp : ∃ i0, s1.target = some i0 ∧ s1.inode i0 = data ∧ Nowhere writing s1) {as2 : List Act}
    (hc2 : ∀ a ∈ as2, a.calm = true ∧ a ≠ .crash)
    (h2 : s1.acts data (.spawnGet :: as2) = some s2) {a : Answer}
    (ha : answerOf s2 s1.tasks.length = some a) : a = .got (some data) := by
  obtain ⟨i0, t0, c0, w0⟩ := hp
  have hset : Settled data s1.tasks.length i0 { s1 with tasks := s1.tasks ++ [{ pc := .gStart }] } := by
    refine ⟨h.spawn _ rfl rfl rfl rfl trivial, t0, c0, ?_, ⟨{ pc := .gStart }, by simp, trivial⟩⟩
    intro x hx
    rcases List.mem_append.mp hx with hx | hx
    · exact w0 x hx
    · simp only [List.mem_singleton] at hx; subst hx; rfl
  have hfin := hset.acts hc2 h2
  obtain ⟨t', e', g'⟩ := hfin.get
  obtain ⟨t'', e'', p''⟩ := answerOf_some ha
  rw [e'] at e''
  cases e''
  rw [p''] at g'
  exact g'

theorem get_after_new {data : Bytes} {s1 s2 : State} (h : BInv data s1) {p : Nat}
    (hp : answerOf s1 p = some .new) {as2 : List Act}
    (hc2 : ∀ a ∈ as2, a.calm = true ∧ a ≠ .crash)
    (h2 : s1.acts data (.spawnGet :: as2) = some s2) {a : Answer}
    (ha : answerOf s2 s1.tasks.length = some a) : a = .got (some data) :=
  get_after_full h (full_of_new h hp) hc2 h2 ha

/-- **C26** (for puts answering "new"): under every schedule without removals and disk failures, a
get started after a put has answered "new" returns exactly the bytes, if it returns. For puts
answering "existed" this is false by `C26_torn_read`. -/
theorem C26_get_after_new_partial (data : Bytes) (as1 as2 : List Act)
    (hc1 : ∀ a ∈ as1, a.calm = true) (hc2 : ∀ a ∈ as2, a.calm = true ∧ a ≠ .crash) (s1 s2 : State)
    (h1 : State.init.acts data as1 = some s1) (p : Nat) (hp : answerOf s1 p = some .new)
    (h2 : s1.acts data (.spawnGet :: as2) = some s2) (a : Answer)
    (ha : answerOf s2 s1.tasks.length = some a) : a = .got (some data) :=
  get_after_new ((BInv.init data).acts hc1 h1) hp hc2 h2 ha

/-- Four calls interleaved: two puts and a get race, a later get sees the bytes. -/
example : ∃ s1 s2, State.init.acts [7, 8] [.spawnPut, .spawnPut, .spawnGet, go 2, go 0, go 1, go 0,
      go 2, go 1, go 0, .run 0 1 false, go 2, go 0, go 0, go 0, go 0, go 0] = some s1 ∧
    answerOf s1 0 = some .new ∧ answerOf s1 2 = some (.got (some [])) ∧
    s1.acts [7, 8] [.spawnGet, go 3, go 3, go 1, go 1, go 3, go 1] = some s2 ∧
    answerOf s2 3 = some (.got (some [7, 8])) ∧ answerOf s2 1 = some .existed :=
  ⟨_, _, rfl, by decide +kernel, by decide +kernel, rfl, by decide +kernel, by decide +kernel⟩

/-! ### Exactly one "new" -/

/-- The call is a put that lost. -/
def lostPut : Pc → Bool
  | .pDone .lost | .pSend .lost | .pWait | .ended .existed => true
  | _ => false

/-- A file is there because of some call, and for every put that lost there is a file. -/
structure Owned (s : State) : Prop where
  owner : s.target.isSome = true → ∃ t ∈ s.tasks, writing t.pc = true ∨ wrote t.pc = true
  lost : (∃ t ∈ s.tasks, lostPut t.pc = true) → s.target.isSome = true

/-- No dropped future and no crash. -/
def _root_.Verif.Repo.FsBlocks.Act.steady : Act → Bool
  | .cancel _ => false
  | .crash => false
  | a => a.calm

/-- No future was dropped. -/
def AllAlive (s : State) : Prop := ∀ t ∈ s.tasks, t.alive = true

theorem Owned.run {data : Bytes} {s s' : State} (hb : BInv data s) (h : Owned s) (hal : AllAlive s)
    {k n : Nat} (hr : s.run data k n false = some s') : Owned s' ∧ AllAlive s' := by
  unfold State.run at hr
  cases hk : s.tasks[k]? with
  | none => simp [hk] at hr
  | some t =>
    simp only [hk] at hr
    have htame := hb.tame.at hk
    have halive := hal t (List.mem_of_getElem? hk)
    have hok := hb.ok t (List.mem_of_getElem? hk)
    have hlt : k < s.tasks.length := (List.getElem?_eq_some_iff.mp hk).1
    have fin : ∀ (s1 : State) (t' : Task), some (s1.setTask k t') = some s' → s1.tasks = s.tasks →
        t'.alive = true →
        (s.target.isSome = true → s1.target.isSome = true) →
        (s1.target.isSome = true → s.target.isSome = true ∨ writing t'.pc = true) →
        (writing t.pc = true ∨ wrote t.pc = true → writing t'.pc = true ∨ wrote t'.pc = true) →
        (lostPut t'.pc = true → lostPut t.pc = true ∨ s1.target.isSome = true) →
        Owned s' ∧ AllAlive s' := by
      intro s1 t' e e1 e2 e3 e4 e5 e6
      cases e
      have hmem : t' ∈ s.tasks.set k t' := List.mem_set hlt _
      refine ⟨⟨fun ht => ?_, ?_⟩, ?_⟩
      · simp only [State.setTask, e1]
        rcases e4 ht with ht | ht
        · obtain ⟨x, hx, hw⟩ := h.owner ht
          obtain ⟨a, ha⟩ := List.getElem?_of_mem hx
          by_cases hka : k = a
          · subst hka
            rw [hk] at ha
            cases ha
            exact ⟨t', hmem, e5 hw⟩
          · exact ⟨x, List.mem_of_getElem? (by rw [List.getElem?_set_ne hka]; exact ha), hw⟩
        · exact ⟨t', hmem, Or.inl ht⟩
      · rintro ⟨x, hx, hl⟩
        simp only [State.setTask, e1] at hx
        show s1.target.isSome = true
        rcases List.mem_or_eq_of_mem_set hx with hx | rfl
        · exact e3 (h.lost ⟨x, hx, hl⟩)
        · rcases e6 hl with h1 | h1
          · exact e3 (h.lost ⟨t, List.mem_of_getElem? hk, h1⟩)
          · exact h1
      · intro x hx
        simp only [State.setTask, e1] at hx
        rcases List.mem_or_eq_of_mem_set hx with hx | rfl
        · exact hal x hx
        · exact e2
    cases hpc : t.pc with
    | pStart =>
      simp only [hpc] at hr
      split at hr <;>
        exact fin _ _ hr rfl halive (fun x => x) Or.inl (by simp [hpc, writing, wrote]) (by simp [lostPut])
    | pCreate =>
      simp only [hpc, Bool.false_eq_true, if_false] at hr
      split at hr
      · rename_i ht
        exact fin _ _ hr rfl halive (fun x => x) Or.inl (by simp [hpc, writing, wrote]) (by simp [ht])
      · exact fin _ _ hr rfl halive (by simp) (by simp [writing]) (by simp [hpc, writing, wrote])
          (by simp [lostPut])
    | pWon =>
      simp only [hpc, Bool.false_eq_true, if_false] at hr
      split at hr <;>
        exact fin _ _ hr rfl halive (fun x => x) Or.inl (by simp [writing]) (by simp [lostPut])
    | pTemp j pos =>
      simp only [hpc, Bool.false_eq_true, if_false] at hr
      split at hr <;>
        exact fin _ _ hr rfl halive (fun x => x) Or.inl (by simp [writing]) (by simp [lostPut])
    | pRename j =>
      rw [hpc] at hok
      have htg : s.target.isSome = true := by
        rcases hb.phase with ⟨_, b, _⟩ | ⟨i, a, _⟩ | ⟨i, a, _⟩
        · have := b.at hk; simp [hpc, writing] at this
        · simp [a]
        · simp [a]
      simp only [hpc, Bool.false_eq_true, if_false, hok.1] at hr
      exact fin _ _ hr rfl halive (by simp) (fun _ => Or.inl htg) (by simp [wrote]) (by simp [lostPut])
    | pUndo => simp [hpc, wild] at htame
    | pDone r =>
      simp only [hpc, halive, if_true] at hr
      refine fin _ _ hr rfl rfl (fun x => x) Or.inl ?_ ?_
      · cases r <;> simp [hpc, writing, wrote]
      · cases r <;> simp [hpc, lostPut]
    | pSend r =>
      simp only [hpc] at hr
      cases r with
      | bad => simp [hpc, wild] at htame
      | good => exact fin _ _ hr rfl halive (fun x => x) Or.inl (by simp [wrote]) (by simp [lostPut])
      | lost =>
        exact fin _ _ hr rfl halive (fun x => x) Or.inl (by simp [hpc, writing, wrote])
          (by simp [hpc, lostPut])
    | pWait =>
      simp only [hpc] at hr
      rcases hb.recv t.ch t.rx with e | e | e <;> simp only [e] at hr <;> first
        | (cases hr; done)
        | exact fin _ _ hr rfl halive (fun x => x) Or.inl (by simp [hpc, writing, wrote])
            (by simp [hpc, lostPut])
    | gStart =>
      simp only [hpc] at hr
      split at hr <;>
        exact fin _ _ hr rfl halive (fun x => x) Or.inl (by simp [hpc, writing, wrote]) (by simp [lostPut])
    | gWait =>
      simp only [hpc] at hr
      rcases hb.recv t.ch t.rx with e | e | e <;> simp only [e] at hr <;> first
        | (cases hr; done)
        | exact fin _ _ hr rfl halive (fun x => x) Or.inl (by simp [hpc, writing, wrote]) (by simp [lostPut])
    | gRead =>
      simp only [hpc] at hr
      split at hr <;>
        exact fin _ _ hr rfl halive (fun x => x) Or.inl (by simp [hpc, writing, wrote]) (by simp [lostPut])
    | gOpen j =>
      simp only [hpc] at hr
      exact fin _ _ hr rfl halive (fun x => x) Or.inl (by simp [hpc, writing, wrote]) (by simp [lostPut])
    | rStart => simp [hpc, wild] at htame
    | rWait => simp [hpc, wild] at htame
    | rRemove => simp [hpc, wild] at htame
    | cStat =>
      simp only [hpc] at hr
      exact fin _ _ hr rfl halive (fun x => x) Or.inl (by simp [hpc, writing, wrote]) (by simp [lostPut])
    | ended a => simp [hpc] at hr
    | gone => simp [hpc] at hr

theorem Owned.acts {data : Bytes} {s s' : State} (hb : BInv data s) (h : Owned s) (hal : AllAlive s)
    {as : List Act} (hc : ∀ a ∈ as, a.steady = true) (hr : s.acts data as = some s') :
    BInv data s' ∧ Owned s' ∧ AllAlive s' := by
  induction as generalizing s with
  | nil => cases hr; exact ⟨hb, h, hal⟩
  | cons a as ih =>
    simp only [State.acts] at hr
    split at hr
    · cases hr
    · rename_i s1 e
      have c1 := hc a (by simp)
      have hcalm : a.calm = true := by cases a <;> simp_all [Act.steady, Act.calm]
      have hb1 := hb.act hcalm e
      have hh : Owned s1 ∧ AllAlive s1 := by
        have spawn : ∀ t : Task, lostPut t.pc = false → t.alive = true →
            Owned { s with tasks := s.tasks ++ [t] } ∧ AllAlive { s with tasks := s.tasks ++ [t] } := by
          intro t hl ht
          refine ⟨⟨fun hx => ?_, ?_⟩, ?_⟩
          · obtain ⟨x, hx, hw⟩ := h.owner hx
            exact ⟨x, by simp [hx], hw⟩
          · rintro ⟨x, hx, hw⟩
            rcases List.mem_append.mp hx with hx | hx
            · exact h.lost ⟨x, hx, hw⟩
            · simp only [List.mem_singleton] at hx; subst hx; simp [hl] at hw
          · intro x hx
            rcases List.mem_append.mp hx with hx | hx
            · exact hal x hx
            · simp only [List.mem_singleton] at hx; subst hx; exact ht
        cases a with
        | spawnPut => cases e; exact spawn _ rfl rfl
        | spawnGet => cases e; exact spawn _ rfl rfl
        | spawnContains => cases e; exact spawn _ rfl rfl
        | spawnRemove => simp [Act.calm] at hcalm
        | run k n fail =>
          simp only [Act.calm, Bool.not_eq_true'] at hcalm
          subst hcalm
          exact h.run hb hal e
        | cancel k => simp [Act.steady] at c1
        | crash => simp [Act.steady] at c1
      exact ih hb1 hh.1 hh.2 (fun x hx => hc x (by simp [hx])) hr

theorem exactly_one_new {data : Bytes} {s : State} (hb : BInv data s) (ho : Owned s)
    (hend : ∀ t ∈ s.tasks, ∃ a, t.pc = .ended a) {i : Nat}
    (hi : answerOf s i = some .new ∨ answerOf s i = some .existed) :
    ∃ j, answerOf s j = some .new ∧ ∀ k, answerOf s k = some .new → k = j := by
  have huniq : ∀ j k, answerOf s j = some .new → answerOf s k = some .new → k = j := by
    intro j k hj hk
    obtain ⟨tj, e1, p1⟩ := answerOf_some hj
    obtain ⟨tk, e2, p2⟩ := answerOf_some hk
    exact hb.oneWrote k j tk tj e2 e1 (by simp [p2, wrote]) (by simp [p1, wrote])
  have hex : ∃ j, answerOf s j = some .new := by
    rcases hi with hi | hi
    · exact ⟨i, hi⟩
    · obtain ⟨t, e, p⟩ := answerOf_some hi
      obtain ⟨x, hx, hw⟩ := ho.owner (ho.lost ⟨t, List.mem_of_getElem? e, by simp [p, lostPut]⟩)
      obtain ⟨a, ha⟩ := hend x hx
      obtain ⟨j, hj⟩ := List.getElem?_of_mem hx
      refine ⟨j, ?_⟩
      unfold answerOf
      rw [hj]
      simp only [ha]
      rcases hw with hw | hw
      · simp [ha, writing] at hw
      · cases a <;> simp_all [wrote]
  obtain ⟨j, hj⟩ := hex
  exact ⟨j, hj, fun k hk => huniq j k hj hk⟩

/-- **C26**: when no removal, failure, cancellation or crash happens and all calls have ended, at
least one of them a put, exactly one put has answered "new". -/
theorem C26_exactly_one_new (data : Bytes) (as : List Act) (hc : ∀ a ∈ as, a.steady = true) (s : State)
    (hs : State.init.acts data as = some s) (hend : ∀ t ∈ s.tasks, ∃ a, t.pc = .ended a) (i : Nat)
    (hi : answerOf s i = some .new ∨ answerOf s i = some .existed) :
    ∃ j, answerOf s j = some .new ∧ ∀ k, answerOf s k = some .new → k = j := by
  have h0 : Owned State.init ∧ AllAlive State.init := by
    refine ⟨⟨by simp [State.init], by simp [State.init]⟩, by simp [AllAlive, State.init]⟩
  obtain ⟨hb, ho, _⟩ := Owned.acts (BInv.init data) h0.1 h0.2 hc hs
  exact exactly_one_new hb ho hend hi

end Verif.Props
