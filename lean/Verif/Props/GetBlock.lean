import Verif.Repo.GetBlock
import Verif.Props.Subs

/-!
# C35 for `get_block` and `put_block`
-/

namespace Verif.Props

open Verif Verif.Repo Verif.Repo.Subs
open Verif.Repo.GetBlock (Task State Act)

/-! ### Specification -/

/-- The blocks that were put. -/
def putBlocks (as : List Act) : List Block := as.filterMap (fun a => match a with
  | .spawnPut b => some b
  | _ => none)

/-! ### Helpers -/

structure GetInv (P : Block → Prop) (s : State) : Prop where
  reg : SubsInv s.reg
  store : ∀ m c b, AMap.get s.store m = some (c, b) → b.cid.mh = m ∧ P b
  ready : ∀ k i b, AMap.get s.reg.subs (k, i) = some (.ready b) → b.cid = k ∧ P b
  creating : ∀ i k b, s.reg.futs i ≠ some ⟨k, .creating (.ready b)⟩
  put : ∀ b, Task.putStart b ∈ s.tasks ∨ Task.putStored b ∈ s.tasks → P b
  wait : ∀ c i, Task.getWaiting c i ∈ s.tasks ∨ Task.getCreating c i ∈ s.tasks →
    ∃ st, s.reg.futs i = some ⟨c, st⟩
  done : ∀ c b, Task.getDone c (some b) ∈ s.tasks → b.cid.mh = c.mh ∧ P b

/-- Steps of the registry keep the kinds of futures, make no result and create no completed waiter. -/
theorem reg_step_facts {K R : Type} [DecidableEq K] {debug : Bool} {s s' : Reg K R} {op : Op K R} {out : Out R}
    (h : s.step debug op = some (s', out)) (hi : SubsInv s) (hc : ∀ i k b, s.futs i ≠ some ⟨k, .creating (.ready b)⟩) :
    (∀ i k st, s.futs i = some ⟨k, st⟩ → ∃ st', s'.futs i = some ⟨k, st'⟩) ∧
    (∀ k i r, AMap.get s'.subs (k, i) = some (.ready r) → AMap.get s.subs (k, i) = some (.ready r) ∨ op = .finish k r) ∧
    (∀ i k b, s'.futs i ≠ some ⟨k, .creating (.ready b)⟩) := by
  have set : ∀ (t : Reg K R) j k st, t.futs = s.futs → (∀ k' st', s.futs j = some ⟨k', st'⟩ → k' = k) →
      (∀ b, st ≠ .creating (.ready b)) →
      (∀ i k' st', s.futs i = some ⟨k', st'⟩ → ∃ st'', (t.setFut j ⟨k, st⟩).futs i = some ⟨k', st''⟩) ∧
      (∀ i k' b, (t.setFut j ⟨k, st⟩).futs i ≠ some ⟨k', .creating (.ready b)⟩) := by
    intro t j k st ht hk hst
    constructor
    · intro i k' st' hf
      by_cases hij : i = j
      · subst hij; exact ⟨st, by simp [Reg.setFut, hk _ _ hf]⟩
      · exact ⟨st', by simp [Reg.setFut, hij, ht, hf]⟩
    · intro i k' b
      by_cases hij : i = j
      · intro he
        simp only [Reg.setFut, hij, if_true, Option.some.injEq, Fut.mk.injEq] at he
        exact hst b he.2
      · simp only [Reg.setFut, hij, if_false, ht]; exact hc i k' b
  have kindEq : ∀ {j k st}, s.futs j = some ⟨k, st⟩ → ∀ k' st', s.futs j = some ⟨k', st'⟩ → k' = k := by
    intro j k st h1 k' st' h2
    rw [h1] at h2; simp only [Option.some.injEq, Fut.mk.injEq] at h2; exact h2.1.symm
  cases op with
  | create k n =>
    simp only [Reg.step, Option.some.injEq, Prod.mk.injEq] at h
    obtain ⟨rfl, rfl⟩ := h
    have hn : ∀ k' st', s.futs s.nextId = some ⟨k', st'⟩ → k' = k := by
      intro k' st' hh; rw [hi.fresh _ (Nat.le_refl _)] at hh; cases hh
    unfold Reg.create
    split
    · have hh := set { s with nextId := s.nextId + 1, wakes := s.wakes ++ ((Sub.pending false n : Repo.Subs.Sub R).cancelEffect k s.nextId true).1, unwants := s.unwants ++ ((Sub.pending false n : Repo.Subs.Sub R).cancelEffect k s.nextId true).2 } s.nextId k (.creating .cancelled) rfl hn (by simp)
      exact ⟨hh.1, fun k i r hg => Or.inl hg, hh.2⟩
    · have hh := set { s with nextId := s.nextId + 1 } s.nextId k (.creating (.pending false n)) rfl hn (by simp)
      exact ⟨hh.1, fun k i r hg => Or.inl hg, hh.2⟩
  | insert j =>
    simp only [Reg.step, Reg.insert] at h
    split at h
    · rename_i k sub hj
      simp only [Option.map_some, Option.some.injEq, Prod.mk.injEq] at h
      obtain ⟨rfl, rfl⟩ := h
      have hh := set { s with subs := AMap.set s.subs (k, j) sub } j k (.live false) rfl (kindEq hj) (by simp)
      refine ⟨hh.1, ?_, hh.2⟩
      intro k' i r hg
      simp only [Reg.setFut, AMap.get_set] at hg
      split at hg
      · simp only [Option.some.injEq] at hg
        subst hg; exact absurd hj (hc _ _ _)
      · exact Or.inl hg
    · cases h
  | finish k r =>
    simp only [Reg.step, Option.some.injEq] at h
    have h1 : s' = (s.finish debug k r).1 := by rw [h]
    have hfu : (s.finish debug k r).1.futs = s.futs := by
      unfold Reg.finish
      split
      · simp only; split <;> rfl
      · rfl
    refine ⟨fun i k st hf => ⟨st, by rw [h1, hfu]; exact hf⟩, ?_, by rw [h1, hfu]; exact hc⟩
    intro k' i r' hg
    rw [h1, sub_finish] at hg
    cases hgs : AMap.get s.subs (k', i) with
    | none => rw [hgs] at hg; cases hg
    | some x =>
      rw [hgs] at hg
      cases x with
      | pending w n =>
        simp only at hg
        split at hg
        · rename_i hk
          simp only [Option.some.injEq, Sub.ready.injEq] at hg
          right; rw [hk, hg]
        · cases hg
      | ready r0 => left; exact hg
      | cancelled => cases hg
  | poll j =>
    simp only [Reg.step, Reg.poll] at h
    split at h
    · rename_i k c hj
      split at h
      · simp only [Option.some.injEq, Prod.mk.injEq] at h; obtain ⟨rfl, rfl⟩ := h
        exact ⟨fun i k st hf => ⟨st, hf⟩, fun _ _ _ hg => Or.inl hg, hc⟩
      · simp only [Option.some.injEq, Prod.mk.injEq] at h; obtain ⟨rfl, rfl⟩ := h
        refine ⟨fun i k st hf => ⟨st, hf⟩, ?_, hc⟩
        intro k' i r hg
        simp only [AMap.get_set] at hg
        split at hg
        · cases hg
        · exact Or.inl hg
      all_goals
        simp only [Option.some.injEq, Prod.mk.injEq] at h; obtain ⟨rfl, rfl⟩ := h
        have hh := set { s with subs := AMap.erase s.subs (k, j) } j k
          (.live (!hasKind (AMap.erase s.subs (k, j)) k)) rfl (kindEq hj) (by simp)
        refine ⟨hh.1, ?_, hh.2⟩
        intro k' i r hg
        simp only [Reg.setFut, AMap.get_erase] at hg
        split at hg
        · cases hg
        · exact Or.inl hg
    · cases h
  | dropLocked j =>
    simp only [Reg.step, Reg.dropLocked] at h
    split at h
    · rename_i k c hj
      split at h
      · simp only [Option.map_some, Option.some.injEq, Prod.mk.injEq] at h; obtain ⟨rfl, rfl⟩ := h
        have hh := set s j k .gone rfl (kindEq hj) (by simp)
        exact ⟨hh.1, fun _ _ _ hg => Or.inl hg, hh.2⟩
      · split at h
        · simp only [Option.map_some, Option.some.injEq, Prod.mk.injEq] at h; obtain ⟨rfl, rfl⟩ := h
          have hh := set { s with subs := AMap.erase s.subs (k, j) } j k
            (.dropping (AMap.get s.subs (k, j)) (!hasKind (AMap.erase s.subs (k, j)) k)) rfl (kindEq hj) (by simp)
          refine ⟨hh.1, ?_, hh.2⟩
          intro k' i r hg
          simp only [Reg.setFut, AMap.get_erase] at hg
          split at hg
          · cases hg
          · exact Or.inl hg
        · simp only [Option.map_some, Option.some.injEq, Prod.mk.injEq] at h; obtain ⟨rfl, rfl⟩ := h
          have hh := set s j k (.dropping none false) rfl (kindEq hj) (by simp)
          exact ⟨hh.1, fun _ _ _ hg => Or.inl hg, hh.2⟩
    · cases h
  | dropNotify j =>
    simp only [Reg.step, Reg.dropNotify] at h
    split at h
    · rename_i k sub l hj
      simp only [Option.map_some, Option.some.injEq, Prod.mk.injEq] at h; obtain ⟨rfl, rfl⟩ := h
      refine ⟨?_, fun _ _ _ hg => Or.inl hg, ?_⟩
      · exact (set (Reg.mk s.subs s.shut s.nextId s.futs s.taken _ _) j k .gone rfl (kindEq hj) (by simp)).1
      · exact (set (Reg.mk s.subs s.shut s.nextId s.futs s.taken _ _) j k .gone rfl (kindEq hj) (by simp)).2
    · cases h
  | shutFlag =>
    simp only [Reg.step, Reg.shutFlag] at h
    split at h
    · cases h
    · simp only [Option.map_some, Option.some.injEq, Prod.mk.injEq] at h; obtain ⟨rfl, rfl⟩ := h
      exact ⟨fun i k st hf => ⟨st, hf⟩, fun _ _ _ hg => Or.inl hg, hc⟩
  | shutTake =>
    simp only [Reg.step, Option.some.injEq, Prod.mk.injEq] at h
    obtain ⟨rfl, rfl⟩ := h
    exact ⟨fun i k st hf => ⟨st, hf⟩, (by intro k i r hg; cases hg), hc⟩
  | shutCancel k j =>
    simp only [Reg.step, Reg.shutCancel] at h
    split at h
    · cases h
    · simp only [Option.map_some, Option.some.injEq, Prod.mk.injEq] at h; obtain ⟨rfl, rfl⟩ := h
      exact ⟨fun i k st hf => ⟨st, hf⟩, fun _ _ _ hg => Or.inl hg, hc⟩

theorem GetInv.mono {P Q : Block → Prop} (h : ∀ b, P b → Q b) {s : State} (hi : GetInv P s) : GetInv Q s :=
  ⟨hi.reg, fun m c b hg => ⟨(hi.store m c b hg).1, h _ (hi.store m c b hg).2⟩,
    fun k i b hg => ⟨(hi.ready k i b hg).1, h _ (hi.ready k i b hg).2⟩, hi.creating,
    fun b hb => h _ (hi.put b hb), hi.wait, fun c b hd => ⟨(hi.done c b hd).1, h _ (hi.done c b hd).2⟩⟩

/-- A registry step under the tasks. -/
theorem GetInv.regStep {P : Block → Prop} {s : State} (hi : GetInv P s) {debug : Bool} {op : Op Cid Block}
    {reg : Reg Cid Block} {out : Out Block} (h : s.reg.step debug op = some (reg, out))
    (hp : ∀ k b, op = .finish k b → b.cid = k ∧ P b) : GetInv P { s with reg := reg } := by
  obtain ⟨h1, h2, h3⟩ := reg_step_facts h hi.reg hi.creating
  refine ⟨hi.reg.step h, hi.store, ?_, h3, hi.put, ?_, hi.done⟩
  · intro k i b hg
    rcases h2 k i b hg with h | h
    · exact hi.ready k i b h
    · exact hp k b h
  · intro c i hm
    obtain ⟨st, hst⟩ := hi.wait c i hm
    exact h1 i c st hst

/-- Changing a task. -/
theorem GetInv.setTask {P : Block → Prop} {s : State} (hi : GetInv P s) (j : Nat) (t : Task)
    (h1 : ∀ b, t = .putStart b ∨ t = .putStored b → P b)
    (h2 : ∀ c i, t = .getWaiting c i ∨ t = .getCreating c i → ∃ st, s.reg.futs i = some ⟨c, st⟩)
    (h3 : ∀ c b, t = .getDone c (some b) → b.cid.mh = c.mh ∧ P b) :
    GetInv P { s with tasks := s.tasks.set j t } := by
  have key : ∀ x, x ∈ s.tasks.set j t → x ∈ s.tasks ∨ x = t := fun x hx => List.mem_or_eq_of_mem_set hx
  refine ⟨hi.reg, hi.store, hi.ready, hi.creating, ?_, ?_, ?_⟩
  · intro b hb
    rcases hb with hb | hb
    · rcases key _ hb with h | h
      · exact hi.put b (Or.inl h)
      · exact h1 b (Or.inl h.symm)
    · rcases key _ hb with h | h
      · exact hi.put b (Or.inr h)
      · exact h1 b (Or.inr h.symm)
  · intro c i hb
    rcases hb with hb | hb
    · rcases key _ hb with h | h
      · exact hi.wait c i (Or.inl h)
      · exact h2 c i (Or.inl h.symm)
    · rcases key _ hb with h | h
      · exact hi.wait c i (Or.inr h)
      · exact h2 c i (Or.inr h.symm)
  · intro c b hb
    rcases key _ hb with h | h
    · exact hi.done c b h
    · exact h3 c b h.symm

theorem GetInv.act {P : Block → Prop} {debug : Bool} {s s' : State} {a : Act} (hi : GetInv P s)
    (hb : ∀ b, a = .spawnPut b → P b) (h : s.act debug a = some s') : GetInv P s' := by
  cases a with
  | spawnGet c =>
    simp only [State.act, Option.some.injEq] at h
    subst h
    refine ⟨hi.reg, hi.store, hi.ready, hi.creating, ?_, ?_, ?_⟩
    · intro b hb; exact hi.put b (by simpa using hb)
    · intro c i hb; exact hi.wait c i (by simpa using hb)
    · intro c b hb; exact hi.done c b (by simpa using hb)
  | spawnPut b0 =>
    simp only [State.act, Option.some.injEq] at h
    subst h
    refine ⟨hi.reg, hi.store, hi.ready, hi.creating, ?_, ?_, ?_⟩
    · intro b h
      simp only [List.mem_append, List.mem_singleton, Task.putStart.injEq] at h
      rcases h with (h | h) | h
      · exact hi.put b (Or.inl h)
      · subst h; exact hb b rfl
      · exact hi.put b (Or.inr (by simpa using h))
    · intro c i hb; exact hi.wait c i (by simpa using hb)
    · intro c b hb; exact hi.done c b (by simpa using hb)
  | remove c =>
    simp only [State.act, Option.some.injEq] at h
    subst h
    refine ⟨hi.reg, ?_, hi.ready, hi.creating, hi.put, hi.wait, hi.done⟩
    intro m c' b hg
    simp only [MemBlocks.remove, AMap.get_erase] at hg
    split at hg
    · cases hg
    · exact hi.store m c' b hg
  | other op =>
    have hne : ∀ k b, op ≠ .finish k b := by
      rintro k b rfl; simp [State.act] at h
    have h' : (s.reg.step debug op).map (fun r => { s with reg := r.1 }) = some s' := by
      cases op <;> first | exact h | exact absurd rfl (hne _ _)
    cases hs : s.reg.step debug op with
    | none => rw [hs] at h'; cases h'
    | some x =>
      obtain ⟨reg, out⟩ := x
      rw [hs] at h'
      simp only [Option.map_some, Option.some.injEq] at h'
      subst h'
      exact hi.regStep hs (fun k b he => absurd he (hne k b))
  | run j =>
    simp only [State.act, GetBlock.State.run] at h
    split at h
    · cases h
    · rename_i t ht
      have hmem : t ∈ s.tasks := List.mem_of_getElem? ht
      cases t with
      | getStart c =>
        simp only at h
        split at h
        · rename_i b hg
          simp only [Option.some.injEq] at h
          subst h
          refine hi.setTask j _ (by simp) (by simp) ?_
          intro c' b' he
          simp only [Task.getDone.injEq, Option.some.injEq] at he
          obtain ⟨rfl, rfl⟩ := he
          simp only [MemBlocks.getBlock, Option.map_eq_some_iff] at hg
          obtain ⟨⟨c0, b0⟩, hg, rfl⟩ := hg
          exact hi.store _ _ _ hg
        · simp only [Option.some.injEq] at h
          subst h
          exact hi.setTask j _ (by simp) (by simp) (by simp)
      | getMissed c =>
        simp only [Option.some.injEq] at h
        subst h
        have h1 := hi.regStep (debug := debug) (op := .create c true) (reg := s.reg.create c true) (out := .nothing)
          rfl (by intro k b he; cases he)
        refine h1.setTask j _ (by simp) ?_ (by simp)
        intro c' i he
        simp only [Task.getCreating.injEq, reduceCtorEq, false_or] at he
        obtain ⟨rfl, rfl⟩ := he
        simp only [Reg.create]
        split
        · exact ⟨_, by simp only [Reg.setFut, if_true]; rfl⟩
        · exact ⟨_, by simp only [Reg.setFut, if_true]; rfl⟩
      | getCreating c i =>
        simp only at h
        split at h
        · cases h
        · rename_i reg hreg
          simp only [Option.some.injEq] at h
          subst h
          have h1 := hi.regStep (debug := debug) (op := .insert i) (reg := reg) (out := .nothing)
            (by simp [Reg.step, hreg]) (by intro k b he; cases he)
          refine h1.setTask j _ (by simp) ?_ (by simp)
          intro c' i' he
          simp only [Task.getWaiting.injEq, reduceCtorEq, or_false] at he
          obtain ⟨rfl, rfl⟩ := he
          exact h1.wait _ _ (Or.inr hmem)
      | getWaiting c i =>
        simp only at h
        have hstep : ∀ {reg out}, s.reg.poll i = some (reg, out) → GetInv P { s with reg := reg } := by
          intro reg out hp
          exact hi.regStep (debug := debug) (op := .poll i) hp (by intro k b he; cases he)
        split at h
        · cases h
        · rename_i reg b hp
          simp only [Option.some.injEq] at h
          subst h
          refine (hstep hp).setTask j _ (by simp) (by simp) ?_
          intro c' b' he
          simp only [Task.getDone.injEq, Option.some.injEq] at he
          obtain ⟨rfl, rfl⟩ := he
          obtain ⟨st, hst⟩ := hi.wait _ _ (Or.inl hmem)
          simp only [Reg.poll, hst] at hp
          cases st with
          | live cc =>
            simp only at hp
            split at hp
            · simp at hp
            · simp at hp
            · simp at hp
            · rename_i r hg
              simp only [Option.some.injEq, Prod.mk.injEq, Out.done.injEq] at hp
              obtain ⟨-, rfl⟩ := hp
              have := hi.ready _ _ _ hg
              exact ⟨by rw [this.1], this.2⟩
          | _ => simp at hp
        · rename_i reg hp
          simp only [Option.some.injEq] at h
          subst h
          exact (hstep hp).setTask j _ (by simp) (by simp) (by simp)
        · rename_i reg out _ _ hp
          simp only [Option.some.injEq] at h
          subst h
          exact hstep hp
      | getDone c r => cases h
      | putStart b =>
        simp only at h
        have hP := hi.put b (Or.inl hmem)
        split at h
        · rename_i store c hput
          simp only [Option.some.injEq] at h
          subst h
          have h1 : GetInv P { s with store := store } := by
            refine ⟨hi.reg, ?_, hi.ready, hi.creating, hi.put, hi.wait, hi.done⟩
            intro m c' b' hg
            unfold MemBlocks.put at hput
            split at hput
            · simp at hput
            · simp only [Prod.mk.injEq] at hput
              obtain ⟨rfl, -, -⟩ := hput
              simp only [AMap.get_set] at hg
              split at hg
              · rename_i hm
                simp only [Option.some.injEq, Prod.mk.injEq] at hg
                obtain ⟨-, rfl⟩ := hg
                exact ⟨hm.symm, hP⟩
              · exact hi.store m c' b' hg
          refine h1.setTask j _ ?_ (by simp) (by simp)
          intro b' he
          simp only [Task.putStored.injEq, reduceCtorEq, false_or] at he
          exact he ▸ hP
        · rename_i store c hput
          simp only [Option.some.injEq] at h
          subst h
          have : store = s.store := by
            unfold MemBlocks.put at hput
            split at hput
            · simp only [Prod.mk.injEq] at hput; exact hput.1.symm
            · simp at hput
          subst this
          exact hi.setTask j _ (by simp) (by simp) (by simp)
      | putStored b =>
        simp only [Option.some.injEq] at h
        subst h
        have h1 := hi.regStep (debug := debug) (op := .finish b.cid b) (reg := (s.reg.finish debug b.cid b).1)
          (out := (s.reg.finish debug b.cid b).2) rfl (by
            intro k b' he
            simp only [Op.finish.injEq] at he
            obtain ⟨rfl, rfl⟩ := he
            exact ⟨rfl, hi.put _ (Or.inr hmem)⟩)
        exact h1.setTask j _ (by simp) (by simp) (by simp)
      | putDone b r => cases h

theorem getInv_acts {debug : Bool} {P : Block → Prop} {as : List Act} {s s' : State} (hi : GetInv P s)
    (hP : ∀ b ∈ putBlocks as, P b) (h : State.acts debug s as = some s') : GetInv P s' := by
  induction as generalizing s with
  | nil => simp only [GetBlock.State.acts, Option.some.injEq] at h; subst h; exact hi
  | cons a as ih =>
    simp only [GetBlock.State.acts] at h
    split at h
    · cases h
    · rename_i s1 h1
      refine ih (hi.act ?_ h1) (fun b hb => hP b ?_) h
      · rintro b rfl; exact hP b (by simp [putBlocks])
      · cases a <;> simp_all [putBlocks]

theorem getInv_init (P : Block → Prop) : GetInv P State.init := by
  refine ⟨SubsInv.init, ?_, ?_, ?_, ?_, ?_, ?_⟩
  · intro m c b h; cases h
  · intro k i b h; cases h
  · intro i k b h; cases h
  · intro b h; simp [GetBlock.State.init] at h
  · intro c i h; simp [GetBlock.State.init] at h
  · intro c b h; simp [GetBlock.State.init] at h

/-! ### C35 -/

/-- **C35**: in every history, what a `get_block` returns is a block that was put, with the hash that was
asked for. -/
theorem C35_get_sound (debug : Bool) (as : List Act) (s : State) (h : State.acts debug State.init as = some s)
    (c : Cid) (b : Block) (hd : Task.getDone c (some b) ∈ s.tasks) : b.cid.mh = c.mh ∧ b ∈ putBlocks as :=
  (getInv_acts (getInv_init (fun b => b ∈ putBlocks as)) (fun _ h => h) h).done c b hd

/-- **C35**: a `put_block` of a new block completes every `get_block` that waits under the same cid: its next
step returns that block. -/
theorem C35_put_wakes_partial (debug : Bool) (as : List Act) (s s1 : State)
    (h : State.acts debug State.init as = some s) (j l i : Nat) (b : Block)
    (hp : s.tasks[l]? = some (.putStored b)) (hg : s.tasks[j]? = some (.getWaiting b.cid i))
    (hw : ∃ w, Waits s.reg b.cid i w) (hr : s.run debug l = some s1) :
    ∃ s2, s1.run debug j = some s2 ∧ s2.tasks[j]? = some (.getDone b.cid (some b)) := by
  have hinv := getInv_acts (getInv_init (fun _ => True)) (fun _ _ => trivial) h
  obtain ⟨w, n, hw⟩ := hw
  simp only [GetBlock.State.run, hp, Option.some.injEq] at hr
  subst hr
  have hjl : j ≠ l := by rintro rfl; rw [hp] at hg; cases hg
  have hsub : AMap.get (s.reg.finish debug b.cid b).1.subs (b.cid, i) = some (.ready b) := by
    rw [sub_finish, hw]; simp
  have hfu := (hinv.reg.step (debug := debug) (op := .finish b.cid b)
    (s' := (s.reg.finish debug b.cid b).1) (out := (s.reg.finish debug b.cid b).2) rfl).owner _ _ _ hsub
  have hpoll : ∃ reg, (s.reg.finish debug b.cid b).1.poll i = some (reg, .done b) := by
    unfold Reg.poll; rw [hfu]; simp only [hsub]; exact ⟨_, rfl⟩
  obtain ⟨reg, hpoll⟩ := hpoll
  have hjt : (s.tasks.set l (.putDone b .newBlock))[j]? = some (.getWaiting b.cid i) := by
    rw [List.getElem?_set_ne (fun h => hjl h.symm)]; exact hg
  have hlt : j < (s.tasks.set l (.putDone b .newBlock)).length := (List.getElem?_eq_some_iff.mp hjt).1
  refine ⟨⟨s.store, reg, (s.tasks.set l (.putDone b .newBlock)).set j (.getDone b.cid (some b))⟩, ?_, ?_⟩
  · simp only [GetBlock.State.run, hjt, hpoll]
  · simp only [List.getElem?_set, hlt, if_true]

/-! ### Examples and witnesses -/

/-- A cid and another one for the same hash. -/
def exWaitCid : Cid := ⟨.v0, codecDagPb, mhSha256, [1]⟩
def exWaitCid1 : Cid := ⟨.v1, codecDagPb, mhSha256, [1]⟩

/-- The ordinary course: get, miss, wait, put, return. -/
example : (State.acts true State.init [.spawnGet exWaitCid, .run 0, .run 0, .run 0, .run 0,
      .spawnPut ⟨exWaitCid, [5]⟩, .run 1, .run 1, .run 0]).map GetBlock.State.tasks =
    some [.getDone exWaitCid (some ⟨exWaitCid, [5]⟩), .putDone ⟨exWaitCid, [5]⟩ .newBlock] := by decide

/-- The race noted in the source: the block arrives between looking it up and subscribing. The call waits
although the block is in the store, and putting it again does not help. -/
theorem C35_lost_wakeup : ∃ s, State.acts true State.init [.spawnGet exWaitCid, .run 0,
      .spawnPut ⟨exWaitCid, [5]⟩, .run 1, .run 1, .run 0, .run 0, .run 0,
      .spawnPut ⟨exWaitCid, [5]⟩, .run 2] = some s ∧
    s.tasks = [.getWaiting exWaitCid 0, .putDone ⟨exWaitCid, [5]⟩ .newBlock, .putDone ⟨exWaitCid, [5]⟩ .existed] ∧
    s.store.contains exWaitCid = true ∧ Waits s.reg exWaitCid 0 true :=
  ⟨_, rfl, by decide, by decide, true, by decide⟩

/-- The store compares hashes, the registry cids: a waiter for the version 1 cid is not completed by a put
under the version 0 cid, although a get that starts afterwards finds the block. -/
theorem C35_other_version : ∃ s, State.acts true State.init [.spawnGet exWaitCid1, .run 0, .run 0, .run 0, .run 0,
      .spawnPut ⟨exWaitCid, [5]⟩, .run 1, .run 1, .run 0, .spawnGet exWaitCid1, .run 2] = some s ∧
    s.tasks = [.getWaiting exWaitCid1 0, .putDone ⟨exWaitCid, [5]⟩ .newBlock,
      .getDone exWaitCid1 (some ⟨exWaitCid, [5]⟩)] :=
  ⟨_, rfl, by decide⟩

end Verif.Props
