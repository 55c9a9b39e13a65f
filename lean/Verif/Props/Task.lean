import Verif.Ipfs.Task
import Verif.Base.Snoc
import Mathlib.Tactic.SplitIfs

/-!
# C79: the background task does what it is asked, in order, and never sleeps while there is something to do

Specification: `asked` and `told` are what callers and the repo sent in a history, `answered` and `heard` what the task
handled. `Idle` says that no source has anything. A task is at rest if it is gone, or asleep and nobody woke it.
-/

namespace Verif.Props

open Verif Verif.Ipfs

variable {S F R : Type}

/-- The calls of a history. -/
def askedOf : List (BgEv S F R) → List F
  | [] => []
  | .call m :: es => m :: askedOf es
  | _ :: es => askedOf es

/-- What the repo told in a history. -/
def toldOf : List (BgEv S F R) → List R
  | [] => []
  | .told e :: es => e :: toldOf es
  | _ :: es => toldOf es

/-- What came from the network, or was caused by the task itself, in a history. -/
def causedOf : List (BgEv S F R) → Nat
  | [] => 0
  | .net _ :: es => causedOf es + 1
  | .task w :: es => causedOf es + w.length
  | _ :: es => causedOf es

/-- The calls that were handled. -/
def answeredOf : List (Handled S F R) → List F
  | [] => []
  | .facade m :: l => m :: answeredOf l
  | _ :: l => answeredOf l

/-- The events of the repo that were handled. -/
def heardOf : List (Handled S F R) → List R
  | [] => []
  | .repo e :: l => e :: heardOf l
  | _ :: l => heardOf l

/-- No more steps until something happens. -/
def AtRest (b : Bg S F R) : Prop := b.at' = .gone ∨ (b.at' = .asleep ∧ b.woken = false)

/-- The whole history consists of steps of the task. -/
def Alone : List (BgEv S F R) → Prop
  | [] => True
  | .task _ :: es => Alone es
  | _ :: _ => False

theorem answeredOf_append (l l' : List (Handled S F R)) : answeredOf (l ++ l') = answeredOf l ++ answeredOf l' := by
  induction l with
  | nil => rfl
  | cons a l ih => cases a <;> simp [answeredOf, ih]

theorem heardOf_append (l l' : List (Handled S F R)) : heardOf (l ++ l') = heardOf l ++ heardOf l' := by
  induction l with
  | nil => rfl
  | cons a l ih => cases a <;> simp [heardOf, ih]

theorem bgRun_append (isExit : F → Bool) (es es' : List (BgEv S F R)) : ∀ b : Bg S F R,
    Bg.run isExit b (es ++ es') = (Bg.run isExit b es).bind (fun b' => Bg.run isExit b' es') := by
  induction es with
  | nil => intro b; rfl
  | cons e es ih =>
    intro b
    simp only [List.cons_append, Bg.run]
    cases b.step isExit e with
    | none => rfl
    | some b' => simp only [Option.bind_some]; exact ih b'

/-- An invariant that every step keeps holds after every history. -/
theorem bgRun_inv (isExit : F → Bool) (P : Bg S F R → Prop) (hstep : ∀ b e b', P b → b.step isExit e = some b' → P b') :
    ∀ (es : List (BgEv S F R)) (b b' : Bg S F R), P b → Bg.run isExit b es = some b' → P b' := by
  intro es
  induction es with
  | nil => intro b b' hp h; simp only [Bg.run, Option.some.injEq] at h; exact h ▸ hp
  | cons e es ih =>
    intro b b' hp h
    simp only [Bg.run] at h
    cases hs : b.step isExit e with
    | none => rw [hs] at h; cases h
    | some b1 => rw [hs] at h; exact ih b1 b' (hstep b e b1 hp hs) h

/-- What holds between steps: a waker is only kept for a source that has nothing, and past a source its waker is kept or used. -/
structure TaskInv (b : Bg S F R) : Prop where
  f : b.facade.waker = true → b.facade.queue = [] ∧ b.facade.closed = false
  r : b.repo.waker = true → b.repo.queue = [] ∧ b.repo.closed = false
  pf : b.at' = .repo ∨ b.at' = .swarm true ∨ b.at' = .asleep → b.facade.waker = true ∨ b.woken = true
  pr : b.at' = .swarm true ∨ b.at' = .asleep → b.repo.waker = true ∨ b.woken = true ∨ (b.repo.queue = [] ∧ b.repo.closed = true)
  ps : b.at' = .asleep → (b.swarm = [] ∧ b.swarmWaker = true) ∨ b.woken = true
  pg : b.at' = .gone → b.facade.queue = [] ∧ b.repo.queue = []

theorem taskInv_init (swarm : List S) : TaskInv (Bg.init S F R swarm) := by
  constructor <;> simp [Bg.init]

theorem taskInv_step (isExit : F → Bool) (b : Bg S F R) (e : BgEv S F R) (b' : Bg S F R) (hp : TaskInv b)
    (h : b.step isExit e = some b') : TaskInv b' := by
  obtain ⟨f, r, pf, pr, ps, pg⟩ := hp
  obtain ⟨at', woken, swarm, sw, ⟨fq, fc, fw⟩, ⟨rq, rc, rw'⟩, log, failed⟩ := b
  simp only at f r pf pr ps pg
  cases e with
  | task work =>
    cases at' with
    | asleep =>
      simp only [Bg.step, Bg.task] at h
      split_ifs at h
      cases h
      constructor <;> simp_all
    | swarm done =>
      simp only [Bg.step, Bg.task, Bg.pollSwarm, Option.some.injEq] at h
      cases swarm <;> cases done <;> simp only [if_true, if_false, Bool.false_eq_true] at h <;> subst h <;> constructor <;> simp_all
    | facade =>
      simp only [Bg.step, Bg.task, Bg.pollFacade, Option.some.injEq] at h
      cases fq with
      | cons m q =>
        simp only at h
        split_ifs at h <;> subst h <;> constructor <;> simp_all [Bg.finish]
      | nil =>
        simp only at h
        split_ifs at h <;> subst h <;> constructor <;> simp_all [Bg.finish]
    | repo =>
      simp only [Bg.step, Bg.task, Bg.pollRepo, Option.some.injEq] at h
      cases rq with
      | cons m q => simp only at h; subst h; constructor <;> simp_all
      | nil =>
        simp only at h
        split_ifs at h <;> subst h <;> constructor <;> simp_all
    | gone => simp [Bg.step, Bg.task] at h
  | net s =>
    simp only [Bg.step] at h
    split_ifs at h
    cases h
    constructor <;> simp_all <;> grind
  | call m =>
    simp only [Bg.step] at h
    split_ifs at h <;> cases h <;> constructor <;> simp_all <;> grind
  | dropFacade =>
    simp only [Bg.step] at h
    cases h
    constructor <;> simp_all <;> grind
  | told s =>
    simp only [Bg.step] at h
    split_ifs at h <;> cases h <;> constructor <;> simp_all <;> grind
  | dropRepo =>
    simp only [Bg.step] at h
    cases h
    constructor <;> simp_all <;> grind
  | wake =>
    simp only [Bg.step] at h
    split_ifs at h
    cases h
    constructor <;> simp_all

theorem taskInv_run (isExit : F → Bool) (swarm : List S) (es : List (BgEv S F R)) (b : Bg S F R)
    (h : Bg.run isExit (Bg.init S F R swarm) es = some b) : TaskInv b :=
  bgRun_inv isExit TaskInv (taskInv_step isExit) es _ b (taskInv_init swarm) h

/-- C79: whatever happened, if the task sleeps and nobody woke it then the swarm has nothing to report, nobody has called,
the repo has told nothing, and whichever of them has something next wakes it. -/
theorem C79_sleeps (isExit : F → Bool) (swarm : List S) (es : List (BgEv S F R)) (b : Bg S F R)
    (h : Bg.run isExit (Bg.init S F R swarm) es = some b) (ha : b.at' = .asleep) (hw : b.woken = false) :
    b.swarm = [] ∧ b.facade.queue = [] ∧ b.repo.queue = [] ∧ b.facade.closed = false ∧
    (∀ e b', b.step isExit (.net e) = some b' → b'.woken = true) ∧
    (∀ m b', b.step isExit (.call m) = some b' → b'.woken = true) ∧
    (∀ b', b.step isExit .dropFacade = some b' → b'.woken = true) ∧
    (∀ e b', b.step isExit (.told e) = some b' → b'.woken = true) ∧
    (b.repo.closed = false → ∀ b', b.step isExit .dropRepo = some b' → b'.woken = true) := by
  obtain ⟨f, r, pf, pr, ps, pg⟩ := taskInv_run isExit swarm es b h
  have hs := (ps ha).resolve_right (by simp [hw])
  have hf := (pf (.inr (.inr ha))).resolve_right (by simp [hw])
  have hr := pr (.inr ha)
  simp only [hw, Bool.false_eq_true, false_or] at hr
  refine ⟨hs.1, (f hf).1, ?_, (f hf).2, ?_, ?_, ?_, ?_, ?_⟩
  · rcases hr with hr | hr
    · exact (r hr).1
    · exact hr.1
  · intro e b' hb
    simp only [Bg.step, ha, reduceCtorEq, if_false, Option.some.injEq] at hb
    subst hb; simp [hs.2]
  · intro m b' hb
    simp only [Bg.step, ha, (f hf).2, reduceCtorEq, Bool.false_eq_true, if_false, Option.some.injEq] at hb
    subst hb; simp [hf]
  · intro b' hb
    simp only [Bg.step, Option.some.injEq] at hb
    subst hb; simp [hf]
  · intro e b' hb
    simp only [Bg.step, ha] at hb
    rcases hr with hr | hr
    · simp only [(r hr).2, reduceCtorEq, Bool.false_eq_true, if_false, Option.some.injEq] at hb
      subst hb; simp [hr]
    · simp [hr.2] at hb
  · intro hc b' hb
    simp only [Bg.step, Option.some.injEq] at hb
    rcases hr with hr | hr
    · subst hb; simp [hr]
    · rw [hr.2] at hc; cases hc

/-- Calls are numbers; 0 is `Exit`. -/
def zeroExits (n : Nat) : Bool := n == 0

/-- A history: a call comes while the task is busy with the repo; it is handled before the task sleeps. -/
def busyHistory : List (BgEv Nat Nat Nat) :=
  [.task [], .task [], .task [], .told 5, .call 7, .task [3], .task [], .task [], .task [], .task [], .task [], .task []]

/-- What is to be seen of a state. -/
structure BgView where
  at' : TaskAt
  woken : Bool
  answered : List Nat
  waiting : List Nat
  heard : List Nat
  total : Nat
  failed : List Nat
deriving DecidableEq

/-- What is to be seen of a state. -/
def bgView (b : Bg Nat Nat Nat) : BgView :=
  ⟨b.at', b.woken, answeredOf b.log, b.facade.queue, heardOf b.log, b.log.length, b.failed⟩

example : (Bg.run zeroExits (Bg.init Nat Nat Nat [1]) (busyHistory ++ [.task [], .task []])).map bgView =
    some ⟨.asleep, false, [7], [], [5], 4, []⟩ := by decide +kernel

/-- What became of calls: handled, waiting, failed; nothing fails while the task is there. -/
theorem bgStep_calls (isExit : F → Bool) (b : Bg S F R) (e : BgEv S F R) (b' : Bg S F R)
    (hf : b.at' ≠ .gone → b.failed = []) (hg : b.at' = .gone → b.facade.queue = []) (h : b.step isExit e = some b') :
    answeredOf b'.log ++ b'.facade.queue ++ b'.failed = answeredOf b.log ++ b.facade.queue ++ b.failed ++ askedOf [e] ∧
    (b'.at' ≠ .gone → b'.failed = []) ∧ (b'.at' = .gone → b'.facade.queue = []) := by
  obtain ⟨at', woken, swarm, sw, ⟨fq, fc, fw⟩, ⟨rq, rc, rw'⟩, log, failed⟩ := b
  simp only at hf hg
  cases e with
  | task work =>
    cases at' with
    | asleep =>
      simp only [Bg.step, Bg.task] at h
      split_ifs at h
      cases h
      simp_all [askedOf]
    | swarm done =>
      simp only [Bg.step, Bg.task, Bg.pollSwarm, Option.some.injEq] at h
      cases swarm <;> cases done <;> simp only [if_true, if_false, Bool.false_eq_true] at h <;> subst h <;>
        simp_all [askedOf, answeredOf_append, answeredOf]
    | facade =>
      simp only [Bg.step, Bg.task, Bg.pollFacade, Option.some.injEq] at h
      cases fq <;> simp only at h <;> split_ifs at h <;> subst h <;> simp_all [Bg.finish, askedOf, answeredOf_append, answeredOf]
    | repo =>
      simp only [Bg.step, Bg.task, Bg.pollRepo, Option.some.injEq] at h
      cases rq <;> simp only at h <;> (try split_ifs at h) <;> subst h <;> simp_all [askedOf, answeredOf_append, answeredOf]
    | gone => simp [Bg.step, Bg.task] at h
  | call m =>
    simp only [Bg.step] at h
    split_ifs at h <;> cases h <;> simp_all [askedOf]
  | _ =>
    simp only [Bg.step] at h
    (try split_ifs at h) <;> cases h <;> simp_all [askedOf]

theorem askedOf_append (es es' : List (BgEv S F R)) : askedOf (es ++ es') = askedOf es ++ askedOf es' := by
  induction es with
  | nil => rfl
  | cons a l ih => cases a <;> simp [askedOf, ih]

theorem toldOf_append (es es' : List (BgEv S F R)) : toldOf (es ++ es') = toldOf es ++ toldOf es' := by
  induction es with
  | nil => rfl
  | cons a l ih => cases a <;> simp [toldOf, ih]

/-- An invariant that knows the history. -/
theorem bgRun_hist (isExit : F → Bool) (P : List (BgEv S F R) → Bg S F R → Prop) (b0 : Bg S F R) (h0 : P [] b0)
    (hstep : ∀ es b e b', P es b → b.step isExit e = some b' → P (es ++ [e]) b') (es : List (BgEv S F R)) :
    ∀ b, Bg.run isExit b0 es = some b → P es b := by
  induction es using snocInd with
  | nil => intro b h; simp only [Bg.run, Option.some.injEq] at h; exact h ▸ h0
  | snoc es e ih =>
    intro b h
    rw [bgRun_append] at h
    cases hs : Bg.run isExit b0 es with
    | none => rw [hs] at h; cases h
    | some b1 =>
      rw [hs] at h
      simp only [Option.bind_some, Bg.run] at h
      cases hs2 : b1.step isExit e with
      | none => rw [hs2] at h; cases h
      | some b2 =>
        rw [hs2] at h
        simp only [Option.bind_some, Option.some.injEq] at h
        exact h ▸ hstep es b1 e b2 (ih b1 hs) hs2

/-- C79: in every history the calls that were handled, those that wait and those that failed are all calls that were made, each
once and in the order they were made in; as long as the task is there none has failed, and when it is gone none waits. -/
theorem C79_calls (isExit : F → Bool) (swarm : List S) (es : List (BgEv S F R)) (b : Bg S F R)
    (h : Bg.run isExit (Bg.init S F R swarm) es = some b) :
    answeredOf b.log ++ b.facade.queue ++ b.failed = askedOf es ∧ (b.at' ≠ .gone → b.failed = []) ∧
    (b.at' = .gone → b.facade.queue = []) := by
  refine bgRun_hist isExit (fun es b => answeredOf b.log ++ b.facade.queue ++ b.failed = askedOf es ∧ (b.at' ≠ .gone → b.failed = []) ∧
    (b.at' = .gone → b.facade.queue = [])) _ (by simp [Bg.init, answeredOf, askedOf]) ?_ es b h
  intro es b e b' hp hs
  obtain ⟨h1, h2⟩ := bgStep_calls isExit b e b' hp.2.1 hp.2.2 hs
  exact ⟨by rw [h1, hp.1, askedOf_append], h2⟩

example : (Bg.run zeroExits (Bg.init Nat Nat Nat [1]) [.call 7, .call 0, .call 8, .task [], .task [], .task [], .task [], .task [], .call 9]).map bgView =
    some ⟨.gone, false, [7, 0], [], [], 3, [8, 9]⟩ := by decide +kernel

/-- C79: what the repo tells is heard in order, each event once: as long as the task is there everything told was heard or
waits; when it is gone, what was heard is what was told up to some event. -/
theorem C79_told (isExit : F → Bool) (swarm : List S) (es : List (BgEv S F R)) (b : Bg S F R)
    (h : Bg.run isExit (Bg.init S F R swarm) es = some b) :
    (b.at' ≠ .gone → heardOf b.log ++ b.repo.queue = toldOf es) ∧ (∃ lost, heardOf b.log ++ lost = toldOf es) := by
  have key := bgRun_hist isExit (fun es b => (b.at' ≠ .gone → heardOf b.log ++ b.repo.queue = toldOf es) ∧
    (∃ lost, heardOf b.log ++ lost = toldOf es)) (Bg.init S F R swarm) (by simp [Bg.init, heardOf, toldOf]) ?_ es b h
  · exact key
  intro es b e b' hp hs
  obtain ⟨hp, lost, hl⟩ := hp
  obtain ⟨at', woken, swarm, sw, ⟨fq, fc, fw⟩, ⟨rq, rc, rw'⟩, log, failed⟩ := b
  simp only at hp hl
  rw [toldOf_append]
  have hend : b'.at' = .gone → heardOf b'.log = heardOf log →
      (b'.at' ≠ .gone → heardOf b'.log ++ b'.repo.queue = toldOf es ++ toldOf [e]) ∧ ∃ lost, heardOf b'.log ++ lost = toldOf es ++ toldOf [e] :=
    fun hg hlog => ⟨fun hn => absurd hg hn, lost ++ toldOf [e], by rw [hlog, ← hl, List.append_assoc]⟩
  have hgo : heardOf b'.log ++ b'.repo.queue = toldOf es ++ toldOf [e] →
      (b'.at' ≠ .gone → heardOf b'.log ++ b'.repo.queue = toldOf es ++ toldOf [e]) ∧ ∃ lost, heardOf b'.log ++ lost = toldOf es ++ toldOf [e] :=
    fun hh => ⟨fun _ => hh, b'.repo.queue, hh⟩
  cases e with
  | task work =>
    cases at' with
    | asleep =>
      simp only [Bg.step, Bg.task] at hs
      split_ifs at hs
      cases hs
      exact hgo (by simpa [toldOf] using hp (by simp))
    | swarm done =>
      simp only [Bg.step, Bg.task, Bg.pollSwarm, Option.some.injEq] at hs
      cases swarm <;> cases done <;> simp only [if_true, if_false, Bool.false_eq_true] at hs <;> subst hs <;>
        exact hgo (by simpa [toldOf, heardOf_append, heardOf] using hp (by simp))
    | facade =>
      simp only [Bg.step, Bg.task, Bg.pollFacade, Option.some.injEq] at hs
      cases fq <;> simp only at hs <;> split_ifs at hs <;> subst hs
      · exact hend rfl rfl
      · exact hgo (by simpa [toldOf] using hp (by simp))
      · exact hend rfl (by simp [Bg.finish, heardOf_append, heardOf])
      · exact hgo (by simpa [toldOf, heardOf_append, heardOf] using hp (by simp))
    | repo =>
      simp only [Bg.step, Bg.task, Bg.pollRepo, Option.some.injEq] at hs
      cases rq <;> simp only at hs <;> (try split_ifs at hs) <;> subst hs <;>
        exact hgo (by simpa [toldOf, heardOf_append, heardOf] using hp (by simp))
    | gone => simp [Bg.step, Bg.task] at hs
  | told t =>
    simp only [Bg.step] at hs
    split_ifs at hs with h1 h2 <;> cases hs
    · exact hend h2 rfl
    · exact hgo (by simp only [← hp h2, List.append_assoc, toldOf])
  | _ =>
    simp only [Bg.step] at hs
    (try split_ifs at hs) <;> cases hs <;>
    · by_cases hg : at' = .gone
      · exact hend hg rfl
      · exact hgo (by simp only [← hp hg, toldOf, List.append_nil])

example : (Bg.run zeroExits (Bg.init Nat Nat Nat [1]) (busyHistory ++ [.task [], .task [], .told 6, .call 0, .task [], .task [], .task []])).map bgView =
    some ⟨.gone, false, [7, 0], [], [5], 5, []⟩ := by decide +kernel

/-- What the swarm reported and was handled. -/
def reportedOf : List (Handled S F R) → List S
  | [] => []
  | .swarm e :: l => e :: reportedOf l
  | _ :: l => reportedOf l

theorem reportedOf_append (l l' : List (Handled S F R)) : reportedOf (l ++ l') = reportedOf l ++ reportedOf l' := by
  induction l with
  | nil => rfl
  | cons a l ih => cases a <;> simp [reportedOf, ih]

/-- What came from the network, and what the task made the swarm do whenever it handled something, in the order of the history. -/
def causesFrom (isExit : F → Bool) : Bg S F R → List (BgEv S F R) → List S
  | _, [] => []
  | b, e :: es =>
    match b.step isExit e with
    | none => []
    | some b' =>
      (match e with
       | .net s => [s]
       | .task work => if b'.log.length = b.log.length then [] else work
       | _ => []) ++ causesFrom isExit b' es

/-- C79: as long as the task is there, what the swarm reported and what it still has is what it had, what came from the network and what
the task caused, each once and in order. -/
theorem C79_reports (isExit : F → Bool) (es : List (BgEv S F R)) : ∀ b b' : Bg S F R, Bg.run isExit b es = some b' → b'.at' ≠ .gone →
    reportedOf b'.log ++ b'.swarm = reportedOf b.log ++ b.swarm ++ causesFrom isExit b es := by
  induction es with
  | nil => intro b b' h _; simp only [Bg.run, Option.some.injEq] at h; subst h; simp [causesFrom]
  | cons e es ih =>
    intro b b' h hn
    simp only [Bg.run] at h
    cases hs : b.step isExit e with
    | none => rw [hs] at h; cases h
    | some b1 =>
      rw [hs] at h
      simp only [Option.bind_some] at h
      rw [ih b1 b' h hn]
      have hn1 : b1.at' ≠ .gone := by
        intro hg
        have hover := bgRun_inv isExit (fun x => x.at' = .gone) (fun x ev x' hx hst => by
          cases ev with
          | task w => simp [Bg.step, Bg.task, hx] at hst
          | _ =>
            simp only [Bg.step, hx] at hst
            (try split_ifs at hst) <;> cases hst <;> simp [hx]) es b1 b' hg h
        exact hn hover
      simp only [causesFrom, hs, ← List.append_assoc]
      congr 1
      obtain ⟨at', woken, swarm, sw, ⟨fq, fc, fw⟩, ⟨rq, rc, rw'⟩, log, failed⟩ := b
      cases e with
      | task work =>
        cases at' with
        | asleep =>
          simp only [Bg.step, Bg.task] at hs
          split_ifs at hs
          cases hs
          simp
        | swarm done =>
          simp only [Bg.step, Bg.task, Bg.pollSwarm, Option.some.injEq] at hs
          cases swarm <;> cases done <;> simp only [if_true, if_false, Bool.false_eq_true] at hs <;> subst hs <;>
            simp [reportedOf_append, reportedOf]
        | facade =>
          simp only [Bg.step, Bg.task, Bg.pollFacade, Option.some.injEq] at hs
          cases fq <;> simp only at hs <;> split_ifs at hs <;> subst hs <;> simp_all [Bg.finish, reportedOf_append, reportedOf]
        | repo =>
          simp only [Bg.step, Bg.task, Bg.pollRepo, Option.some.injEq] at hs
          cases rq <;> simp only at hs <;> (try split_ifs at hs) <;> subst hs <;> simp [reportedOf_append, reportedOf]
        | gone => simp [Bg.step, Bg.task] at hs
      | _ =>
        simp only [Bg.step] at hs
        (try split_ifs at hs) <;> cases hs <;> simp

/-- Report 1 was there; 4 came from the network, 3 was caused by what was done about the call. -/
example : (Bg.run zeroExits (Bg.init Nat Nat Nat [1]) [.call 7, .task [], .task [], .task [], .net 4, .task [3]]).map
      (fun b => (reportedOf b.log, b.swarm)) = some ([1], [4, 3]) ∧
    causesFrom zeroExits (Bg.init Nat Nat Nat [1]) [.call 7, .task [], .task [], .task [], .net 4, .task [3]] = [4, 3] := by decide +kernel

/-- C79: the task has a next step exactly when it is not at rest. -/
theorem C79_runs (isExit : F → Bool) (b : Bg S F R) (work : List S) : (b.step isExit (.task work)).isSome = true ↔ ¬ AtRest b := by
  obtain ⟨at', woken, swarm, sw, ⟨fq, fc, fw⟩, ⟨rq, rc, rw'⟩, log, failed⟩ := b
  cases at' <;> cases woken <;> simp [Bg.step, Bg.task, AtRest]

example : AtRest (⟨.asleep, false, [], true, ⟨[], false, true⟩, ⟨[], false, true⟩, [], []⟩ : Bg Nat Nat Nat) := .inr ⟨rfl, rfl⟩

example : ¬ AtRest (Bg.init Nat Nat Nat []) := by simp [AtRest, Bg.init]

/-- How many steps the task can take at most. -/
def taskFuel (b : Bg S F R) : Nat :=
  5 * (b.swarm.length + b.facade.queue.length + b.repo.queue.length) + (if b.woken then 5 else 0) +
  (match b.at' with
   | .asleep => 0
   | .swarm true => 1
   | .repo => 2
   | .facade => 3
   | .swarm false => 4
   | .gone => 0)

theorem taskFuel_step (isExit : F → Bool) (b b' : Bg S F R) (work : List S) (h : b.step isExit (.task work) = some b') :
    taskFuel b' + 1 ≤ taskFuel b + 5 * work.length := by
  obtain ⟨at', woken, swarm, sw, ⟨fq, fc, fw⟩, ⟨rq, rc, rw'⟩, log, failed⟩ := b
  cases at' with
  | asleep =>
    simp only [Bg.step, Bg.task] at h
    split_ifs at h with hw
    cases h
    simp only [taskFuel, hw, if_true, if_false, Bool.false_eq_true]
    omega
  | swarm done =>
    simp only [Bg.step, Bg.task, Bg.pollSwarm, Option.some.injEq] at h
    cases swarm <;> cases done <;> simp only [if_true, if_false, Bool.false_eq_true] at h <;> subst h <;>
      simp only [taskFuel, List.length_append, List.length_cons, List.length_nil] <;> omega
  | facade =>
    simp only [Bg.step, Bg.task, Bg.pollFacade, Option.some.injEq] at h
    cases fq <;> simp only at h <;> split_ifs at h <;> subst h <;>
      simp only [taskFuel, Bg.finish, List.length_append, List.length_cons, List.length_nil] <;> cases woken <;> simp <;> omega
  | repo =>
    simp only [Bg.step, Bg.task, Bg.pollRepo, Option.some.injEq] at h
    cases rq <;> simp only at h <;> (try split_ifs at h) <;> subst h <;>
      simp only [taskFuel, List.length_append, List.length_cons, List.length_nil] <;> omega
  | gone => simp [Bg.step, Bg.task] at h

theorem taskFuel_run (isExit : F → Bool) (es : List (BgEv S F R)) : ∀ b b' : Bg S F R, Alone es → Bg.run isExit b es = some b' →
    taskFuel b' + es.length ≤ taskFuel b + 5 * causedOf es := by
  induction es with
  | nil => intro b b' _ h; simp only [Bg.run, Option.some.injEq] at h; subst h; simp [causedOf]
  | cons e es ih =>
    intro b b' ha h
    cases e with
    | task work =>
      simp only [Bg.run] at h
      cases hs : b.step isExit (.task work) with
      | none => rw [hs] at h; cases h
      | some b1 =>
        rw [hs] at h
        have h1 := taskFuel_step isExit b b1 work hs
        have h2 := ih b1 b' ha h
        simp only [List.length_cons, causedOf]
        omega
    | _ => exact absurd ha (by simp [Alone])

/-- C79: left alone, the task comes to rest: it cannot take more steps than five for each thing that waits, or that it makes the
swarm do, and nine. -/
theorem C79_settles (isExit : F → Bool) (es : List (BgEv S F R)) (b b' : Bg S F R) (ha : Alone es) (h : Bg.run isExit b es = some b') :
    es.length ≤ 5 * (b.swarm.length + b.facade.queue.length + b.repo.queue.length + causedOf es) + 9 := by
  have h1 := taskFuel_run isExit es b b' ha h
  have h2 : taskFuel b ≤ 5 * (b.swarm.length + b.facade.queue.length + b.repo.queue.length) + 9 := by
    obtain ⟨at', woken, swarm, sw, ⟨fq, fc, fw⟩, ⟨rq, rc, rw'⟩, log, failed⟩ := b
    simp only [taskFuel]
    rcases at' with _ | d | _ | _ | _
    case swarm => cases d <;> cases woken <;> simp
    all_goals (cases woken <;> simp)
  omega

example : Alone ([.task [], .task [1]] : List (BgEv Nat Nat Nat)) := trivial

/-- C79: from every state the task comes to rest if it is left alone and the swarm has nothing to add. -/
theorem C79_rest (isExit : F → Bool) (b : Bg S F R) : ∃ n b', n ≤ taskFuel b ∧
    Bg.run isExit b (List.replicate n (.task [])) = some b' ∧ AtRest b' := by
  generalize hk : taskFuel b = k
  induction k using Nat.strongRecOn generalizing b with
  | _ k ih =>
    by_cases hr : AtRest b
    · exact ⟨0, b, Nat.zero_le _, rfl, hr⟩
    · have hs := (C79_runs isExit b []).2 hr
      obtain ⟨b1, hb1⟩ := Option.isSome_iff_exists.1 hs
      have h1 := taskFuel_step isExit b b1 [] hb1
      simp only [List.length_nil] at h1
      obtain ⟨n, b', hn, hrun, hrest⟩ := ih (taskFuel b1) (by omega) b1 rfl
      refine ⟨n + 1, b', by omega, ?_, hrest⟩
      simp only [List.replicate_succ, Bg.run, hb1, Option.bind_some]
      exact hrun

/-- C79: when the task has come to rest and is not gone, every call that was made was handled and everything the repo told was
heard, in order; when it is gone every call was handled or has failed. -/
theorem C79_answers (isExit : F → Bool) (swarm : List S) (es : List (BgEv S F R)) (b : Bg S F R)
    (h : Bg.run isExit (Bg.init S F R swarm) es = some b) (hr : AtRest b) :
    (b.at' ≠ .gone → answeredOf b.log = askedOf es ∧ heardOf b.log = toldOf es) ∧
    (b.at' = .gone → answeredOf b.log ++ b.failed = askedOf es) := by
  obtain ⟨h1, h2, h3⟩ := C79_calls isExit swarm es b h
  refine ⟨fun hn => ?_, fun hg => ?_⟩
  · obtain ⟨ha, hw⟩ := hr.resolve_left hn
    obtain ⟨_, hq, hrq, _⟩ := C79_sleeps isExit swarm es b h ha hw
    have ht := (C79_told isExit swarm es b h).1 hn
    rw [hq, h2 hn, List.append_nil, List.append_nil] at h1
    rw [hrq, List.append_nil] at ht
    exact ⟨h1, ht⟩
  · rw [h3 hg, List.append_nil] at h1
    exact h1

/-- The callers were dropped in this history. -/
def callersDropped : List (BgEv S F R) → Bool
  | [] => false
  | .dropFacade :: _ => true
  | _ :: es => callersDropped es

theorem callersDropped_append (es es' : List (BgEv S F R)) : callersDropped (es ++ es') = (callersDropped es || callersDropped es') := by
  induction es with
  | nil => rfl
  | cons a l ih => cases a <;> simp [callersDropped, ih]

/-- How a task that is gone ended: with the first `Exit`, all later calls having failed, or because the callers were dropped. -/
def EndedWell (isExit : F → Bool) (answered failed : List F) (dropped : Bool) : Prop :=
  (∃ p m, answered = p ++ [m] ∧ isExit m = true ∧ ∀ x ∈ p, isExit x = false) ∨
  (dropped = true ∧ failed = [] ∧ ∀ x ∈ answered, isExit x = false)

theorem bgRun_ends (isExit : F → Bool) (swarm : List S) (es : List (BgEv S F R)) (b : Bg S F R)
    (h : Bg.run isExit (Bg.init S F R swarm) es = some b) :
    b.facade.closed = callersDropped es ∧ (b.at' ≠ .gone → ∀ x ∈ answeredOf b.log, isExit x = false) ∧
    (b.at' ≠ .gone → b.failed = []) ∧
    (b.at' = .gone → EndedWell isExit (answeredOf b.log) b.failed b.facade.closed) := by
  refine bgRun_hist isExit (fun es b => b.facade.closed = callersDropped es ∧ (b.at' ≠ .gone → ∀ x ∈ answeredOf b.log, isExit x = false) ∧
    (b.at' ≠ .gone → b.failed = []) ∧
    (b.at' = .gone → EndedWell isExit (answeredOf b.log) b.failed b.facade.closed)) _
    (by simp [Bg.init, callersDropped, answeredOf]) ?_ es b h
  intro es b e b' hp hs
  obtain ⟨hc, hx, hf, hg⟩ := hp
  obtain ⟨at', woken, swarm, sw, ⟨fq, fc, fw⟩, ⟨rq, rc, rw'⟩, log, failed⟩ := b
  simp only at hc hx hf hg
  rw [callersDropped_append]
  cases e with
  | task work =>
    cases at' with
    | asleep =>
      simp only [Bg.step, Bg.task] at hs
      split_ifs at hs
      cases hs
      simp_all [callersDropped]
    | swarm done =>
      simp only [Bg.step, Bg.task, Bg.pollSwarm, Option.some.injEq] at hs
      cases swarm <;> cases done <;> simp only [if_true, if_false, Bool.false_eq_true] at hs <;> subst hs <;>
        simp_all [callersDropped, answeredOf_append, answeredOf]
    | facade =>
      have hx' := hx (by simp)
      have hf' := hf (by simp)
      simp only [Bg.step, Bg.task, Bg.pollFacade, Option.some.injEq] at hs
      cases fq with
      | nil =>
        simp only at hs
        split_ifs at hs with h1 <;> subst hs
        · refine ⟨by simp [Bg.finish, hc, callersDropped], by simp [Bg.finish], by simp [Bg.finish], fun _ => .inr ⟨h1, ?_, hx'⟩⟩
          simp [Bg.finish, hf']
        · simp_all [callersDropped]
      | cons m q =>
        simp only at hs
        split_ifs at hs with h1 <;> subst hs
        · refine ⟨by simp [Bg.finish, hc, callersDropped], by simp [Bg.finish], by simp [Bg.finish], fun _ => .inl ⟨answeredOf log, m, ?_, h1, hx'⟩⟩
          simp [Bg.finish, answeredOf_append, answeredOf]
        · refine ⟨by simp [hc, callersDropped], fun _ x hm => ?_, fun _ => hf', by simp⟩
          simp only [answeredOf_append, answeredOf, List.mem_append, List.mem_singleton] at hm
          rcases hm with hm | rfl
          · exact hx' x hm
          · simpa using h1
    | repo =>
      simp only [Bg.step, Bg.task, Bg.pollRepo, Option.some.injEq] at hs
      cases rq <;> simp only at hs <;> (try split_ifs at hs) <;> subst hs <;> simp_all [callersDropped, answeredOf_append, answeredOf]
    | gone => simp [Bg.step, Bg.task] at hs
  | call m =>
    simp only [Bg.step] at hs
    split_ifs at hs with h1 h2 <;> cases hs
    · refine ⟨by simp [hc, callersDropped], hx, fun hn => absurd h2 hn, fun _ => ?_⟩
      rcases hg h2 with hg | hg
      · exact .inl hg
      · exact absurd hg.1 h1
    · simp_all [callersDropped]
  | dropFacade =>
    simp only [Bg.step] at hs
    cases hs
    refine ⟨by simp [callersDropped], hx, hf, fun h2 => ?_⟩
    rcases hg h2 with hg | hg
    · exact .inl hg
    · exact .inr ⟨rfl, hg.2⟩
  | _ =>
    simp only [Bg.step] at hs
    (try split_ifs at hs) <;> cases hs <;> exact ⟨by simp [callersDropped, hc], hx, hf, hg⟩

/-- C79: the task ends with the first `Exit`, which is the last call handled and after which all calls fail, or when the callers
were all dropped, and then no call has failed. -/
theorem C79_ends (isExit : F → Bool) (swarm : List S) (es : List (BgEv S F R)) (b : Bg S F R)
    (h : Bg.run isExit (Bg.init S F R swarm) es = some b) (hg : b.at' = .gone) :
    EndedWell isExit (answeredOf b.log) b.failed (callersDropped es) := by
  obtain ⟨h1, _, _, h4⟩ := bgRun_ends isExit swarm es b h
  rw [← h1]; exact h4 hg

/-- C79: once the task has come to rest it is gone if and only if somebody asked it to exit or the callers were dropped. -/
theorem C79_exit (isExit : F → Bool) (swarm : List S) (es : List (BgEv S F R)) (b : Bg S F R)
    (h : Bg.run isExit (Bg.init S F R swarm) es = some b) (hr : AtRest b) :
    b.at' = .gone ↔ (∃ m ∈ askedOf es, isExit m = true) ∨ callersDropped es = true := by
  obtain ⟨h1, h2, h3, h4⟩ := bgRun_ends isExit swarm es b h
  constructor
  · intro hg
    rcases h4 hg with ⟨p, m, ha, hm, _⟩ | hd
    · have := (C79_answers isExit swarm es b h hr).2 hg
      exact .inl ⟨m, by rw [← this, ha]; simp, hm⟩
    · exact .inr (h1 ▸ hd.1)
  · intro hh
    refine Decidable.byContradiction fun hn => ?_
    have ha := (C79_answers isExit swarm es b h hr).1 hn
    obtain ⟨hs, hw⟩ := hr.resolve_left hn
    obtain ⟨_, _, _, hc, _⟩ := C79_sleeps isExit swarm es b h hs hw
    rcases hh with ⟨m, hm, hx⟩ | hd
    · rw [← ha.1] at hm
      rw [h2 hn m hm] at hx
      cases hx
    · rw [← h1, hc] at hd; cases hd

/-- The last `Repo` was dropped in this history. -/
def repoDropped : List (BgEv S F R) → Bool
  | [] => false
  | .dropRepo :: _ => true
  | _ :: es => repoDropped es

theorem repoDropped_append (es es' : List (BgEv S F R)) : repoDropped (es ++ es') = (repoDropped es || repoDropped es') := by
  induction es with
  | nil => rfl
  | cons a l ih => cases a <;> simp [repoDropped, ih]

theorem bgRun_repoClosed (isExit : F → Bool) (swarm : List S) (es : List (BgEv S F R)) (b : Bg S F R)
    (h : Bg.run isExit (Bg.init S F R swarm) es = some b) : b.repo.closed = repoDropped es := by
  refine bgRun_hist isExit (fun es b => b.repo.closed = repoDropped es) _ rfl ?_ es b h
  intro es b e b' hp hs
  obtain ⟨at', woken, swarm, sw, ⟨fq, fc, fw⟩, ⟨rq, rc, rw'⟩, log, failed⟩ := b
  simp only at hp
  rw [repoDropped_append]
  cases e with
  | task work =>
    cases at' with
    | asleep =>
      simp only [Bg.step, Bg.task] at hs
      split_ifs at hs
      cases hs
      simp_all [repoDropped]
    | swarm done =>
      simp only [Bg.step, Bg.task, Bg.pollSwarm, Option.some.injEq] at hs
      cases swarm <;> cases done <;> simp only [if_true, if_false, Bool.false_eq_true] at hs <;> subst hs <;> simp_all [repoDropped]
    | facade =>
      simp only [Bg.step, Bg.task, Bg.pollFacade, Option.some.injEq] at hs
      cases fq <;> simp only at hs <;> split_ifs at hs <;> subst hs <;> simp_all [Bg.finish, repoDropped]
    | repo =>
      simp only [Bg.step, Bg.task, Bg.pollRepo, Option.some.injEq] at hs
      cases rq <;> simp only at hs <;> (try split_ifs at hs) <;> subst hs <;> simp_all [repoDropped]
    | gone => simp [Bg.step, Bg.task] at hs
  | _ =>
    simp only [Bg.step] at hs
    (try split_ifs at hs) <;> cases hs <;> simp_all [repoDropped]

/-- C79: a history can go on with everything the callers, the repo, the network and the executor may do: calls as long as there is
somebody to make them, news as long as there is a repo, and the rest as long as the task is there. Being polled for no reason lets
the task run. -/
theorem C79_possible (isExit : F → Bool) (swarm : List S) (es : List (BgEv S F R)) (b : Bg S F R)
    (h : Bg.run isExit (Bg.init S F R swarm) es = some b) :
    (∀ m, (b.step isExit (.call m)).isSome = !callersDropped es) ∧ (∀ e, (b.step isExit (.told e)).isSome = !repoDropped es) ∧
    (∀ e, (b.step isExit (.net e)).isSome = true ↔ b.at' ≠ .gone) ∧
    ((b.step isExit .dropFacade).isSome = true ∧ (b.step isExit .dropRepo).isSome = true) ∧
    (b.at' ≠ .gone → ∃ b', b.step isExit .wake = some b' ∧ ¬ AtRest b' ∧ b'.log = b.log) := by
  have h1 := (bgRun_ends isExit swarm es b h).1
  have h2 := bgRun_repoClosed isExit swarm es b h
  obtain ⟨at', woken, swarm, sw, ⟨fq, fc, fw⟩, ⟨rq, rc, rw'⟩, log, failed⟩ := b
  simp only at h1 h2
  subst h1 h2
  refine ⟨fun m => ?_, fun e => ?_, fun e => ?_, ⟨rfl, rfl⟩, fun hn => ?_⟩
  · simp only [Bg.step]
    cases callersDropped es <;> simp only [if_true, if_false, Bool.false_eq_true] <;> (try split_ifs) <;> rfl
  · simp only [Bg.step]
    cases repoDropped es <;> simp only [if_true, if_false, Bool.false_eq_true] <;> (try split_ifs) <;> rfl
  · simp only [Bg.step]
    split_ifs with hg <;> simp_all
  · simp only at hn
    simp only [Bg.step, if_neg hn, Option.some.injEq, exists_eq_left', AtRest, Bool.true_eq_false, and_false, or_false]
    exact ⟨hn, trivial⟩

example : (Bg.run zeroExits (Bg.init Nat Nat Nat []) [.call 7, .dropFacade, .task [], .task [], .task [], .task []]).map bgView =
    some ⟨.gone, false, [7], [], [], 1, []⟩ := by decide +kernel

/-- C79: a task that is gone does nothing any more, and every call fails at once. -/
theorem C79_over (isExit : F → Bool) (b b' : Bg S F R) (e : BgEv S F R) (hg : b.at' = .gone) (h : b.step isExit e = some b') :
    b'.at' = .gone ∧ b'.log = b.log ∧ b'.failed = b.failed ++ askedOf [e] := by
  cases e with
  | task w => simp [Bg.step, Bg.task, hg] at h
  | _ =>
    simp only [Bg.step, hg] at h
    (try split_ifs at h) <;> cases h <;> simp [hg, askedOf]

theorem busySwarm_run (isExit : F → Bool) (x : S) (n : Nat) : ∀ b : Bg S F R, b.at' = .swarm false → b.swarm = [x] →
    Bg.run isExit b (List.replicate n (.task [x])) = some { b with log := b.log ++ List.replicate n (.swarm x) } := by
  induction n with
  | zero => intro b _ _; simp [Bg.run]
  | succ n ih =>
    intro b ha hb
    simp only [List.replicate_succ, Bg.run, Bg.step, Bg.task, ha, Bg.pollSwarm, hb, Option.bind_some]
    rw [ih _ rfl (by simp)]
    obtain ⟨at', woken, swarm, sw, f, r, log, failed⟩ := b
    simp only at ha hb
    subst ha hb
    simp [List.append_assoc]

/-- The task is not fair: a swarm that always has something to report keeps a call, `Exit` included, waiting for as long as it does. -/
theorem C79_starved (isExit : F → Bool) (m : F) (x : S) (n : Nat) : ∃ b : Bg S F R,
    Bg.run isExit (Bg.init S F R [x]) ([.call m, .task []] ++ List.replicate n (.task [x])) = some b ∧ b.log.length = n ∧
    answeredOf b.log = [] ∧ b.facade.queue = [m] := by
  rw [bgRun_append]
  simp only [Bg.run, Bg.step, Bg.task, Bg.init, Bool.false_eq_true, if_false, reduceCtorEq, Option.bind_some, Bool.true_or, if_true]
  refine ⟨_, busySwarm_run isExit x n _ rfl rfl, by simp, ?_, rfl⟩
  simp only [List.nil_append]
  induction n with
  | zero => rfl
  | succ n ih => simpa [List.replicate_succ, answeredOf] using ih

end Verif.Props
