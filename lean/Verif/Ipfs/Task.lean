import Verif.Base.Bytes

/-!
# The background task

Model of `IpfsFuture::poll` (src/lib.rs:1356-1600), of the channels it reads, and of how it is woken.

* What is reported by the swarm, called by the facade and told by the repo are types. What is done about it is modelled
  elsewhere; here it is only noted that it was done, and the swarm may have more to report afterwards (`work`).
* The channels are those of `futures::channel::mpsc`. Every caller sends with a sender of its own (a clone), which always
  has room for one message; that a call may wait for the queue to get shorter before it waits for its answer is left out.
  `exit_daemon` uses the sender of the facade itself, which nothing else was sent with, so it is never refused as long as
  the task is there.
* A source that says it has nothing keeps the waker; the next message, or the last sender being dropped, uses it. What
  the task itself makes the swarm do wakes nobody.
* When the task is finished it is dropped with its channels: calls that wait, and all later ones, fail.
-/

namespace Verif.Ipfs

open Verif

/-- The receiving end of a channel. -/
structure Chan (α : Type) where
  queue : List α
  /-- all senders are gone -/
  closed : Bool
  waker : Bool

/-- Where `poll` is: not running, in one of its three inner loops, or finished. -/
inductive TaskAt where
  | asleep
  | swarm (done : Bool)
  | facade
  | repo
  | gone
deriving DecidableEq, Repr

/-- What was handled. -/
inductive Handled (S F R : Type) where
  | swarm (e : S)
  | facade (m : F)
  | repo (e : R)

/-- The task, its sources, and what became of calls. -/
structure Bg (S F R : Type) where
  at' : TaskAt
  /-- the executor is going to poll it -/
  woken : Bool
  /-- what the swarm is going to report -/
  swarm : List S
  swarmWaker : Bool
  facade : Chan F
  repo : Chan R
  log : List (Handled S F R)
  /-- calls that fail because the task is gone -/
  failed : List F

/-- After `start` (src/lib.rs:346-410) when it is spawned. -/
def Bg.init (S F R : Type) (swarm : List S) : Bg S F R := ⟨.asleep, true, swarm, false, ⟨[], false, false⟩, ⟨[], false, false⟩, [], []⟩

variable {S F R : Type}

/-- `return Poll::Ready(())` (src/lib.rs:1569-1572): everything is dropped. -/
def Bg.finish (b : Bg S F R) : Bg S F R :=
  { b with at' := .gone, facade := ⟨[], b.facade.closed, false⟩, repo := ⟨[], b.repo.closed, false⟩, swarm := [], swarmWaker := false,
           failed := b.failed ++ b.facade.queue }

/-- The inner loop on the swarm (src/lib.rs:1368-1389). -/
def Bg.pollSwarm (b : Bg S F R) (done : Bool) (work : List S) : Bg S F R :=
  match b.swarm with
  | e :: r => { b with at' := .swarm false, swarm := r ++ work, log := b.log ++ [.swarm e] }
  | [] => if done then { b with at' := .asleep, swarmWaker := true } else { b with at' := .facade, swarmWaker := true }

/-- The inner loop on the calls (src/lib.rs:1394-1575). -/
def Bg.pollFacade (isExit : F → Bool) (b : Bg S F R) (work : List S) : Bg S F R :=
  match b.facade.queue with
  | m :: q =>
    if isExit m then Bg.finish { b with facade := ⟨q, b.facade.closed, b.facade.waker⟩, log := b.log ++ [.facade m] }
    else { b with facade := ⟨q, b.facade.closed, b.facade.waker⟩, log := b.log ++ [.facade m], swarm := b.swarm ++ work }
  | [] => if b.facade.closed then b.finish else { b with at' := .repo, facade := ⟨[], false, true⟩ }

/-- The inner loop on the events of the repo (src/lib.rs:1579-1600) and `done = true`. -/
def Bg.pollRepo (b : Bg S F R) (work : List S) : Bg S F R :=
  match b.repo.queue with
  | e :: q => { b with repo := ⟨q, b.repo.closed, b.repo.waker⟩, log := b.log ++ [.repo e], swarm := b.swarm ++ work }
  | [] => if b.repo.closed then { b with at' := .swarm true } else { b with at' := .swarm true, repo := ⟨[], false, true⟩ }

/-- The next thing the task does; `none` if there is nothing until it is woken. -/
def Bg.task (isExit : F → Bool) (b : Bg S F R) (work : List S) : Option (Bg S F R) :=
  match b.at' with
  | .asleep => if b.woken then some { b with at' := .swarm false, woken := false } else none
  | .swarm done => some (b.pollSwarm done work)
  | .facade => some (b.pollFacade isExit work)
  | .repo => some (b.pollRepo work)
  | .gone => none

/-- What happens. -/
inductive BgEv (S F R : Type) where
  | task (work : List S)
  /-- from the network -/
  | net (e : S)
  | call (m : F)
  /-- the last `Ipfs` is dropped -/
  | dropFacade
  | told (e : R)
  /-- the last `Repo` is dropped -/
  | dropRepo
  /-- polled for no reason -/
  | wake

/-- One event; `none` if it cannot happen. -/
def Bg.step (isExit : F → Bool) (b : Bg S F R) : BgEv S F R → Option (Bg S F R)
  | .task work => b.task isExit work
  | .net e =>
    if b.at' = .gone then none
    else some { b with swarm := b.swarm ++ [e], woken := b.woken || b.swarmWaker, swarmWaker := false }
  | .call m =>
    if b.facade.closed then none
    else if b.at' = .gone then some { b with failed := b.failed ++ [m] }
    else some { b with facade := ⟨b.facade.queue ++ [m], false, false⟩, woken := b.woken || b.facade.waker }
  | .dropFacade => some { b with facade := ⟨b.facade.queue, true, false⟩, woken := b.woken || b.facade.waker }
  | .told e =>
    if b.repo.closed then none
    else if b.at' = .gone then some b
    else some { b with repo := ⟨b.repo.queue ++ [e], false, false⟩, woken := b.woken || b.repo.waker }
  | .dropRepo => some { b with repo := ⟨b.repo.queue, true, false⟩, woken := b.woken || b.repo.waker }
  | .wake => if b.at' = .gone then none else some { b with woken := true }

/-- Many events. -/
def Bg.run (isExit : F → Bool) (b : Bg S F R) : List (BgEv S F R) → Option (Bg S F R)
  | [] => some b
  | e :: es => (b.step isExit e).bind (fun b' => Bg.run isExit b' es)

end Verif.Ipfs
