import Verif.Repo.Subs
import Verif.Repo.MemBlocks

/-!
# Waiting for blocks in the repository

Model of `Repo::put_block` and `Repo::get_block` (`src/repo/mod.rs`) over the in-memory block store and the
registry of subscriptions. Calls are automata stepping between the points where they take a lock; the
scheduler picks the next step freely.

* What else is done with the registry (other waiters, dropped futures, shutting down) is any step of it
  other than finishing subscriptions.
* The events sent to the network side and its answer are not represented; they do not touch this state.
-/

namespace Verif.Repo.GetBlock

open Verif Verif.Repo Verif.Repo.Subs

/-- Where a call is. -/
inductive Task where
  /-- `get_block`, before `get_block_now` (src/repo/mod.rs:462) -/
  | getStart (c : Cid)
  /-- the store had no such block (mod.rs:465) -/
  | getMissed (c : Cid)
  /-- in `create_subscription`, before its lock -/
  | getCreating (c : Cid) (i : Nat)
  /-- awaiting the subscription (mod.rs:475) -/
  | getWaiting (c : Cid) (i : Nat)
  /-- `some` is the block, `none` an error: the subscription was cancelled -/
  | getDone (c : Cid) (res : Option Block)
  /-- `put_block`, before the store's lock (mod.rs:429) -/
  | putStart (b : Block)
  /-- the block is new, before `finish_subscription` (mod.rs:435) -/
  | putStored (b : Block)
  | putDone (b : Block) (res : BlockPut)
deriving DecidableEq, Repr

/-- The repository and the calls. -/
structure State where
  store : MemBlocks
  reg : Reg Cid Block
  tasks : List Task

/-- A new repository. -/
def State.init : State := ⟨[], Reg.init, []⟩

/-- A step of call `j`; polling a subscription that is pending leaves it waiting. -/
def State.run (debug : Bool) (s : State) (j : Nat) : Option State :=
  match s.tasks[j]? with
  | none => none
  | some t =>
    match t with
    | .getStart c =>
      match s.store.getBlock c with
      | some b => some { s with tasks := s.tasks.set j (.getDone c (some b)) }
      | none => some { s with tasks := s.tasks.set j (.getMissed c) }
    | .getMissed c =>
      some { s with reg := s.reg.create c true, tasks := s.tasks.set j (.getCreating c s.reg.nextId) }
    | .getCreating c i =>
      match s.reg.insert i with
      | none => none
      | some reg => some { s with reg := reg, tasks := s.tasks.set j (.getWaiting c i) }
    | .getWaiting c i =>
      match s.reg.poll i with
      | none => none
      | some (reg, .done b) => some { s with reg := reg, tasks := s.tasks.set j (.getDone c (some b)) }
      | some (reg, .cancelled) => some { s with reg := reg, tasks := s.tasks.set j (.getDone c none) }
      | some (reg, _) => some { s with reg := reg }
    | .getDone .. => none
    | .putStart b =>
      match s.store.put b with
      | (store, _, .newBlock) => some { s with store := store, tasks := s.tasks.set j (.putStored b) }
      | (store, _, .existed) => some { s with store := store, tasks := s.tasks.set j (.putDone b .existed) }
    | .putStored b =>
      some { s with reg := (s.reg.finish debug b.cid b).1, tasks := s.tasks.set j (.putDone b .newBlock) }
    | .putDone .. => none

/-- What may happen. -/
inductive Act where
  | spawnGet (c : Cid)
  | spawnPut (b : Block)
  | run (j : Nat)
  /-- `remove_block` (src/repo/mod.rs:490-515), as far as the store is concerned -/
  | remove (c : Cid)
  /-- some other use of the registry -/
  | other (op : Op Cid Block)
deriving DecidableEq, Repr

/-- Its effect. -/
def State.act (debug : Bool) (s : State) : Act → Option State
  | .spawnGet c => some { s with tasks := s.tasks ++ [.getStart c] }
  | .spawnPut b => some { s with tasks := s.tasks ++ [.putStart b] }
  | .run j => s.run debug j
  | .remove c => some { s with store := (s.store.remove c).1 }
  | .other (.finish _ _) => none
  | .other op => (s.reg.step debug op).map (fun r => { s with reg := r.1 })

/-- A schedule. -/
def State.acts (debug : Bool) : State → List Act → Option State
  | s, [] => some s
  | s, a :: as =>
    match s.act debug a with
    | none => none
    | some s' => State.acts debug s' as

end Verif.Repo.GetBlock
