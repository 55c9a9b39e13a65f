import Verif.Base.Bytes

/-!
# The filesystem block store under concurrency

Model of `src/repo/fs/blocks.rs` for one cid: any number of concurrent `put`, `get`, `remove` and
`contains` calls, each an automaton whose steps are the system calls and the uses of the shared
`writes` map and broadcast channels. The scheduler picks the next step freely.

* All blocks put under the cid carry the same bytes `data` (the cid is the hash of the bytes).
* Directory entries point to inodes, so an open file survives its name being removed or replaced.
* `File::open` and reading are two steps; `read_to_end` itself is one step. Writing the temporary file
  may take any number of steps.
* Dropping the future of a `put` is `cancel`; the blocking thread it started goes on.
* The map `writes` is keyed by multihash while files are named by cid; with one cid they agree.
* Channels are numbered and numbers not reused, so nothing was sent yet over a fresh one.
* `create_dir_all` (blocks.rs:225) is not represented.
-/

namespace Verif.Repo.FsBlocks

open Verif

/-- How the blocking part of `put` ended (src/repo/fs/blocks.rs:254-349). -/
inductive Wrote where
  /-- `Ok(Ok(Ok(written)))` -/
  | good
  /-- `Ok(Ok(Err(e)))` -/
  | bad
  /-- `Ok(Err(e))`: the file could not be created, for whatever reason. -/
  | lost
deriving DecidableEq, Repr

/-- What a call returns. -/
inductive Answer where
  | new
  | existed
  | failed
  | got (b : Option Bytes)
  | removed
  | notFound
  | has (b : Bool)
  | panic
deriving DecidableEq, Repr

/-- Where a call is. -/
inductive Pc where
  /-- before taking the lock (blocks.rs:185) -/
  | pStart
  /-- before `create_new` (blocks.rs:227) -/
  | pCreate
  /-- before opening the temporary file (blocks.rs:430) -/
  | pWon
  /-- writing the temporary file, `pos` bytes written (blocks.rs:436) -/
  | pTemp (j pos : Nat)
  /-- before `rename` (blocks.rs:445) -/
  | pRename (j : Nat)
  /-- before removing the target of a failed write (blocks.rs:241) -/
  | pUndo
  /-- the blocking task has ended (blocks.rs:258) -/
  | pDone (r : Wrote)
  /-- `cleanup` was dropped (blocks.rs:262) -/
  | pSend (r : Wrote)
  /-- `tx` was dropped, awaiting the message (blocks.rs:299) -/
  | pWait
  /-- before `write_completion` of `get` (blocks.rs:143) -/
  | gStart
  | gWait
  /-- before `File::open` (blocks.rs:154) -/
  | gRead
  /-- before `read_to_end` (blocks.rs:165) -/
  | gOpen (j : Nat)
  /-- before `write_completion` of `remove` (blocks.rs:347) -/
  | rStart
  | rWait
  /-- before `remove_file` (blocks.rs:351) -/
  | rRemove
  /-- before `metadata` of `contains` (blocks.rs:130) -/
  | cStat
  | ended (a : Answer)
  /-- the future was dropped and nothing is left to do -/
  | gone
deriving DecidableEq, Repr

/-- A call: `ch` is its channel, `rx` the number of messages sent before it subscribed, `alive` is
false once its future was dropped. -/
structure Task where
  pc : Pc
  ch : Nat := 0
  rx : Nat := 0
  alive : Bool := true
deriving DecidableEq, Repr

/-- The file system and the store. -/
structure State where
  /-- the inode named by `block_path` -/
  target : Option Nat
  /-- the inode named by the same path with the extension `tmp` -/
  temp : Option Nat
  inode : Nat → Bytes
  nextInode : Nat
  /-- the entry of the cid in `writes` -/
  entry : Option Nat
  /-- messages sent over each broadcast channel -/
  msgs : Nat → List Bool
  nextChan : Nat
  tasks : List Task

/-- `FsBlockStore::new` over an empty directory. -/
def State.init : State := ⟨none, none, fun _ => [], 0, none, fun _ => [], 0, []⟩

/-- Sets one value of a function. -/
def upd {α : Type} (f : Nat → α) (i : Nat) (a : α) : Nat → α := fun x => if x = i then a else f x

/-- The call holds a sender of its channel. -/
def Task.holdsTx (t : Task) : Bool :=
  t.alive && match t.pc with
  | .pCreate | .pWon | .pTemp .. | .pRename _ | .pUndo | .pDone _ | .pSend _ => true
  | _ => false

/-- Some sender of the channel is left. -/
def State.open (s : State) (ch : Nat) : Bool :=
  s.entry == some ch || s.tasks.any (fun t => t.holdsTx && t.ch == ch)

/-- What `broadcast::Receiver::recv` gives; the channel has capacity one. -/
inductive Recv where
  | message (ok : Bool)
  | closed
  | lagged
  | pending
deriving DecidableEq, Repr

/-- `rx.recv()` of a receiver that subscribed after `rx` messages. -/
def State.recv (s : State) (ch rx : Nat) : Recv :=
  match (s.msgs ch).drop rx with
  | [] => if s.open ch then .pending else .closed
  | [m] => .message m
  | _ => .lagged

/-- Replaces call `i`. -/
def State.setTask (s : State) (i : Nat) (t : Task) : State := { s with tasks := s.tasks.set i t }

/-- A step of call `i`, the scheduler choosing how much to write and whether a system call fails;
`none` if it cannot take one. -/
def State.run (data : Bytes) (s : State) (i : Nat) (k : Nat) (fail : Bool) : Option State :=
  match s.tasks[i]? with
  | none => none
  | some t =>
    match t.pc with
    | .pStart =>
      match s.entry with
      | some ch => some (s.setTask i { t with pc := .pCreate, ch := ch, rx := (s.msgs ch).length })
      | none => some ({ s with entry := some s.nextChan, nextChan := s.nextChan + 1 }.setTask i
                      { t with pc := .pCreate, ch := s.nextChan, rx := 0 })
    | .pCreate =>
      if fail then some (s.setTask i { t with pc := .pDone .lost })
      else match s.target with
        | some _ => some (s.setTask i { t with pc := .pDone .lost })
        | none => some ({ s with target := some s.nextInode, nextInode := s.nextInode + 1,
                                 inode := upd s.inode s.nextInode [] }.setTask i
                        { t with pc := .pWon })
    | .pWon =>
      if fail then some (s.setTask i { t with pc := .pUndo })
      else match s.temp with
        | some j => some ({ s with inode := upd s.inode j [] }.setTask i { t with pc := .pTemp j 0 })
        | none => some ({ s with temp := some s.nextInode, nextInode := s.nextInode + 1,
                                 inode := upd s.inode s.nextInode [] }.setTask i
                        { t with pc := .pTemp s.nextInode 0 })
    | .pTemp j pos =>
      if fail then some (s.setTask i { t with pc := .pUndo })
      else if pos = data.length then some (s.setTask i { t with pc := .pRename j })
      else
        let pos' := min (pos + k) data.length
        some ({ s with inode := upd s.inode j (data.take pos' ++ (s.inode j).drop pos') }.setTask i
          { t with pc := .pTemp j pos' })
    | .pRename _ =>
      if fail then some (s.setTask i { t with pc := .pUndo })
      else match s.temp with
        | some j' => some ({ s with target := some j', temp := none }.setTask i
            { t with pc := .pDone .good })
        | none => some (s.setTask i { t with pc := .pUndo })
    | .pUndo => some ({ s with target := none }.setTask i { t with pc := .pDone .bad })
    | .pDone r =>
      if t.alive then some ({ s with entry := none }.setTask i { t with pc := .pSend r })
      else some (s.setTask i { t with pc := .gone })
    | .pSend .good => some ({ s with msgs := upd s.msgs t.ch (s.msgs t.ch ++ [true]) }.setTask i
        { t with pc := .ended .new })
    | .pSend .bad => some ({ s with msgs := upd s.msgs t.ch (s.msgs t.ch ++ [false]) }.setTask i
        { t with pc := .ended .failed })
    | .pSend .lost => some (s.setTask i { t with pc := .pWait })
    | .pWait =>
      match s.recv t.ch t.rx with
      | .pending => none
      | .lagged => some (s.setTask i { t with pc := .ended .panic })
      | .message false => some (s.setTask i { t with pc := .ended .failed })
      | .message true | .closed => some (s.setTask i { t with pc := .ended .existed })
    | .gStart =>
      match s.entry with
      | none => some (s.setTask i { t with pc := .gRead })
      | some ch => some (s.setTask i { t with pc := .gWait, ch := ch, rx := (s.msgs ch).length })
    | .gWait =>
      match s.recv t.ch t.rx with
      | .pending => none
      | .lagged => some (s.setTask i { t with pc := .ended .panic })
      | .message false => some (s.setTask i { t with pc := .ended (.got none) })
      | .message true | .closed => some (s.setTask i { t with pc := .gRead })
    | .gRead =>
      match s.target with
      | none => some (s.setTask i { t with pc := .ended (.got none) })
      | some j => some (s.setTask i { t with pc := .gOpen j })
    | .gOpen j => some (s.setTask i { t with pc := .ended (.got (some (s.inode j))) })
    | .rStart =>
      match s.entry with
      | none => some (s.setTask i { t with pc := .rRemove })
      | some ch => some (s.setTask i { t with pc := .rWait, ch := ch, rx := (s.msgs ch).length })
    | .rWait =>
      match s.recv t.ch t.rx with
      | .pending => none
      | .lagged => some (s.setTask i { t with pc := .ended .panic })
      | .message false => some (s.setTask i { t with pc := .ended .notFound })
      | .message true | .closed => some (s.setTask i { t with pc := .rRemove })
    | .rRemove =>
      match s.target with
      | none => some (s.setTask i { t with pc := .ended .notFound })
      | some _ => some ({ s with target := none }.setTask i { t with pc := .ended .removed })
    | .cStat => some (s.setTask i { t with pc := .ended (.has s.target.isSome) })
    | .ended _ => none
    | .gone => none

/-- The future of call `i` is dropped while it awaits (`RemoveOnDrop`, blocks.rs:51-63). -/
def State.cancel (s : State) (i : Nat) : Option State :=
  match s.tasks[i]? with
  | none => none
  | some t =>
    if !t.alive then none
    else match t.pc with
      | .pCreate | .pWon | .pTemp .. | .pRename _ | .pUndo | .pDone _ =>
        some ({ s with entry := none }.setTask i { t with alive := false })
      | .pWait | .gWait | .gRead | .gOpen _ | .rWait | .rRemove | .cStat =>
        some (s.setTask i { t with pc := .gone, alive := false })
      | _ => none

/-- What the scheduler may do. -/
inductive Act where
  | spawnPut
  | spawnGet
  | spawnRemove
  | spawnContains
  | run (i k : Nat) (fail : Bool)
  | cancel (i : Nat)
  /-- The process stops and the store is opened anew: only the files remain. -/
  | crash
deriving DecidableEq, Repr

/-- Its effect. -/
def State.act (data : Bytes) (s : State) : Act → Option State
  | .spawnPut => some { s with tasks := s.tasks ++ [{ pc := .pStart }] }
  | .spawnGet => some { s with tasks := s.tasks ++ [{ pc := .gStart }] }
  | .spawnRemove => some { s with tasks := s.tasks ++ [{ pc := .rStart }] }
  | .spawnContains => some { s with tasks := s.tasks ++ [{ pc := .cStat }] }
  | .run i k fail => s.run data i k fail
  | .cancel i => s.cancel i
  | .crash => some { s with entry := none, msgs := fun _ => [], nextChan := 0, tasks := [] }

/-- A whole schedule. -/
def State.acts (data : Bytes) : State → List Act → Option State
  | s, [] => some s
  | s, a :: as =>
    match s.act data a with
    | none => none
    | some s' => State.acts data s' as

end Verif.Repo.FsBlocks
