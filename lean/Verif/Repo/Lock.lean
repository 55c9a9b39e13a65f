/-!
# The lock of a repository

Model of `FsLock` (src/repo/fs.rs:86-126), `LockError` (src/repo/mod.rs:142-183), `Repo::init` (src/repo/mod.rs:397-415) and of who keeps
a `Repo`, for nodes (in one process or several) that use the same path.

* The operating system keeps who has the exclusive lock on the file: `flock` belongs to an open file, and goes when it is closed.
  A file opened for an attempt that fails is closed at once.
* A `Repo` lives as long as its handles: `UninitializedIpfs`, every clone of `Ipfs`, and the behaviour of the swarm, which the background
  task owns. With the last handle the file of the lock is closed. `start` that fails drops its handle, which is a step of its own.
* What the stores do on disk is done in blocking tasks (src/repo/fs/blocks.rs:157, 218; src/repo/fs/pinstore.rs), which own paths and no
  handle: they go on when whoever waits for them is dropped.
* Whether the directory of the repository exists, and whether the stores can make theirs, is the environment.
-/

namespace Verif.Repo

/-- One node. -/
structure LockNode where
  /-- handles of the `Repo` -/
  handles : Nat
  /-- `FsLock::file` -/
  file : Bool
  /-- `Repo::init` succeeded -/
  ready : Bool
  /-- blocking tasks that run -/
  jobs : Nat
deriving DecidableEq, Repr

/-- A path, the lock on its file, and the nodes. -/
structure LockWorld where
  /-- the directory exists -/
  dir : Bool
  owner : Option Nat
  node : Nat → LockNode

/-- What `Repo::init` returns. -/
inductive InitResult where
  | ok
  | inUse
  | noLockFile
  | noStore
deriving DecidableEq, Repr

/-- No node. -/
def LockWorld.init (dir : Bool) : LockWorld := ⟨dir, none, fun _ => ⟨0, false, false, 0⟩⟩

/-- One node changes. -/
def LockWorld.upd (w : LockWorld) (n : Nat) (x : LockNode) : LockWorld :=
  { w with node := fun k => if k = n then x else w.node k }

/-- `FsLock::try_exclusive` (src/repo/fs.rs:108-125) with `From<io::Error>` (src/repo/mod.rs:160-169). -/
def LockWorld.tryExclusive (w : LockWorld) (n : Nat) : InitResult × LockWorld :=
  if ¬ w.dir then (.noLockFile, w)
  else
    match w.owner with
    | some _ => (.inUse, w)
    | none => (.ok, { w.upd n { w.node n with file := true } with owner := some n })

/-- `Repo::init` (src/repo/mod.rs:397-415). -/
def LockWorld.initRepo (w : LockWorld) (n : Nat) (storesOk : Bool) : InitResult × LockWorld :=
  match w.tryExclusive n with
  | (.ok, w') => if storesOk then (.ok, w'.upd n { w'.node n with ready := true }) else (.noStore, w')
  | r => r

/-- What nodes do. -/
inductive LockEv where
  /-- `UninitializedIpfs::new` -/
  | make (n : Nat)
  | start (n : Nat) (storesOk : Bool)
  | share (n : Nat)
  | drop (n : Nat)
  | job (n : Nat)
  | jobDone (n : Nat)
  /-- the process ends -/
  | kill (n : Nat)
  | mkdir
deriving DecidableEq, Repr

/-- The last handle is gone: the file is closed. -/
def LockWorld.close (w : LockWorld) (n : Nat) (jobs : Nat) : LockWorld :=
  { w.upd n ⟨0, false, false, jobs⟩ with owner := if w.owner = some n then none else w.owner }

/-- One step; `none` if it cannot be. -/
def LockWorld.step (w : LockWorld) : LockEv → Option LockWorld
  | .make n => if (w.node n).handles = 0 ∧ (w.node n).jobs = 0 then some (w.upd n ⟨1, false, false, 0⟩) else none
  | .start n ok => if (w.node n).handles = 0 then none else some (w.initRepo n ok).2
  | .share n => if (w.node n).handles = 0 then none else some (w.upd n { w.node n with handles := (w.node n).handles + 1 })
  | .drop n =>
    match (w.node n).handles with
    | 0 => none
    | 1 => some (w.close n (w.node n).jobs)
    | h + 2 => some (w.upd n { w.node n with handles := h + 1 })
  | .job n =>
    if (w.node n).handles ≠ 0 ∧ (w.node n).ready then some (w.upd n { w.node n with jobs := (w.node n).jobs + 1 }) else none
  | .jobDone n =>
    match (w.node n).jobs with
    | 0 => none
    | j + 1 => some (w.upd n { w.node n with jobs := j })
  | .kill n => some (w.close n 0)
  | .mkdir => some { w with dir := true }

/-- Many steps. -/
def LockWorld.run (w : LockWorld) : List LockEv → Option LockWorld
  | [] => some w
  | e :: es => (w.step e).bind (fun w' => w'.run es)

end Verif.Repo
