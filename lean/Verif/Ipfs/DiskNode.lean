import Verif.Ipfs.Pin
import Verif.Repo.FsPaths

/-!
# A node on disk whose requests may be cut off

Model of `Ipfs::put_block`, `insert_pin`, `remove_pin` and `remove_block` (src/lib.rs:416-535) with the stores of src/repo/fs/blocks.rs and
src/repo/fs/pinstore.rs, as the changes of the disk each request makes, in order. A crash of the process is the end of a request after some of them;
the node then starts again on what is there. Requests do not overlap (concurrent calls for one block are in `Repo/FsBlocks`).

* Block files are named by the cid as of version 1 (`block_path`), pin files by the cid itself.
* Temporary files of blocks have a name nobody reads, and the next put of the block truncates them; they are left out.
* What was written stays written: directories that are not synced to the disk at a loss of power are not modelled.
-/

namespace Verif.Ipfs.DiskNode

open Verif Verif.Ipld Verif.Repo Verif.Repo.FsPaths Verif.Ipfs.Refs Verif.Ipfs.Pin

/-- The directory of a repository. -/
structure DiskNode where
  files : AMap Cid Bytes
  pins : FsPins
deriving DecidableEq, Repr

/-- `FsBlockStore::get` when nobody writes (src/repo/fs/blocks.rs:144-176). -/
def DiskNode.get (n : DiskNode) (c : Cid) : Option Bytes := n.files.get (toV1 c)

/-- A change of the disk. -/
inductive Change where
  /-- `create_new` (src/repo/fs/blocks.rs:227-230) -/
  | touch (c : Cid)
  /-- `rename` of the temporary file that has the data (src/repo/fs/blocks.rs:445) -/
  | fill (c : Cid) (data : Bytes)
  /-- `remove_file` (src/repo/fs/blocks.rs:241, 363) -/
  | gone (c : Cid)
  | pin (d : DiskStep)
deriving DecidableEq, Repr

def Change.run (n : DiskNode) : Change → DiskNode
  | .touch c => { n with files := n.files.set (toV1 c) [] }
  | .fill c data => { n with files := n.files.set (toV1 c) data }
  | .gone c => { n with files := n.files.erase (toV1 c) }
  | .pin d => { n with pins := d.run n.pins }

/-- The same as `descendants`, for blocks from anywhere. -/
def descendantsOf {ε : Type} (env : PinEnv) (get : Cid → Option Bytes) (c : Cid) (data : Bytes) : Except (PinFail ε) Repo.Refs :=
  match decodeIpld env.ipld env.size c data with
  | .error x => .error (.decode x)
  | .ok doc =>
    match ipldLinks c doc with
    | none => .error .panic
    | some ls =>
      match refs walkOpts (look env.ipld env.size get) env.fuel [(c, ls)] with
      | none => .error .endless
      | some r => .ok (stream r)

theorem descendants_eq {ε : Type} (env : PinEnv) (blocks : MemBlocks) (c : Cid) (data : Bytes) :
    descendants (ε := ε) env blocks c data = descendantsOf env (fun c => (blocks.getBlock c).map Block.data) c data := rfl

/-- What a pin operation answers and does. -/
def pinPlan : Except PinErr (List DiskStep) → Bool × List Change
  | .error _ => (false, [])
  | .ok steps => (true, steps.map Change.pin)

/-- A request: whether it goes well, and the changes it makes. -/
def DiskNode.plan (env : PinEnv) (le : Cid → Cid → Bool) (n : DiskNode) : NodeOp → Bool × List Change
  | .put b => (true, if (n.get b.cid).isSome then [] else [.touch b.cid, .fill b.cid b.data])
  | .pin c recursive =>
    match n.get c with
    | none => (false, [])
    | some data =>
      if recursive then
        match descendantsOf (ε := PinErr) env n.get c data with
        | .error _ => (false, [])
        | .ok refs => pinPlan (n.pins.insertRecursive le c refs)
      else pinPlan (n.pins.insertDirect c)
  | .unpin c recursive =>
    if recursive then
      match n.get c with
      | none => (false, [])
      | some data =>
        match descendantsOf (ε := PinErr) env n.get c data with
        | .error _ => (false, [])
        | .ok _ => pinPlan (n.pins.removeRecursive c)
    else pinPlan (n.pins.removeDirect c)
  | .remove c =>
    match n.pins.isPinned c with
    | .ok false => if (n.get c).isSome then (true, [.gone c]) else (false, [])
    | _ => (false, [])

/-- What a request does that cannot write: the file is removed again (src/repo/fs/blocks.rs:240-248, src/repo/fs/pinstore.rs:107-123). -/
def DiskNode.botched (env : PinEnv) (le : Cid → Cid → Bool) (n : DiskNode) (op : NodeOp) : List Change :=
  match op, (n.plan env le op).2 with
  | _, [] => []
  | .put b, _ => [.touch b.cid, .gone b.cid]
  | .pin c true, _ => (FsPins.botchedInsert c).map Change.pin
  | _, _ => []

/-- How a request ends. -/
inductive Ends where
  | done
  /-- by a crash, after some changes -/
  | cut (k : Nat)
  /-- by an error of writing, or by a crash when it cleans up -/
  | full (k : Nat)
deriving DecidableEq, Repr

/-- One request, and the disk after it. -/
def DiskNode.step (env : PinEnv) (le : Cid → Cid → Bool) (n : DiskNode) (op : NodeOp) : Ends → DiskNode
  | .done => (n.plan env le op).2.foldl Change.run n
  | .cut k => ((n.plan env le op).2.take k).foldl Change.run n
  | .full k => ((n.botched env le op).take k).foldl Change.run n

/-- A history. -/
def DiskNode.run (env : PinEnv) (le : Cid → Cid → Bool) (n : DiskNode) : List (NodeOp × Ends) → DiskNode
  | [] => n
  | (op, e) :: h => (n.step env le op e).run env le h

end Verif.Ipfs.DiskNode
