import Verif.Base.AMap
import Verif.Base.Cid

/-!
# The in-memory block store

Model of `src/repo/mem.rs` lines 23-96. Every method takes the mutex for its whole body, so a history
of concurrent calls is a sequence of these steps.
-/

namespace Verif.Repo

open Verif

/-- `cid.hash()`: what `RepoCid` compares (src/repo/mod.rs:61-76). -/
abbrev Mh := Nat × Bytes

/-- The multihash of a cid. -/
def _root_.Verif.Cid.mh (c : Cid) : Mh := (c.mhCode, c.digest)

/-- `bitswap::Block` (bitswap/src/block.rs). -/
structure Block where
  cid : Cid
  data : Bytes
deriving DecidableEq, Repr

/-- `HashedMap<RepoCid, Block>`: the entry keeps the cid it was inserted under
(src/repo/mem.rs:27-29). -/
abbrev MemBlocks := AMap Mh (Cid × Block)

/-- `BlockPut` (src/repo/mod.rs:80-85). -/
inductive BlockPut where
  | newBlock
  | existed
deriving DecidableEq, Repr

namespace MemBlocks

/-- `contains` (src/repo/mem.rs:45-52). -/
def contains (m : MemBlocks) (c : Cid) : Bool := (m.get c.mh).isSome

/-- `get` (src/repo/mem.rs:54-62). -/
def getBlock (m : MemBlocks) (c : Cid) : Option Block := (m.get c.mh).map Prod.snd

/-- `put` (src/repo/mem.rs:64-79). -/
def put (m : MemBlocks) (b : Block) : MemBlocks × (Cid × BlockPut) :=
  match m.get b.cid.mh with
  | some _ => (m, b.cid, .existed)
  | none => (m.set b.cid.mh (b.cid, b), b.cid, .newBlock)

/-- `remove` (src/repo/mem.rs:81-86): true for `Removed`, false for `NotFound`. -/
def remove (m : MemBlocks) (c : Cid) : MemBlocks × Bool :=
  (AMap.erase m c.mh, (m.get c.mh).isSome)

/-- `list` (src/repo/mem.rs:88-91). -/
def list (m : MemBlocks) : List Cid := m.map (fun e => e.2.1)

/-- `wipe` (src/repo/mem.rs:93-95). -/
def wipe (_ : MemBlocks) : MemBlocks := []

end MemBlocks

/-- The calls of `BlockStore`. -/
inductive BlockOp where
  | put (b : Block)
  | get (c : Cid)
  | contains (c : Cid)
  | remove (c : Cid)
  | list
  | wipe
deriving DecidableEq, Repr

/-- What they return. -/
inductive BlockAns where
  | put (c : Cid) (r : BlockPut)
  | got (b : Option Block)
  | has (b : Bool)
  | removed (c : Cid)
  | notFound (c : Cid)
  | cids (l : List Cid)
  | unit
deriving DecidableEq, Repr

/-- One call. -/
def MemBlocks.step (m : MemBlocks) : BlockOp → MemBlocks × BlockAns
  | .put b => ((m.put b).1, .put (m.put b).2.1 (m.put b).2.2)
  | .get c => (m, .got (m.getBlock c))
  | .contains c => (m, .has (m.contains c))
  | .remove c => ((m.remove c).1, if (m.remove c).2 then .removed c else .notFound c)
  | .list => (m, .cids m.list)
  | .wipe => (m.wipe, .unit)

/-- A history of calls, starting with the empty store. -/
def MemBlocks.after : List BlockOp → MemBlocks
  | ops => ops.foldl (fun m op => (m.step op).1) []

end Verif.Repo
