import Verif.Ipfs.Refs
import Verif.Repo.RemoveBlock
import Verif.Repo.FsPins
import Verif.Repo.KvPins

/-!
# Pinning and unpinning

Model of `Ipfs::insert_pin` and `Ipfs::remove_pin` (src/lib.rs:468-535): the tree below the cid is
walked and the pin store is told what was met.

* Requests do not overlap. `get_block` waits for a block that is not there, and so does the walk of
  `insert_pin`; a request that waits is one that fails at that block, as it can end by being dropped.
  One for which the blocks arrive is one made after their arrival. The in-memory store is locked
  meanwhile (src/repo/mem.rs:222), so that nothing can be removed; the store on disk is locked only
  after the walk (src/repo/fs/pinstore.rs:87-91), what can then go wrong is shown by `C69_overlap`.
* `fuel` bounds the rounds of the walk; `C38_unique_terminates` shows that some bound is enough.
-/

namespace Verif.Ipfs.Pin

open Verif Verif.Ipld Verif.Repo Verif.Ipfs.Refs

/-- `trait PinStore` (src/repo/mod.rs:195-231) without listing: `is_pinned` and the four operations,
with what the stream of descendants yields. -/
structure PinStore (σ ε : Type) where
  isPinned : σ → Cid → Bool
  insertDirect : σ → Cid → Except ε Unit × σ
  removeDirect : σ → Cid → Except ε Unit × σ
  insertRecursive : σ → Cid → Repo.Refs → Except ε Unit × σ
  removeRecursive : σ → Cid → Repo.Refs → Except ε Unit × σ

/-- The in-memory store. -/
def memStore (le : Cid → Cid → Bool) : PinStore MemPins PinErr where
  isPinned := MemPins.isPinned
  insertDirect := MemPins.insertDirect le
  removeDirect := MemPins.removeDirect le
  insertRecursive := MemPins.insertRecursive le
  removeRecursive := MemPins.removeRecursive le

/-- The result of an operation on files, and the files after it. -/
def diskResult (g : FsPins) : Except PinErr (List DiskStep) → Except PinErr Unit × FsPins
  | .error e => (.error e, g)
  | .ok steps => (.ok (), runSteps g steps)

/-- The store on disk. An error of `is_pinned` keeps a block from being removed just as a pin does. -/
def fsStore (le : Cid → Cid → Bool) : PinStore FsPins PinErr where
  isPinned := fun g c => match g.isPinned c with
    | .ok b => b
    | .error _ => true
  insertDirect := fun g c => diskResult g (g.insertDirect c)
  removeDirect := fun g c => diskResult g (g.removeDirect c)
  insertRecursive := fun g c refs => diskResult g (g.insertRecursive le c refs)
  removeRecursive := fun g c _ => diskResult g (g.removeRecursive c)

/-- The key-value store. -/
def kvStore (le : Cid → Cid → Bool) : PinStore KvPins PinErr where
  isPinned := KvPins.isPinned
  insertDirect := KvPins.insertDirect
  removeDirect := KvPins.removeDirect
  insertRecursive := KvPins.insertRecursive le
  removeRecursive := KvPins.removeRecursive le

/-- What documents are decoded with, and the bound of the walk. -/
structure PinEnv where
  ipld : Env
  size : Nat
  fuel : Nat

/-- How pinning and unpinning fail. -/
inductive PinFail (ε : Type) where
  /-- the block of the cid itself is waited for -/
  | waiting
  /-- "pinned root not found" -/
  | noRoot
  | decode (e : BlockErr)
  | panic
  | endless
  | store (e : ε)
deriving DecidableEq, Repr

variable {σ ε : Type}

/-- What becomes of a block of the repo. -/
def repoLook (env : PinEnv) (blocks : MemBlocks) : Cid → Look :=
  look env.ipld env.size (fun c => (blocks.getBlock c).map Block.data)

/-- `map_ok(|Edge { destination, .. }| destination)` (src/lib.rs:484, 526). -/
def destination : Item → Option Cid
  | .edge e => some e.destination
  | .blockErr _ => none
  | .notFound _ => none

/-- The stream handed to the pin store. A panic ends it like an error. -/
def stream (r : List Item × Ending) : Repo.Refs :=
  r.1.map destination ++ (if r.2 = .panic then [none] else [])

/-- `IpldRefs::default().with_only_unique()` (src/lib.rs:481-482), waiting included, and
`with_existing_blocks()` (src/lib.rs:519-521). -/
def walkOpts : Opts := { unique := true, download := false }

/-- Decoding the root and starting the walk (src/lib.rs:479-487, 516-528). -/
def descendants (env : PinEnv) (blocks : MemBlocks) (c : Cid) (data : Bytes) :
    Except (PinFail ε) Repo.Refs :=
  match decodeIpld env.ipld env.size c data with
  | .error x => .error (.decode x)
  | .ok doc =>
    match ipldLinks c doc with
    | none => .error .panic
    | some ls =>
      match refs walkOpts (repoLook env blocks) env.fuel [(c, ls)] with
      | none => .error .endless
      | some r => .ok (stream r)

/-- What the pin store answered, and the repo with the pins after it. -/
def pinsAfter (s : RepoState σ) (r : Except ε Unit × σ) : Except (PinFail ε) Unit × RepoState σ :=
  match r.1 with
  | .error e => (.error (.store e), { s with pins := r.2 })
  | .ok _ => (.ok (), { s with pins := r.2 })

/-- `Ipfs::insert_pin` (src/lib.rs:468-495). -/
def insertPin (env : PinEnv) (st : PinStore σ ε) (s : RepoState σ) (c : Cid) (recursive : Bool) :
    Except (PinFail ε) Unit × RepoState σ :=
  match s.blocks.getBlock c with
  | none => (.error .waiting, s)
  | some b =>
    if recursive then
      match descendants env s.blocks c b.data with
      | .error e => (.error e, s)
      | .ok refs => pinsAfter s (st.insertRecursive s.pins c refs)
    else pinsAfter s (st.insertDirect s.pins c)

/-- `Ipfs::remove_pin` (src/lib.rs:503-535). -/
def removePin (env : PinEnv) (st : PinStore σ ε) (s : RepoState σ) (c : Cid) (recursive : Bool) :
    Except (PinFail ε) Unit × RepoState σ :=
  if recursive then
    match s.blocks.getBlock c with
    | none => (.error .noRoot, s)
    | some b =>
      match descendants env s.blocks c b.data with
      | .error e => (.error e, s)
      | .ok refs => pinsAfter s (st.removeRecursive s.pins c refs)
  else pinsAfter s (st.removeDirect s.pins c)

/-- The store as `Repo::remove_block` sees it; it does not change the pins. -/
def PinStore.api (st : PinStore σ ε) : PinApi σ ε := ⟨st.isPinned, fun g _ => (.ok (), g)⟩

/-- What a user can ask of a repo. -/
inductive NodeOp where
  | put (b : Block)
  | pin (c : Cid) (recursive : Bool)
  | unpin (c : Cid) (recursive : Bool)
  | remove (c : Cid)
deriving DecidableEq, Repr

/-- One request: whether it went well, and the repo after it. Requests do not overlap. -/
def nodeStep (env : PinEnv) (st : PinStore σ ε) (s : RepoState σ) : NodeOp → Bool × RepoState σ
  | .put b => (true, { s with blocks := (s.blocks.put b).1 })
  | .pin c recursive => ((insertPin env st s c recursive).1.isOk, (insertPin env st s c recursive).2)
  | .unpin c recursive => ((removePin env st s c recursive).1.isOk, (removePin env st s c recursive).2)
  | .remove c =>
    (match (s.removeBlock st.api c).2 with
      | .removed _ => true
      | _ => false, (s.removeBlock st.api c).1)

end Verif.Ipfs.Pin
