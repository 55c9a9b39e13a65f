import Verif.Base.Cid
import Verif.Unixfs.Pb

/-!
# Resolving a name in a directory

Model of `unixfs/src/dir.rs`, `unixfs/src/dir/directory.rs` and `unixfs/src/dir/sharded_lookup.rs`.

* The `Cache` only recycles the allocation of the queue; it is cleared when it is made
  (sharded_lookup.rs:16-21), so it is left out.
* Errors keep their kind, not their payload.
* Slicing a string within a character panics; that is the error `panic`.
-/

namespace Verif.Unixfs

open Verif

/-- `LookupError` (unixfs/src/dir/sharded_lookup.rs:261-273). -/
inductive LookupErr where
  | multiple
  | invalidCid
  | unexpectedBucketType (t : FsType)
  | unsupportedProperties
  | unexpectedProperties
  | read
  | panic
deriving DecidableEq, Repr

/-- `ResolveError` (unixfs/src/dir.rs:97-108). -/
inductive ResolveErr where
  | unexpectedType (t : FsType)
  | unexpectedDirProperties
  | read
  | lookup (e : LookupErr)
deriving DecidableEq, Repr

/-- `MaybeResolved` (unixfs/src/dir.rs:84-93); a `ShardedLookup` is its queue, the needle is kept by
the caller. -/
inductive Maybe where
  | found (c : Cid)
  | more (queue : List Cid)
  | notFound
deriving DecidableEq, Repr

/-- `link.Name.as_deref().unwrap_or_default()`. -/
def PBLink.nameOr (l : PBLink) : Bytes := l.name.getD []

/-- `try_convert_cid` (unixfs/src/dir.rs:78-81). -/
def PBLink.cid (l : PBLink) : Option Cid := Cid.ofBytes (l.hash.getD [])

/-- `check_directory_supported` (unixfs/src/dir/directory.rs:5-25) is `Ok`. -/
def dirSupported (d : UnixFs) : Bool :=
  d.filesize.isNone && d.blocksizes.isEmpty && d.hashType.isNone && d.fanout.isNone &&
    (d.data.getD []).isEmpty

/-- `ShardedLookup::check_supported` (unixfs/src/dir/sharded_lookup.rs:140-157). -/
def shardSupported (d : UnixFs) : Except LookupErr Unit :=
  if d.fanout ≠ some 256 ∨ d.hashType ≠ some 34 then .error .unsupportedProperties
  else if d.filesize.isSome ∨ d.blocksizes ≠ [] then .error .unexpectedProperties
  else .ok ()

/-- `&name[2..]`, for a name of more than two bytes. -/
def cut2 (name : Bytes) : Option Bytes :=
  match name.drop 2 with
  | [] => some []
  | b :: t => if isCont b then none else some (b :: t)

/-- The loop of `ShardedLookup::partition` (unixfs/src/dir/sharded_lookup.rs:172-189). -/
def partition (needle : Bytes) : List PBLink → Option Cid → List Cid → Except LookupErr (Option Cid × List Cid)
  | [], found, work => .ok (found, work)
  | link :: links, found, work =>
    let name := link.nameOr
    if name.length > 2 then
      match cut2 name with
      | none => .error .panic
      | some rest =>
        if rest = needle then
          match found with
          | some _ => .error .multiple
          | none =>
            match link.cid with
            | none => .error .invalidCid
            | some c => partition needle links (some c) work
        else partition needle links found work
    else if name.length = 2 then
      match link.cid with
      | none => .error .invalidCid
      | some c => partition needle links found (work ++ [c])
    else partition needle links found work

/-- The part `lookup_or_start` and `continue_walk` have in common
(unixfs/src/dir/sharded_lookup.rs:117-134 and 80-97). -/
def lookupBucket (needle : Bytes) (hamt : Flat) (queue : List Cid) : Except LookupErr Maybe :=
  match shardSupported hamt.data with
  | .error e => .error e
  | .ok () =>
    match partition needle hamt.links none queue with
    | .error e => .error e
    | .ok (some c, _) => .ok (.found c)
    | .ok (none, []) => .ok .notFound
    | .ok (none, q :: qs) => .ok (.more (q :: qs))

/-- `ShardedLookup::continue_walk` (unixfs/src/dir/sharded_lookup.rs:57-98); the queue lacks its first
element, which named the block. -/
def continueWalk (needle : Bytes) (queue : List Cid) (block : Bytes) : Except LookupErr Maybe :=
  match Flat.parse block with
  | .error _ => .error .read
  | .ok hamt =>
    if hamt.data.type = .hamtShard then lookupBucket needle hamt queue
    else .error (.unexpectedBucketType hamt.data.type)

/-- The links that are searched by name (unixfs/src/dir.rs:58-64). -/
def matching (needle : Bytes) (links : List PBLink) : List PBLink :=
  links.filter (fun l => l.nameOr = needle)

/-- The end of `resolve` (unixfs/src/dir.rs:66-76). -/
def resolveLinks (needle : Bytes) (links : List PBLink) : Except ResolveErr Maybe :=
  match matching needle links with
  | [] => .ok .notFound
  | first :: rest =>
    match first.cid with
    | none => .error (.lookup .invalidCid)
    | some c =>
      match rest with
      | [] => .ok (.found c)
      | _ :: _ => .error (.lookup .multiple)

/-- `resolve` (unixfs/src/dir.rs:36-76). -/
def dirResolve (block needle : Bytes) : Except ResolveErr Maybe :=
  match Flat.parse block with
  | .ok flat =>
    if flat.data.type = .hamtShard then
      match lookupBucket needle flat [] with
      | .ok m => .ok m
      | .error e => .error (.lookup e)
    else if flat.data.type = .directory then
      if dirSupported flat.data then resolveLinks needle flat.links
      else .error .unexpectedDirProperties
    else .error (.unexpectedType flat.data.type)
  | .error (.invalidUnixFs n) => resolveLinks needle n.links
  | .error (.noData n) => resolveLinks needle n.links
  | .error .invalidDagPb => .error .read

/-- How feeding a lookup ends. -/
inductive Lookup where
  | found (c : Cid)
  | notFound
  /-- a requested block could not be loaded -/
  | missing (c : Cid)
  | failed (e : ResolveErr)
  /-- the fuel of the model ran out -/
  | running
deriving DecidableEq, Repr

/-- Loading the first block of the queue and continuing with it, again and again
(`resolve_hamt`, src/dag.rs:320-339). -/
def feed (fetch : Cid → Option Bytes) (needle : Bytes) : Nat → List Cid → Lookup
  | 0, _ => .running
  | _ + 1, [] => .notFound
  | fuel + 1, c :: queue =>
    match fetch c with
    | none => .missing c
    | some block =>
      match continueWalk needle queue block with
      | .error e => .failed (.lookup e)
      | .ok (.found c) => .found c
      | .ok .notFound => .notFound
      | .ok (.more queue) => feed fetch needle fuel queue

/-- A whole lookup, starting from the block of a sharded directory. -/
def hamtLookup (fetch : Cid → Option Bytes) (needle : Bytes) (fuel : Nat) (root : Bytes) : Lookup :=
  match dirResolve root needle with
  | .error e => .failed e
  | .ok (.found c) => .found c
  | .ok .notFound => .notFound
  | .ok (.more queue) => feed fetch needle fuel queue

end Verif.Unixfs
