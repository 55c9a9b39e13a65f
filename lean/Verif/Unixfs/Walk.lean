import Verif.Base.Split
import Verif.Unixfs.Dir
import Verif.Unixfs.Reader

/-!
# Walking a tree

Model of `unixfs/src/walk.rs`, and of the loop that feeds it in `http/src/v0/root_files.rs:141-155`.

* Paths are bytes; `PathBuf` is modelled by what std documents about components: empty ones and `.` are
  skipped, except for a leading `.`.
* The `Cache` only recycles allocations.
* `pending` has its last element first.
* Errors keep their kind; the state after an error is left out, the callers stop there.
* `debug` says whether `debug_assert` is checked.
-/

namespace Verif.Unixfs

open Verif

/-! ## `PathBuf` -/

/-- A component that is skipped. -/
def isJunk (c : Bytes) : Bool := c = [] || c = [46]

/-- Without the trailing components that are skipped. -/
def trimJunk (cs : List Bytes) : List Bytes := (cs.reverse.dropWhile isJunk).reverse

/-- `PathBuf::push`. -/
def pathPush (path name : Bytes) : Bytes :=
  if name.head? = some 47 then name
  else if path = [] ∨ path.getLast? = some 47 then path ++ name
  else path ++ 47 :: name

/-- `PathBuf::pop`: the parent, or `none` when there is none. -/
def pathPop (path : Bytes) : Option Bytes :=
  match splitSlash path with
  | [] => none
  | first :: rest =>
    match trimJunk rest with
    | [] => if first = [] then none else some []
    | r :: rs =>
      match trimJunk (r :: rs).dropLast with
      | [] => if first = [] then some [47] else some first
      | q :: qs => some (joinSlash (first :: q :: qs))

/-- `Path::ancestors().count()`. -/
def ancestors (path : Bytes) : Nat :=
  match splitSlash path with
  | [] => 1
  | first :: rest => 1 + (if first = [] then 0 else 1) + (rest.filter (fun c => !isJunk c)).length

/-! ## Entries -/

/-- `InnerKind` (unixfs/src/walk.rs:334-349). -/
inductive WKind where
  | rootDirectory
  | bucketAtRoot
  | rootBucket
  | bucket
  | directory
  | file (visit : Option Visit) (size : Nat)
  | symlink
deriving DecidableEq, Repr

/-- `InnerEntry` (unixfs/src/walk.rs:319-325). -/
structure WEntry where
  cid : Cid
  kind : WKind
  path : Bytes
  metadata : Metadata
  depth : Nat
deriving DecidableEq, Repr

/-- `Error` (unixfs/src/walk.rs:638-667), and panics. -/
inductive WalkErr where
  | unsupportedType
  | unexpectedType (t : FsType)
  | dagPbParsingFailed
  | unixFsParsingFailed
  | emptyDagPbNode
  | invalidCid (nth : Nat)
  | file (e : FileError)
  | unsupportedDirectory
  | unsupportedHamtShard
  | panic
deriving DecidableEq, Repr

/-- `From<ParsingFailed> for Error` (unixfs/src/walk.rs:669-678). -/
def WalkErr.ofParsing : ParsingFailed → WalkErr
  | .invalidDagPb => .dagPbParsingFailed
  | .invalidUnixFs _ => .unixFsParsingFailed
  | .noData _ => .emptyDagPbNode

/-- `From<FileReadFailed> for Error` (unixfs/src/walk.rs:686-696): failing to parse is `unreachable!`. -/
def WalkErr.ofRead : ReadFail → WalkErr
  | .file e => .file e
  | .unexpectedType t => .unexpectedType t
  | .read => .panic
  | .invalidCid n => .invalidCid n
  | .panic _ => .panic

/-- The loops `while self.depth >= depth && self.depth > 0` of `set_path` and `while self.depth > depth`
of `as_bucket` (unixfs/src/walk.rs:410-416, 477-483), the latter for `depth + 1`. -/
def popDepth (depth : Nat) : Nat → Bytes → Option (Bytes × Nat)
  | 0, path => some (path, 0)
  | d + 1, path =>
    if depth ≤ d + 1 then
      match pathPop path with
      | none => none
      | some path => popDepth depth d path
    else some (path, d + 1)

/-- `set_path` (unixfs/src/walk.rs:407-422); `none` is a panic. -/
def WEntry.setPath (debug : Bool) (e : WEntry) (name : Bytes) (depth : Nat) : Option WEntry :=
  if debug = true ∧ e.depth ≠ ancestors e.path then none
  else
    match popDepth depth e.depth e.path with
    | none => none
    | some (path, _) =>
      let path := pathPush path name
      if debug = true ∧ depth ≠ ancestors path then none else some { e with path, depth }

/-- No file visit is going on. -/
def WKind.idle : WKind → Bool
  | .file (some _) _ => false
  | _ => true

/-- `as_directory`, `as_bucket_root`, `as_file` and `as_symlink` (unixfs/src/walk.rs:424-463, 491-538)
only differ in the kind. -/
def WEntry.become (debug : Bool) (e : WEntry) (kind : WKind) (cid : Cid) (name : Bytes) (depth : Nat)
    (metadata : Metadata) : Option WEntry :=
  if e.kind.idle then ({ e with cid, kind, metadata } : WEntry).setPath debug name depth else none

/-- `as_bucket` (unixfs/src/walk.rs:465-489). -/
def WEntry.asBucket (e : WEntry) (cid : Cid) (name : Bytes) (depth : Nat) : Option WEntry :=
  let go : Option WEntry :=
    if name ≠ [] then none
    else
      match popDepth (depth + 1) e.depth e.path with
      | none => none
      | some (path, d) => if d = depth then some { e with cid, kind := .bucket, path, depth := d } else none
  match e.kind with
  | .bucketAtRoot => if e.depth = depth then some e else none
  | .rootBucket => go
  | .bucket => go
  | .file none _ => go
  | .symlink => go
  | _ => none

/-- `new_root_dir`, `new_root_bucket`, `new_root_file` and `new_root_symlink`
(unixfs/src/walk.rs:352-405). -/
def WEntry.newRoot (kind : WKind) (cid : Cid) (name : Bytes) (depth : Nat) (metadata : Metadata) : WEntry :=
  ⟨cid, kind, pathPush [] name, metadata, depth⟩

/-- For a root or another entry. -/
def become (debug : Bool) (current : Option WEntry) (kind : WKind) (cid : Cid) (name : Bytes) (depth : Nat)
    (metadata : Metadata) : Option WEntry :=
  match current with
  | none => some (.newRoot kind cid name depth metadata)
  | some e => e.become debug kind cid name depth metadata

/-! ## The walker -/

/-- What is to be visited: its cid, name and depth. -/
abbrev Todo := Cid × Bytes × Nat

/-- `Walker` (unixfs/src/walk.rs:17-29). -/
structure Walker where
  current : Option WEntry
  next : Option Todo
  pending : List Todo
  shouldContinue : Bool
  debug : Bool
deriving DecidableEq, Repr

/-- `ContinuedWalk` and `FileSegment` (unixfs/src/walk.rs:555-568, 586-590). -/
inductive WItem where
  | bucket (cid : Cid) (path : Bytes)
  | directory (cid : Cid) (path : Bytes) (m : Metadata)
  | file (bytes : Bytes) (first last : Bool) (cid : Cid) (path : Bytes) (m : Metadata) (size : Nat)
  | rootDirectory (cid : Cid) (path : Bytes) (m : Metadata)
  | symlink (target : Bytes) (cid : Cid) (path : Bytes) (m : Metadata)
deriving DecidableEq, Repr

/-- `convert_link` (unixfs/src/walk.rs:32-49). -/
def convertLink (depth nth : Nat) (link : PBLink) : Except WalkErr Todo :=
  match link.cid with
  | none => .error (.invalidCid nth)
  | some cid =>
    match link.name with
    | none => .error .panic
    | some name =>
      if name = [] then .error .panic
      else if name.contains 47 then .error .panic
      else .ok (cid, name, depth)

/-- `convert_sharded_link` (unixfs/src/walk.rs:52-71). -/
def convertShardedLink (nested sibling nth : Nat) (link : PBLink) : Except WalkErr Todo :=
  match link.cid with
  | none => .error (.invalidCid nth)
  | some cid =>
    match link.name with
    | none => .error .panic
    | some s =>
      if s.length > 2 then
        match cut2 s with
        | none => .error .panic
        | some name => if name.contains 47 then .error .panic else .ok (cid, name, nested)
      else if s.length = 2 then .ok (cid, [], sibling)
      else .error .panic

/-- The loop over the converted links, from the last to the first (unixfs/src/walk.rs:163-174, 199-211). -/
def convertLinks (f : Nat → PBLink → Except WalkErr Todo) : Nat → List PBLink → Except WalkErr (List Todo)
  | _, [] => .ok []
  | nth, link :: links =>
    match convertLinks f (nth + 1) links with
    | .error e => .error e
    | .ok todo =>
      match f nth link with
      | .error e => .error e
      | .ok t => .ok (t :: todo)

/-- `Walker::new` (unixfs/src/walk.rs:75-86). -/
def Walker.new (debug : Bool) (cid : Cid) (rootName : Bytes) : Walker :=
  ⟨none, some (cid, rootName, if rootName = [] then 1 else 2), [], true, debug⟩

/-- `if let next_local @ Some(_) = pending.pop() {…}` with `next` taken before
(unixfs/src/walk.rs:176-179). -/
def Walker.advance (w : Walker) (current : WEntry) (pending : List Todo) : Walker :=
  match pending with
  | [] => { w with current := some current, next := none, pending := [], shouldContinue := false }
  | t :: ts => { w with current := some current, next := some t, pending := ts, shouldContinue := true }

/-- Continuing a file (unixfs/src/walk.rs:142-150). -/
def Walker.nextFile (w : Walker) (e : WEntry) (visit : Visit) (size : Nat) (bytes : Bytes) :
    Except WalkErr (WItem × Walker) :=
  match visit.continueWalk bytes with
  | .error err => .error (.ofRead err)
  | .ok (content, step) =>
    .ok (.file content false step.isNone e.cid e.path e.metadata size,
      { w with
        current := some { e with kind := .file step size },
        shouldContinue := step.isSome || w.next.isSome })

/-- `Walker::next` for a directory (unixfs/src/walk.rs:157-192). -/
def Walker.nextDirectory (w : Walker) (flat : Flat) : Except WalkErr (WItem × Walker) :=
  let metadata := Metadata.of flat.data
  if dirSupported flat.data then
    match w.next with
    | none => .error .panic
    | some (cid, name, depth) =>
      match convertLinks (convertLink (depth + 1)) 0 flat.links with
      | .error e => .error e
      | .ok todo =>
        match become w.debug w.current (if w.current.isNone then .rootDirectory else .directory) cid name depth
            metadata with
        | none => .error .panic
        | some ie =>
          .ok (if w.current.isNone then .rootDirectory ie.cid ie.path ie.metadata
               else .directory ie.cid ie.path ie.metadata,
            w.advance ie (todo ++ w.pending))
  else .error .unsupportedDirectory

/-- `Walker::next` for a bucket (unixfs/src/walk.rs:193-237). -/
def Walker.nextShard (w : Walker) (flat : Flat) : Except WalkErr (WItem × Walker) :=
  let metadata := Metadata.of flat.data
  match shardSupported flat.data with
  | .error _ => .error .unsupportedHamtShard
  | .ok () =>
    match w.next with
    | none => .error .panic
    | some (cid, name, depth) =>
      match convertLinks (convertShardedLink (depth + 1) depth) 0 flat.links with
      | .error e => .error e
      | .ok todo =>
        match w.current with
        | none =>
          let ie := WEntry.newRoot .bucketAtRoot cid name depth metadata
          .ok (.rootDirectory ie.cid ie.path ie.metadata, w.advance ie (todo ++ w.pending))
        | some e =>
          if name = [] then
            match e.asBucket cid name depth with
            | none => .error .panic
            | some ie => .ok (.bucket ie.cid ie.path, w.advance ie (todo ++ w.pending))
          else
            match e.become w.debug .rootBucket cid name depth metadata with
            | none => .error .panic
            | some ie => .ok (.rootDirectory ie.cid ie.path ie.metadata, w.advance ie (todo ++ w.pending))

/-- `Walker::next` for a file (unixfs/src/walk.rs:238-271). -/
def Walker.startFile (w : Walker) (flat : Flat) : Except WalkErr (WItem × Walker) :=
  match visitParsed none flat with
  | .error e => .error (.ofRead e)
  | .ok (content, size, metadata, step) =>
    match w.next with
    | none => .error .panic
    | some (cid, name, depth) =>
      match become w.debug w.current (.file step size) cid name depth metadata with
      | none => .error .panic
      | some ie =>
        .ok (.file content true step.isNone ie.cid ie.path ie.metadata size,
          { w with
            current := some ie,
            next := w.pending.head?,
            pending := w.pending.tail,
            shouldContinue := step.isSome || w.pending.head?.isSome })

/-- `Walker::next` for a symlink (unixfs/src/walk.rs:273-303). -/
def Walker.nextSymlink (w : Walker) (flat : Flat) : Except WalkErr (WItem × Walker) :=
  match w.next with
  | none => .error .panic
  | some (cid, name, depth) =>
    match become w.debug w.current .symlink cid name depth (Metadata.of flat.data) with
    | none => .error .panic
    | some ie =>
      .ok (.symlink (flat.data.data.getD []) ie.cid ie.path ie.metadata, w.advance ie w.pending)

/-- `Walker::next` for a block that is not of a file going on (unixfs/src/walk.rs:153-304). -/
def Walker.nextEntry (w : Walker) (bytes : Bytes) : Except WalkErr (WItem × Walker) :=
  match Flat.parse bytes with
  | .error e => .error (.ofParsing e)
  | .ok flat =>
    match flat.data.type with
    | .directory => w.nextDirectory flat
    | .hamtShard => w.nextShard flat
    | .raw => w.startFile flat
    | .file => w.startFile flat
    | .metadata => .error .unsupportedType
    | .symlink => w.nextSymlink flat

/-- `Walker::next` (unixfs/src/walk.rs:120-305). -/
def Walker.step (w : Walker) (bytes : Bytes) : Except WalkErr (WItem × Walker) :=
  match w.current with
  | some e =>
    match e.kind with
    | .file (some visit) size => w.nextFile e visit size bytes
    | _ => w.nextEntry bytes
  | none => w.nextEntry bytes

/-- The first of `pending_links` (unixfs/src/walk.rs:94-113); `none` is a panic. -/
def Walker.wanted (w : Walker) : Option Cid :=
  let fromNext := w.next.map (fun t => t.1)
  match w.current with
  | some e =>
    match e.kind with
    | .file (some visit) _ => visit.pending.head?.map (fun p => p.1)
    | _ => fromNext
  | none => fromNext

/-- How feeding a walker ends. -/
inductive WalkEnd where
  | done
  | missing (c : Cid)
  | failed (e : WalkErr)
  | outOfFuel
deriving DecidableEq, Repr

/-- The loop of `walk` (http/src/v0/root_files.rs:145-155), cut off after `fuel` blocks: what was
visited. The block of the root is loaded like the others. -/
def Walker.feed (fetch : Cid → Option Bytes) : Nat → Walker → List WItem × WalkEnd
  | 0, w => ([], if w.shouldContinue then .outOfFuel else .done)
  | fuel + 1, w =>
    if w.shouldContinue then
      match w.wanted with
      | none => ([], .failed .panic)
      | some c =>
        match fetch c with
        | none => ([], .missing c)
        | some block =>
          match w.step block with
          | .error e => ([], .failed e)
          | .ok (item, w) => let r := Walker.feed fetch fuel w; (item :: r.1, r.2)
    else ([], .done)

end Verif.Unixfs
