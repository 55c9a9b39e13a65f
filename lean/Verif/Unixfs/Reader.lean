import Verif.Base.Cid
import Verif.Unixfs.Pb

/-!
# Reading files

Model of `unixfs/src/file/reader.rs`, `unixfs/src/file/visit.rs` and the stream in
`src/unixfs/cat.rs`. `u64` additions that would overflow are reported as
`ReadFail.panic` (debug builds panic, release builds would wrap).
-/

namespace Verif.Unixfs

open Verif

/-- `Range<u64>`. -/
structure Rng where
  start : Nat
  stop : Nat
deriving DecidableEq, Repr

/-- `Metadata` (unixfs/src/lib.rs:131-139): mode and mtime with nanoseconds. -/
structure Metadata where
  mode : Option Nat := none
  mtime : Option (Int × Nat) := none
deriving DecidableEq, Repr

/-- `From<&UnixFs> for Metadata` (unixfs/src/lib.rs:165-176). -/
def Metadata.of (d : UnixFs) : Metadata :=
  { mode := d.mode, mtime := d.mtime.map (fun t => (t.seconds, t.nanos.getD 0)) }

/-- `FileError` (unixfs/src/file.rs:71-105). -/
inductive FileError where
  | linksAndBlocksizesMismatch
  | noLinksNoContent
  | nonRootDefinesMetadata (m : Metadata)
  | intermediateNodeWithoutFileSize
  | treeExpandsOnLinks
  | treeOverlapsBetweenLinks
  | earlierLink
  | treeJumpsBetweenLinks
  | unexpectedRawOrFileProperties (hashType fanout : Option Nat)
deriving DecidableEq, Repr

/-- Why the code panics. -/
inductive Panic where
  /-- `inner.data.filesize.unwrap()` of a leaf (unixfs/src/file/reader.rs:152). -/
  | leafWithoutSize
  /-- `offset + filesize` or the running sum of block sizes exceeds a `u64`
  (unixfs/src/file/reader.rs:124-139, unixfs/src/pb.rs:186-192). -/
  | sizeOverflow
  /-- `&content[start..end]` (unixfs/src/file/visit.rs:276). -/
  | sliceOutOfBounds
  /-- no pending link where one was expected (unixfs/src/file/visit.rs:142-144, 158-161). -/
  | noPending
deriving DecidableEq, Repr

/-- `FileReadFailed` (unixfs/src/file.rs:22-33), plus `panic` for the panics of the code. -/
inductive ReadFail where
  | file (e : FileError)
  | unexpectedType (t : FsType)
  | read
  | invalidCid (nth : Nat)
  | panic (p : Panic)
deriving DecidableEq, Repr

/-- `Ending` (unixfs/src/file/reader.rs:38-43). -/
inductive Ending where
  | treeCoverage (e : Nat)
  | chunk (e : Nat)
deriving DecidableEq, Repr

/-- `Ending::check_is_suitable_next` (unixfs/src/file/reader.rs:47-71). -/
def Ending.check (e : Ending) (offset : Nat) (next : Rng) : Except FileError Unit :=
  match e with
  | .treeCoverage coverEnd =>
    if next.start ≤ offset ∧ next.stop > coverEnd then .error .treeExpandsOnLinks
    else if next.start < coverEnd ∧ next.stop > coverEnd then .error .treeOverlapsBetweenLinks
    else if next.start < offset then .error .earlierLink
    else .ok ()
  | .chunk chunkEnd =>
    if next.start ≠ chunkEnd then .error .treeJumpsBetweenLinks else .ok ()

/-- `FileReader` (unixfs/src/file/reader.rs:19-27). -/
structure FileReader where
  offset : Nat
  ending : Ending
  links : List PBLink
  data : Bytes
  blocksizes : List Nat
  metadata : Metadata
  fileSize : Nat
deriving DecidableEq, Repr

/-- `Traversal` (unixfs/src/file/reader.rs:189-195). -/
structure Traversal where
  lastEnding : Ending
  lastOffset : Nat
  fileSize : Nat
  metadata : Metadata
deriving DecidableEq, Repr

/-- `FileReader::from_parts` (unixfs/src/file/reader.rs:103-155). The final
`inner.data.filesize.unwrap()` panics for a leaf without file size. -/
def FileReader.fromParts (inner : Flat) (offset : Nat) (metadata : Metadata) :
    Except ReadFail FileReader :=
  let emptyOrNoContent := (inner.data.data.map List.isEmpty).getD true
  let isZeroBytes := inner.data.filesize.getD 0 == 0
  if inner.data.type ≠ .file ∧ inner.data.type ≠ .raw then .error (.unexpectedType inner.data.type)
  else if inner.links.length ≠ inner.data.blocksizes.length then
    .error (.file .linksAndBlocksizesMismatch)
  else if emptyOrNoContent && !isZeroBytes && inner.links.isEmpty then
    .error (.file .noLinksNoContent)
  else
    let data := inner.data.data.getD []
    if inner.data.hashType.isSome || inner.data.fanout.isSome then
      .error (.file (.unexpectedRawOrFileProperties inner.data.hashType inner.data.fanout))
    else
      let ending : Except ReadFail Ending :=
        if inner.links.isEmpty then
          let filesize := inner.data.filesize.getD data.length
          if offset + filesize < 2 ^ 64 then .ok (.chunk (offset + filesize))
          else .error (.panic .sizeOverflow)
        else
          match inner.data.filesize with
          | some filesize =>
            if offset + filesize < 2 ^ 64 then .ok (.treeCoverage (offset + filesize))
            else .error (.panic .sizeOverflow)
          | none => .error (.file .intermediateNodeWithoutFileSize)
      match ending with
      | .error e => .error e
      | .ok ending =>
        match inner.data.filesize with
        | none => .error (.panic .leafWithoutSize)
        | some fileSize =>
          .ok { offset := offset, ending := ending, links := inner.links, data := data,
                blocksizes := inner.data.blocksizes, metadata := metadata, fileSize := fileSize }

/-- `From<ParsingFailed> for FileReadFailed` (unixfs/src/file.rs:57-67) and
`FlatUnixFs::try_from`. -/
def parseFlat (bs : Bytes) : Except ReadFail Flat :=
  match Flat.parse bs with
  | .error _ => .error .read
  | .ok f => .ok f

/-- `FileReader::from_block` (unixfs/src/file/reader.rs:76-80). -/
def FileReader.fromBlock (bs : Bytes) : Except ReadFail FileReader :=
  match parseFlat bs with
  | .error e => .error e
  | .ok inner => FileReader.fromParts inner 0 (Metadata.of inner.data)

/-- `FileReader::from_continued` (unixfs/src/file/reader.rs:88-101). -/
def FileReader.fromContinued (t : Traversal) (offset : Nat) (bs : Bytes) :
    Except ReadFail FileReader :=
  match parseFlat bs with
  | .error e => .error e
  | .ok inner =>
    if inner.data.mode.isSome || inner.data.mtime.isSome then
      .error (.file (.nonRootDefinesMetadata (Metadata.of inner.data)))
    else FileReader.fromParts inner offset t.metadata

/-- `FileReader::content`, the traversal part (unixfs/src/file/reader.rs:165-171). -/
def FileReader.traversal (r : FileReader) : Traversal :=
  { lastEnding := r.ending, lastOffset := r.offset, metadata := r.metadata, fileSize := r.fileSize }

/-- `Traversal::continue_walk` (unixfs/src/file/reader.rs:205-213). -/
def Traversal.continueWalk (t : Traversal) (next : Bytes) (range : Rng) :
    Except ReadFail FileReader :=
  match t.lastEnding.check t.lastOffset range with
  | .error e => .error (.file e)
  | .ok () => FileReader.fromContinued t range.start next

/-- `block_is_in_target_range` (unixfs/src/file/visit.rs:227-235). -/
def inTarget (block : Rng) (target : Option Rng) : Bool :=
  match target with
  | some t => decide (max block.start t.start ≤ min block.stop t.stop)
  | none => true

/-- `target_slice` (unixfs/src/file/visit.rs:251-278); `none` is the panic of
slicing out of bounds. -/
def targetSlice (content : Bytes) (block target : Rng) : Option Bytes :=
  if !inTarget block (some target) then some []
  else
    let (s, e) :=
      if target.start < block.start then (0, min target.stop block.stop - block.start)
      else if target.stop > block.stop then
        (target.start - block.start, min target.stop block.stop - block.start)
      else
        let s := target.start - block.start
        (s, s + (target.stop - target.start))
    if s ≤ e ∧ e ≤ content.length then some ((content.take e).drop s) else none

/-- `maybe_target_slice` (unixfs/src/file/visit.rs:239-249). -/
def maybeTargetSlice (content : Bytes) (block : Rng) (target : Option Rng) : Option Bytes :=
  match target with
  | some t => targetSlice content block t
  | none => some content

/-- The loop over `RangeLinks` (unixfs/src/pb.rs:186-192) with the range filter and
`to_pending` (unixfs/src/file/visit.rs:210-223), as run by `start_from_reader`
(visit.rs:65-75) and `continue_walk` (visit.rs:181-187). In visiting order. -/
def collectPending (target : Option Rng) :
    Nat → Nat → List (PBLink × Nat) → Except ReadFail (List (Cid × Rng))
  | _, _, [] => .ok []
  | i, base, (link, blocksize) :: rest =>
    if base + blocksize ≥ 2 ^ 64 then .error (.panic .sizeOverflow)
    else
      let range : Rng := ⟨base, base + blocksize⟩
      if inTarget range target then
        match Cid.ofBytes (link.hash.getD []) with
        | none => .error (.invalidCid i)
        | some cid =>
          match collectPending target (i + 1) (base + blocksize) rest with
          | .error e => .error e
          | .ok more => .ok ((cid, range) :: more)
      else collectPending target (i + 1) (base + blocksize) rest

/-- `FileVisit` (unixfs/src/file/visit.rs:122-132). The code keeps `pending` reversed
and pops from the end; here the next link is the head. -/
structure Visit where
  pending : List (Cid × Rng)
  range : Option Rng
  state : Traversal
deriving DecidableEq, Repr

/-- `start_from_reader` (unixfs/src/file/visit.rs:46-97): bytes, file size, metadata and the visit to
continue. -/
def startFromReader (range : Option Rng) (fr : FileReader) :
    Except ReadFail (Bytes × Nat × Metadata × Option Visit) :=
  if fr.links.isEmpty then
    match maybeTargetSlice fr.data ⟨0, fr.data.length⟩ range with
    | none => .error (.panic .sliceOutOfBounds)
    | some content => .ok (content, fr.fileSize, fr.metadata, none)
  else
    match collectPending range 0 fr.offset (fr.links.zip fr.blocksizes) with
    | .error e => .error e
    | .ok [] => .ok ([], fr.fileSize, fr.metadata, none)
    | .ok (p :: ps) =>
      .ok ([], fr.fileSize, fr.metadata,
        some { pending := p :: ps, range := range, state := fr.traversal })

/-- `IdleFileVisit::start` (unixfs/src/file/visit.rs:32-35). -/
def visitStart (range : Option Rng) (block : Bytes) :
    Except ReadFail (Bytes × Nat × Metadata × Option Visit) :=
  match FileReader.fromBlock block with
  | .error e => .error e
  | .ok fr => startFromReader range fr

/-- `IdleFileVisit::start_from_parsed` (unixfs/src/file/visit.rs:37-44) and `FileReader::from_parsed`
(unixfs/src/file/reader.rs:82-85). -/
def visitParsed (range : Option Rng) (inner : Flat) :
    Except ReadFail (Bytes × Nat × Metadata × Option Visit) :=
  match FileReader.fromParts inner 0 (Metadata.of inner.data) with
  | .error e => .error e
  | .ok fr => startFromReader range fr

/-- `FileVisit::continue_walk` (unixfs/src/file/visit.rs:152-196). -/
def Visit.continueWalk (v : Visit) (next : Bytes) : Except ReadFail (Bytes × Option Visit) :=
  match v.pending with
  | [] => .error (.panic .noPending)
  | (_, range) :: pending =>
    match v.state.continueWalk next range with
    | .error e => .error e
    | .ok fr =>
      if fr.links.isEmpty then
        match maybeTargetSlice fr.data range v.range with
        | none => .error (.panic .sliceOutOfBounds)
        | some content =>
          match pending with
          | [] => .ok (content, none)
          | p :: ps => .ok (content, some { v with pending := p :: ps, state := fr.traversal })
      else
        match collectPending v.range 0 fr.offset (fr.links.zip fr.blocksizes) with
        | .error e => .error e
        | .ok new => .ok ([], some { v with pending := new ++ pending, state := fr.traversal })

/-- How a cat stream ends. -/
inductive CatEnd where
  | done
  | loading (c : Cid)
  | walking (e : ReadFail)
  | panic (p : Panic)
  | outOfFuel
deriving DecidableEq, Repr

/-- The `loop` of `cat` (src/unixfs/cat.rs:83-117), cut off after `fuel` blocks: the
chunks yielded and how it ended. `fetch` is `ipfs.get_block`; a block that never
arrives is reported as `loading`. An empty `pending` makes `pending_links` panic
(unixfs/src/file/visit.rs:142-144). -/
def catLoop (fetch : Cid → Option Bytes) : Nat → Visit → List Bytes × CatEnd
  | 0, _ => ([], .outOfFuel)
  | fuel + 1, v =>
    match v.pending with
    | [] => ([], .panic .noPending)
    | (next, _) :: _ =>
      match fetch next with
      | none => ([], .loading next)
      | some data =>
        match v.continueWalk data with
        | .error (.panic p) => ([], .panic p)
        | .error e => ([], .walking e)
        | .ok (bytes, more) =>
          let chunk := if bytes.isEmpty then [] else [bytes]
          match more with
          | none => (chunk, .done)
          | some v' =>
            let (rest, e) := catLoop fetch fuel v'
            (chunk ++ rest, e)

/-- `cat` from a root block (src/unixfs/cat.rs:18-119). -/
def cat (fetch : Cid → Option Bytes) (range : Option Rng) (root : Bytes) (fuel : Nat) :
    List Bytes × CatEnd :=
  match visitStart range root with
  | .error (.panic p) => ([], .panic p)
  | .error e => ([], .walking e)
  | .ok (bytes, _, _, visit) =>
    let chunk := if bytes.isEmpty then [] else [bytes]
    match visit with
    | none => (chunk, .done)
    | some v =>
      let (rest, e) := catLoop fetch fuel v
      (chunk ++ rest, e)

end Verif.Unixfs
