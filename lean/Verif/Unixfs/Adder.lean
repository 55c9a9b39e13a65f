import Verif.Base.Cid
import Verif.Unixfs.Pb

/-!
# Adding files

Model of `unixfs/src/file/adder.rs`. The sha2-256 function is a parameter
`sha : Bytes → Bytes`. Vector capacities and the reuse of allocations
(`reused_links`, `reused_blocksizes`) are erased. Sizes are `Nat`.
-/

namespace Verif.Unixfs

open Verif

/-- How the code can go wrong other than by returning an error: an assertion,
slice or arithmetic panic, or a loop that does not end within the fuel given. -/
inductive Fail where
  | panic
  | diverges
deriving DecidableEq, Repr

/-- `Link` (unixfs/src/file/adder.rs:88-99). -/
structure Link where
  depth : Nat
  target : Cid
  totalSize : Nat
  fileSize : Nat
deriving DecidableEq, Repr

/-- `FileAdder` (unixfs/src/file/adder.rs:19-29) with `Chunker::Size(chunk)` and
`BalancedCollector { branching_factor: bf }`. -/
structure Adder where
  chunk : Nat
  bf : Nat
  buffer : Bytes := []
  links : List Link := []
deriving DecidableEq, Repr

/-- A block together with its cid, as returned by `push` and `finish`. -/
abbrev Block := Cid × Bytes

/-- `render_and_hash` (unixfs/src/file/adder.rs:307-318). -/
def renderAndHash (sha : Bytes → Bytes) (f : Flat) : Block :=
  let out := f.write
  (Cid.v0 (sha out), out)

/-- `Chunker::accept` (unixfs/src/file/adder.rs:335-346). `none` is the underflow of
`*max - buffered.len()`. -/
def accept (max : Nat) (input buffered : Bytes) : Option (Bytes × Bool) :=
  if max < buffered.length then none
  else
    let l := min input.length (max - buffered.length)
    some (input.take l, decide (buffered.length + l ≥ max))

/-- The `FlatUnixFs` rendered for a leaf (unixfs/src/file/adder.rs:238-255). -/
def leafFlat (input : Bytes) : Flat :=
  { links := []
    data :=
      { type := .file
        data := if input.isEmpty then none else some input
        filesize := some input.length } }

/-- `FileAdder::flush_buffered_leaf` (unixfs/src/file/adder.rs:227-271). -/
def flushBufferedLeaf (sha : Bytes → Bytes) (input : Bytes) (unflushed : List Link)
    (finishing : Bool) : Option Block × List Link :=
  if input.isEmpty && (!finishing || !unflushed.isEmpty) then (none, unflushed)
  else
    let b := renderAndHash sha (leafFlat input)
    (some b, unflushed ++
      [{ depth := 0, target := b.1, totalSize := b.2.length, fileSize := input.length }])

/-- Accumulators of `partition_link`: links, blocksizes, nested size, nested total size. -/
structure Partition where
  links : List PBLink := []
  blocksizes : List Nat := []
  nestedSize : Nat := 0
  nestedTotal : Nat := 0

/-- `BalancedCollector::partition_link` (unixfs/src/file/adder.rs:622-637). -/
def partitionLink (p : Partition) (l : Link) : Partition :=
  { links := p.links ++ [{ hash := some l.target.toBytes, name := some [], tsize := some l.totalSize }]
    blocksizes := p.blocksizes ++ [l.fileSize]
    nestedSize := p.nestedSize + l.fileSize
    nestedTotal := p.nestedTotal + l.totalSize }

/-- The `FlatUnixFs` rendered for a link block (unixfs/src/file/adder.rs:568-576). -/
def Partition.flat (p : Partition) : Flat :=
  { links := p.links
    data := { type := .file, filesize := some p.nestedSize, blocksizes := p.blocksizes } }

/-- The `while let Some(first_at) = ..` loop for one level and the code after it
(unixfs/src/file/adder.rs:516-611). Returns the new `pending`, the blocks made and
whether `break 'outer` was taken. The `debug_assert` at 605-611 is a panic here. -/
def levelLoop (sha : Bytes → Bytes) (bf level : Nat) (finishing : Bool) :
    Nat → List Link → List Block → Nat → Option Nat → Except Fail (List Link × List Block × Bool)
  | 0, _, _, _, _ => .error .diverges
  | fuel + 1, pending, ret, startingPoint, lastOverwrite =>
    match (pending.drop startingPoint).findIdx? (fun l => l.depth == level) with
    | none =>
      let pending := lastOverwrite.elim pending (fun i => pending.take (i + 1))
      if pending.any (fun l => l.depth == level) then .error .panic
      else .ok (pending, ret, false)
    | some rel =>
      let firstAt := rel + startingPoint
      if !finishing && decide ((pending.drop firstAt).length ≤ bf) then
        let pending := lastOverwrite.elim pending
          (fun i => pending.take (i + 1) ++ pending.drop firstAt)
        .ok (pending, ret, true)
      else
        let last := min (firstAt + bf) pending.length
        let group := (pending.drop firstAt).take (last - firstAt)
        if group.any (fun l => l.depth != level) then .error .panic
        else
          let p := group.foldl partitionLink {}
          let b := renderAndHash sha p.flat
          let index := (lastOverwrite.map (· + 1)).getD firstAt
          let pending := pending.set index
            { depth := level + 1, target := b.1, totalSize := p.nestedTotal + b.2.length,
              fileSize := p.nestedSize }
          levelLoop sha bf level finishing fuel pending (ret ++ [b]) last (some index)

/-- The `'outer: for level in 0..` loop (unixfs/src/file/adder.rs:501-612), cut off
after `fuel` levels. -/
def flushLoop (sha : Bytes → Bytes) (bf : Nat) (finishing : Bool) :
    Nat → Nat → List Link → List Block → Except Fail (List Link × List Block)
  | 0, _, _, _ => .error .diverges
  | fuel + 1, level, pending, ret =>
    if (pending.length == 1 && finishing) || (decide (pending.length ≤ bf) && !finishing) then
      .ok (pending, ret)
    else
      match levelLoop sha bf level finishing (pending.length + 1) pending ret 0 none with
      | .error e => .error e
      | .ok (pending, ret, true) => .ok (pending, ret)
      | .ok (pending, ret, false) => flushLoop sha bf finishing fuel (level + 1) pending ret

/-- `BalancedCollector::flush_links` (unixfs/src/file/adder.rs:438-618). The level
loop has no bound in the code; more than `pending.len() + 2` rounds are reported
as divergence. -/
def flushLinks (sha : Bytes → Bytes) (bf : Nat) (pending : List Link) (finishing : Bool) :
    Except Fail (List Link × List Block) :=
  flushLoop sha bf finishing (pending.length + 2) 0 pending []

/-- `FileAdder::push` (unixfs/src/file/adder.rs:163-209): new blocks, bytes consumed and
the new state. -/
def Adder.push (sha : Bytes → Bytes) (a : Adder) (input : Bytes) :
    Except Fail (List Block × Nat × Adder) :=
  match accept a.chunk input a.buffer with
  | none => .error .panic
  | some (accepted, ready) =>
    if a.buffer.isEmpty && ready then
      match flushBufferedLeaf sha accepted a.links false with
      | (none, _) => .error .panic
      | (some leaf, links) =>
        match flushLinks sha a.bf links false with
        | .error e => .error e
        | .ok (links, blocks) =>
          .ok (leaf :: blocks, accepted.length, { a with buffer := [], links := links })
    else
      let buffer := a.buffer ++ accepted
      if !ready then .ok ([], accepted.length, { a with buffer := buffer })
      else
        match flushBufferedLeaf sha buffer a.links false with
        | (none, _) => .error .panic
        | (some leaf, links) =>
          match flushLinks sha a.bf links false with
          | .error e => .error e
          | .ok (links, blocks) =>
            .ok (leaf :: blocks, accepted.length, { a with buffer := [], links := links })

/-- `FileAdder::finish` (unixfs/src/file/adder.rs:217-223). -/
def Adder.finish (sha : Bytes → Bytes) (a : Adder) : Except Fail (List Block) :=
  let (leaf, links) := flushBufferedLeaf sha a.buffer a.links true
  match flushLinks sha a.bf links true with
  | .error e => .error e
  | .ok (_, blocks) => .ok (leaf.toList ++ blocks)

/-- The loop every caller runs around `push`
(http/src/v0/root_files/add.rs:289-312, unixfs/src/file/adder.rs:291-298): push the
unconsumed rest until everything is consumed. -/
def Adder.pushAll (sha : Bytes → Bytes) : Nat → Adder → Bytes → Except Fail (List Block × Adder)
  | 0, a, input => if input.isEmpty then .ok ([], a) else .error .diverges
  | fuel + 1, a, input =>
    if input.isEmpty then .ok ([], a)
    else
      match a.push sha input with
      | .error e => .error e
      | .ok (blocks, consumed, a') =>
        match Adder.pushAll sha fuel a' (input.drop consumed) with
        | .error e => .error e
        | .ok (more, a'') => .ok (blocks ++ more, a'')

/-- Feeding a sequence of slices, each pushed completely. -/
def Adder.pushSlices (sha : Bytes → Bytes) : Adder → List Bytes → Except Fail (List Block × Adder)
  | a, [] => .ok ([], a)
  | a, s :: ss =>
    match Adder.pushAll sha s.length a s with
    | .error e => .error e
    | .ok (blocks, a') =>
      match Adder.pushSlices sha a' ss with
      | .error e => .error e
      | .ok (more, a'') => .ok (blocks ++ more, a'')

/-- Adding a file given as slices: all blocks in emission order, the root last. -/
def addFile (sha : Bytes → Bytes) (chunk bf : Nat) (slices : List Bytes) :
    Except Fail (List Block) :=
  match Adder.pushSlices sha { chunk := chunk, bf := bf } slices with
  | .error e => .error e
  | .ok (blocks, a) =>
    match a.finish sha with
    | .error e => .error e
    | .ok last => .ok (blocks ++ last)

end Verif.Unixfs
