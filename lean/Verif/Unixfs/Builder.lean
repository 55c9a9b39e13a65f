import Verif.Base.BMap
import Verif.Base.Cid
import Verif.Base.Split
import Verif.Unixfs.Reader

/-!
# Collecting the entries of a directory tree

Model of `unixfs/src/dir/builder.rs`, `unixfs/src/dir/builder/dir_builder.rs` and
`unixfs/src/dir/builder/buffered.rs`.

* The walk down the tree through mutable references becomes a recursion over the segments that rebuilds
  the directories on the way; what was changed before an error stays changed.
* The counter does not overflow: less than `2^64` directories are made.
* `longest_path` only sizes an allocation. It is kept, as it is state of the builder.
* Strings are kept as their UTF-8 bytes. The paths inside of errors are left out.
-/

namespace Verif.Unixfs

open Verif

/-- `Leaf` (unixfs/src/dir/builder.rs:42-45). -/
structure Leaf where
  link : Cid
  total : Nat
deriving DecidableEq, Repr

/-- `DirBuilder` (unixfs/src/dir/builder/dir_builder.rs:11-20), with the type of its entries open. -/
structure DirOf (ε : Type) where
  nodes : List (Bytes × ε)
  metadata : Metadata
  parentId : Option Nat
  id : Nat

/-- `Entry` (unixfs/src/dir/builder.rs:16-19). -/
inductive Entry where
  | leaf (l : Leaf)
  | directory (d : DirOf Entry)

/-- `DirBuilder`. -/
abbrev DirBuilder := DirOf Entry

/-- `TreeOptions` (unixfs/src/dir/builder.rs:55-68), and whether overflow checks are on. -/
structure TreeOpts where
  blockSizeLimit : Option Nat := some (512 * 1024)
  wrapWithDirectory : Bool := false
  debug : Bool := true
deriving DecidableEq, Repr

/-- `TreeBuildingFailed` (unixfs/src/dir/builder.rs:88-104), and the panics. -/
inductive PutErr where
  | rootedPath
  | repeatSlashes
  | endsInSlash
  | tooManyRootLevelEntries
  | duplicatePath
  | leafAsDirectory
  | panic
deriving DecidableEq, Repr

/-- `DirBuilder::root` (unixfs/src/dir/builder/dir_builder.rs:33-40). -/
def DirBuilder.root (id : Nat) : DirBuilder := ⟨[], {}, none, id⟩

/-- `DirBuilder::new` (unixfs/src/dir/builder/dir_builder.rs:23-31); `none` is the failing assertion. -/
def DirBuilder.new (parentId id : Nat) : Option DirBuilder :=
  if parentId = id then none else some ⟨[], {}, some parentId, id⟩

/-- `BufferingTreeBuilder` (unixfs/src/dir/builder/buffered.rs:8-17). -/
structure Builder where
  root : DirBuilder
  longestPath : Nat
  counter : Nat
  opts : TreeOpts

/-- `BufferingTreeBuilder::new` (unixfs/src/dir/builder/buffered.rs:27-34). -/
def Builder.new (opts : TreeOpts) : Builder := ⟨DirBuilder.root 0, 0, 1, opts⟩

/-- What is done with the directory, the last segment and the next id (the argument `f` of
`modify_with`): the directory afterwards, whether the id was taken, and the result. -/
abbrev PutFn := DirBuilder → Bytes → Nat → DirBuilder × Bool × Except PutErr Unit

/-- `DirBuilder::put_leaf` (unixfs/src/dir/builder/dir_builder.rs:42-50) within `put_link`
(unixfs/src/dir/builder/buffered.rs:45-54). -/
def putLeaf (l : Leaf) : PutFn := fun d name _ =>
  match AMap.get d.nodes name with
  | some _ => (d, false, .error .duplicatePath)
  | none => ({ d with nodes := BMap.insert d.nodes name (.leaf l) }, false, .ok ())

/-- `DirBuilder::add_or_get_node` (unixfs/src/dir/builder/dir_builder.rs:52-65) and `set_metadata`
(unixfs/src/dir/builder/dir_builder.rs:75-77) within `set_metadata`
(unixfs/src/dir/builder/buffered.rs:67-73). -/
def putMeta (m : Metadata) : PutFn := fun d name id =>
  match AMap.get d.nodes name with
  | some (.directory c) =>
    ({ d with nodes := BMap.insert d.nodes name (.directory { c with metadata := m }) }, false, .ok ())
  | some (.leaf _) => (d, false, .error .leafAsDirectory)
  | none =>
    match DirBuilder.new d.id id with
    | none => (d, true, .error .panic)
    | some c =>
      ({ d with nodes := BMap.insert d.nodes name (.directory { c with metadata := m }) }, true, .ok ())

/-- The loop of `modify_with` (unixfs/src/dir/builder/buffered.rs:103-164) at some depth: the directory
and the counter afterwards, and the result. -/
def descend (wrap : Bool) (f : PutFn) : Nat → DirBuilder → Nat → List Bytes → DirBuilder × Nat × Except PutErr Unit
  | _, d, counter, [] => (d, counter, .error .panic)
  | depth, d, counter, next :: rest =>
    let last := rest.isEmpty
    if depth = 0 ∧ next = [] ∧ last = false then (d, counter, .error .rootedPath)
    else if depth ≠ 0 ∧ next = [] then (d, counter, .error .panic)
    else
      let full := depth = 0 ∧ wrap = false ∧ d.nodes.isEmpty = false
      if last then
        if full then (d, counter, .error .tooManyRootLevelEntries)
        else
          let (d', taken, r) := f d next counter
          (d', if taken then counter + 1 else counter, r)
      else
        match AMap.get d.nodes next with
        | some (.directory c) =>
          let (c', counter', r) := descend wrap f (depth + 1) c counter rest
          ({ d with nodes := BMap.insert d.nodes next (.directory c') }, counter', r)
        | some (.leaf _) => (d, counter, .error .leafAsDirectory)
        | none =>
          if full then (d, counter, .error .tooManyRootLevelEntries)
          else
            match DirBuilder.new d.id counter with
            | none => (d, counter + 1, .error .panic)
            | some c =>
              let (c', counter', r) := descend wrap f (depth + 1) c (counter + 1) rest
              ({ d with nodes := BMap.insert d.nodes next (.directory c') }, counter', r)

/-- `str::ends_with('/')`. -/
def endsInSlash (p : Bytes) : Bool := p.getLast? == some 47

/-- `str::contains("//")`. -/
def repeatsSlash : Bytes → Bool
  | 47 :: 47 :: _ => true
  | [] => false
  | _ :: p => repeatsSlash p

/-- `modify_with` (unixfs/src/dir/builder/buffered.rs:76-171). -/
def Builder.modify (b : Builder) (path : Bytes) (f : PutFn) : Builder × Except PutErr Unit :=
  let b := { b with longestPath := max path.length b.longestPath }
  if endsInSlash path then (b, .error .endsInSlash)
  else if repeatsSlash path then (b, .error .repeatSlashes)
  else
    let (root, counter, r) := descend b.opts.wrapWithDirectory f 0 b.root b.counter (splitSlash path)
    ({ b with root, counter }, r)

/-- `put_link` (unixfs/src/dir/builder/buffered.rs:39-55). -/
def Builder.putLink (b : Builder) (path : Bytes) (target : Cid) (total : Nat) : Builder × Except PutErr Unit :=
  b.modify path (putLeaf ⟨target, total⟩)

/-- `set_metadata` (unixfs/src/dir/builder/buffered.rs:59-74). -/
def Builder.setMetadata (b : Builder) (path : Bytes) (m : Metadata) : Builder × Except PutErr Unit :=
  b.modify path (putMeta m)

end Verif.Unixfs
