import Verif.Base.Decimal
import Verif.Ipfs.Path
import Verif.Ipld.Codec
import Verif.Unixfs.Dir

/-!
# Resolving a path over documents

Model of `src/dag.rs`. Loading a block is a function `fetch` (`none`: loading failed), so blocks do not
change while a path is resolved. The peekable iterator over the segments is the list of those left.
`resolve_ipns` (see `Verif.Ipfs.Ipns`) has happened already. The loop may be endless when documents that
are nothing but a link form a circle, which needs a circle of hashes; the model has fuel.
-/

namespace Verif.Ipfs

open Verif Verif.Unixfs Verif.Ipld

/-- `ResolvedNode` (src/dag.rs:346-359). -/
inductive Node where
  | block (c : Cid) (data : Bytes)
  | dagPbData (c : Cid) (data : Bytes)
  | projection (c : Cid) (d : Ipld)
  | link (src dest : Cid)
deriving DecidableEq

/-- `RawResolveLocalError` (src/dag.rs:67-90); `panic` is a panic. -/
inductive RawErr where
  | loading (c : Cid)
  | unsupported (c : Cid)
  | outOfRange (c : Cid) (segment index elements : Nat)
  | invalidIndex (c : Cid) (segment : Nat)
  | noLinks (c : Cid) (segment : Nat)
  | notFound (c : Cid) (segment : Nat)
  | panic
deriving DecidableEq, Repr

/-- `add_starting_point_in_path` (src/dag.rs:96-121). -/
def RawErr.addStart (start : Nat) : RawErr → RawErr
  | .outOfRange c s i n => .outOfRange c (s + start) i n
  | .invalidIndex c s => .invalidIndex c (s + start)
  | .noLinks c s => .noLinks c (s + start)
  | .notFound c s => .notFound c (s + start)
  | e => e

/-- `LocallyResolved` (src/dag.rs:409-416); the lookup is its needle and queue. -/
inductive Local where
  | complete (n : Node)
  | incomplete (src : Cid) (needle : Bytes) (queue : List Cid)
deriving DecidableEq

/-- ".". -/
def sDot : Bytes := [46]

/-- `resolve_local_ipld` (src/dag.rs:521-596): what was resolved, the segments matched and the segments
left. -/
def localIpld (doc : Cid) : Ipld → List Bytes → Nat → Except RawErr (Local × Nat × List Bytes)
  | .link c, [], n => .ok (.complete (.link doc c), n, [])
  | d, [], n => .ok (.complete (.projection doc d), n, [])
  | .link c, s :: segs, n =>
    if s = sDot then .ok (.complete (.link doc c), n + 1, segs)
    else .ok (.complete (.link doc c), n, s :: segs)
  | .map m, s :: segs, n =>
    match AMap.get m s with
    | none => .error (.notFound doc n)
    | some found => localIpld doc found segs (n + 1)
  | .list l, s :: segs, n =>
    match parseU64 s with
    | none => .error (.invalidIndex doc n)
    | some i =>
      match l[i]? with
      | some found => localIpld doc found segs (n + 1)
      | none => .error (.outOfRange doc n i l.length)
  | _, _ :: _, n => .error (.noLinks doc n)

/-- `wrap_node_data(data).node_data()` (unixfs/src/dagpb.rs:22-55, 76-83); `none` is the panic when the
field is empty and ends the block, as a range may not start where the block ends. -/
def wrapNodeData (block : Bytes) : Option Bytes :=
  match PBNode.parse block, tokenize PBNode.known block with
  | some node, some tokens =>
    if tokens.getLast? = some (10, .len []) then none else some (node.data.getD [])
  | _, _ => none

/-- `resolve_local_dagpb` (src/dag.rs:471-508). -/
def localDagPb (c : Cid) (data segment : Bytes) (isLast : Bool) : Except RawErr (Local × Nat) :=
  match dirResolve data segment with
  | .ok (.more queue) => .ok (.incomplete c segment queue, 0)
  | .ok (.found dest) => .ok (.complete (.link c dest), 1)
  | .ok .notFound =>
    if segment = kData ∧ isLast = true then
      match wrapNodeData data with
      | none => .error .panic
      | some d => .ok (.complete (.dagPbData c d), 1)
    else .error (.notFound c 0)
  | .error (.unexpectedType t) => if t = .file then .error (.notFound c 0) else .error (.unsupported c)
  | .error (.lookup .panic) => .error .panic
  | .error _ => .error (.unsupported c)

/-- `resolve_local` (src/dag.rs:431-466). -/
def resolveLocal (e : Env) (size : Nat) (c : Cid) (data : Bytes) :
    List Bytes → Except RawErr (Local × Nat × List Bytes)
  | [] => .ok (.complete (.block c data), 0, [])
  | s :: segs =>
    if c.codec = codecDagPb then
      match localDagPb c data s segs.isEmpty with
      | .error x => .error x
      | .ok (r, n) => .ok (r, n, segs)
    else
      match decodeIpld e size c data with
      | .error _ => .error (.unsupported c)
      | .ok d => localIpld c d (s :: segs) 0

/-- `resolve0` (src/dag.rs:266-339), with `resolve_hamt` being `feed`; `none` if the fuel ran out. -/
def resolve0 (e : Env) (size : Nat) (fetch : Cid → Option Bytes) (follow : Bool) :
    Nat → Cid → List Bytes → Nat → Option (Except RawErr (Node × Nat))
  | 0, _, _, _ => none
  | fuel + 1, current, segs, total =>
    match fetch current with
    | none => some (.error (.loading current))
    | some data =>
      match resolveLocal e size current data segs with
      | .error x => some (.error (x.addStart total))
      | .ok (.complete (.link src dest), matched, rest) =>
        if follow then resolve0 e size fetch follow fuel dest rest (total + matched)
        else some (.ok (.link src dest, total + matched))
      | .ok (.incomplete src needle queue, matched, rest) =>
        match feed fetch needle fuel queue with
        | .found dest =>
          if follow then resolve0 e size fetch follow fuel dest rest (total + matched)
          else some (.ok (.link src dest, total + matched))
        | .running => none
        | .failed (.lookup .panic) => some (.error .panic)
        | _ => some (.error (.unsupported src))
      | .ok (.complete other, _, _) => some (.ok (other, total))

/-- `ResolveError` (src/dag.rs:19-58). -/
inductive DagErr where
  | loading (c : Cid)
  | unsupported (c : Cid)
  | outOfRange (c : Cid) (path : List Bytes) (index elements : Nat)
  | noLinks (c : Cid) (path : List Bytes)
  | notFound (c : Cid) (path : List Bytes)
  | panic
deriving DecidableEq, Repr

/-- The truncated path in an error; the assertion of `into_truncated` may fail. -/
def truncOr (path : IpfsPath) (n : Nat) (f : List Bytes → DagErr) : DagErr :=
  match path.truncated n with
  | some l => f l
  | none => .panic

/-- `with_path` (src/dag.rs:126-156). -/
def RawErr.withPath (path : IpfsPath) : RawErr → DagErr
  | .loading c => .loading c
  | .unsupported c => .unsupported c
  | .outOfRange c s i n => truncOr path (s + 1) (fun l => .outOfRange c l i n)
  | .invalidIndex c s => truncOr path (s + 1) (.notFound c)
  | .noLinks c s => truncOr path (s + 1) (.noLinks c)
  | .notFound c s => truncOr path (s + 1) (.notFound c)
  | .panic => .panic

/-- `IpldDag::resolve` (src/dag.rs:230-263) for a path with the cid as its root. -/
def dagResolve (e : Env) (size : Nat) (fetch : Cid → Option Bytes) (follow : Bool) (fuel : Nat) (c : Cid)
    (path : List Bytes) : Option (Except DagErr (Node × List Bytes)) :=
  let p : IpfsPath := ⟨.ipld c, path⟩
  match resolve0 e size fetch follow fuel c path 0 with
  | none => none
  | some (.error x) => some (.error (x.withPath p))
  | some (.ok (node, matched)) =>
    match p.shifted matched with
    | some rest => some (.ok (node, rest))
    | none => some (.error .panic)

/-- `Ipld::try_from(ResolvedNode)` (src/dag.rs:389-403), the error being `UnsupportedDocument`. -/
def Node.toIpld (e : Env) (size : Nat) : Node → Except DagErr Ipld
  | .block c data =>
    match decodeIpld e size c data with
    | .ok d => .ok d
    | .error _ => .error (.unsupported c)
  | .dagPbData _ data => .ok (.bytes data)
  | .projection _ d => .ok d
  | .link _ c => .ok (.link c)

/-- `IpldDag::get` (src/dag.rs:194-218) for a path with the cid as its root. -/
def dagGet (e : Env) (size : Nat) (fetch : Cid → Option Bytes) (fuel : Nat) (c : Cid) (path : List Bytes) :
    Option (Except DagErr Ipld) :=
  match resolve0 e size fetch true fuel c path 0 with
  | none => none
  | some (.error x) => some (.error (x.withPath ⟨.ipld c, path⟩))
  | some (.ok (node, _)) => some (node.toIpld e size)

end Verif.Ipfs
