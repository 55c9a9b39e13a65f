import Verif.Http.Block
import Verif.Http.RefsFormat
import Verif.Ipfs.Refs

/-!
# Resolving paths and listing references over HTTP

Model of `resolve` in http/src/v0/dag.rs and of http/src/v0/refs.rs.

* The node is as for `cat` (`Served`): blocks do not change during a request, they are named by the cid they are asked
  for with (see `resolveBlocks`), and loading one that is not there fails.
* The paths of a request to `refs` are resolved one after another. `FuturesOrdered` polls all of them, which makes a
  difference only when one of them panics or does not end.
* The texts of errors that come from libraries are parameters.
-/

namespace Verif.Http

open Verif Verif.Ipfs Verif.Ipld Verif.Repo

/-- "local-resolve". -/
def kLocalResolve : Bytes := "local-resolve".toUTF8.toList

/-- `ResolveOptions` (dag.rs:113-119) with the parser of queries. -/
structure ResolveQuery where
  arg : Bytes
  timeout : Option Nat
  localResolve : Bool
deriving DecidableEq, Repr

def resolveQuery (q : QueryEnv) (query : Bytes) : Except Unit ResolveQuery :=
  let pairs := formPairs q.lossy query
  match queryField some kArg pairs, queryField q.duration kTimeout pairs,
      queryField RefsOptions.parseBool kLocalResolve pairs with
  | .ok (some arg), .ok timeout, .ok loc => .ok ⟨arg, timeout, loc.getD false⟩
  | _, _, _ => .error ()

/-- How a request fails. -/
inductive RefsFail where
  | badQuery
  | options (e : RefsOptions.OptErr)
  | format (e : RefsFormat.InvalidFormat)
  | path (text : Bytes)
  | elapsed
  | resolving (e : AnyErr)
  /-- decoding the block a path leads to -/
  | document (c : Cid)
deriving DecidableEq

/-- `IpldDag::resolve` (src/dag.rs:230-263) for any path; `none` if the fuel ran out. -/
def resolveNode (mb : UInt8 → Bytes → Option Bytes) (s : Served) (follow : Bool) (path : IpfsPath) :
    Option (Except AnyErr (Node × List Bytes)) :=
  match resolveIpns mb s.txt s.fuel path true with
  | none => none
  | some (.error _) => some (.error (.ipnsResolutionFailed path))
  | some (.ok resolved) =>
    match resolved.root with
    | .ipld c =>
      match dagResolve s.env s.size s.fetch follow s.fuel c resolved.path with
      | none => none
      | some (.error e) => some (.error (.dag e))
      | some (.ok r) => some (.ok r)
    | _ => some (.error (.noCid resolved))

/-- An answer: a body or an error, a panic, or none yet when the fuel ran out. -/
inductive ResolveReply where
  | ok (body : Bytes)
  | failed (e : RefsFail)
  | panic
  | running
deriving DecidableEq

/-- `{"Cid": {"/": cid}, "RemPath": path}` (dag.rs:144-147). -/
def resolvedObject (c : Cid) (rem : List Bytes) : Json :=
  .obj [("Cid".toUTF8.toList, .obj [("/".toUTF8.toList, .str c.toText)]), ("RemPath".toUTF8.toList, .str (slashedText rem))]

/-- `inner_resolve` (dag.rs:121-148). -/
def resolveInner (mb : UInt8 → Bytes → Option Bytes) (s : Served) (o : ResolveQuery) : ResolveReply :=
  match IpfsPath.parse mb o.arg with
  | none => .failed (.path o.arg)
  | some path =>
    if s.timedOut o.timeout then .failed .elapsed
    else
      match resolveNode mb s (!o.localResolve) path with
      | none => .running
      | some (.error (.dag .panic)) => .panic
      | some (.error e) => .failed (.resolving e)
      | some (.ok (node, rem)) => .ok (resolvedObject (nodeSource node) rem).write

/-- `resolve` (dag.rs:105-111). -/
def resolveRequest (q : QueryEnv) (s : Served) (query : Option Bytes) : ResolveReply :=
  match resolveQuery q (query.getD []) with
  | .error () => .failed .badQuery
  | .ok o => resolveInner q.mb s o

/-! ### `refs` -/

/-- The document a path leads to, if it can have links (refs.rs:147-161); `panic` is the `unreachable!`. -/
inductive RootDoc where
  | doc (c : Cid) (d : Ipld)
  | noLinks
  | failed (e : RefsFail)
  | panic
deriving DecidableEq

def rootDoc (env : Env) (size : Nat) : Node → RootDoc
  | .dagPbData _ _ => .noLinks
  | .link _ _ => .panic
  | .block c data =>
    match decodeIpld env size c data with
    | .ok d => .doc c d
    | .error _ => .failed (.document c)
  | .projection c d => .doc c d

/-- What comes of the paths. -/
inductive Roots where
  | ok (l : List (Cid × Ipld))
  | failed (e : RefsFail)
  | panic
  | running
deriving DecidableEq

/-- One more document in front. -/
def Roots.cons (x : Option (Cid × Ipld)) : Roots → Roots
  | .ok l => .ok (x.toList ++ l)
  | r => r

/-- The paths resolved, up to the first that fails (refs.rs:133-168). -/
def refsRoots (mb : UInt8 → Bytes → Option Bytes) (s : Served) : List IpfsPath → Roots
  | [] => .ok []
  | p :: ps =>
    match resolveNode mb s true p with
    | none => .running
    | some (.error (.dag .panic)) => .panic
    | some (.error e) => .failed (.resolving e)
    | some (.ok (node, _)) =>
      match rootDoc s.env s.size node with
      | .panic => .panic
      | .failed e => .failed e
      | .noLinks => refsRoots mb s ps
      | .doc c d => (refsRoots mb s ps).cons (some (c, d))

/-- All of the paths, or the first text that is not one (refs.rs:47-51). -/
def parsePaths (mb : UInt8 → Bytes → Option Bytes) : List Bytes → Except Bytes (List IpfsPath)
  | [] => .ok []
  | t :: ts =>
    match IpfsPath.parse mb t with
    | none => .error t
    | some p =>
      match parsePaths mb ts with
      | .error e => .error e
      | .ok ps => .ok (p :: ps)

/-- The links of the documents (src/refs.rs:164-174); `none` is a panic. -/
def rootLinks : List (Cid × Ipld) → Option (List (Cid × List (Option Bytes × Cid)))
  | [] => some []
  | (c, d) :: l =>
    match Refs.ipldLinks c d, rootLinks l with
    | some ls, some rs => some ((c, ls) :: rs)
    | _, _ => none

/-- `Edge` (refs.rs:100-106). -/
def edgeObject (ref err : Bytes) : Json := .obj [("Ref".toUTF8.toList, .str ref), ("Err".toUTF8.toList, .str err)]

/-- A line of the answer (refs.rs:66-94). No other errors than those of blocks come here (src/refs.rs:127-134). -/
def edgeLine (blockText : BlockErr → Bytes) (f : RefsFormat.Formatter) : Refs.Item → Bytes
  | .edge e => (edgeObject (f.render e.source e.destination e.name) []).write ++ [10]
  | .blockErr e => (edgeObject [] (blockText e)).write ++ [10]
  | .notFound _ => []

/-- An answer to `refs`. -/
inductive RefsReply where
  | failed (e : RefsFail)
  /-- status 200, the lines, and whether the stream ends without a panic -/
  | stream (lines : List Bytes) (ending : Refs.Ending)
  | panic
  | running
deriving DecidableEq

/-- The stream (src/refs.rs:111-136). -/
def refsStream (blockText : BlockErr → Bytes) (s : Served) (f : RefsFormat.Formatter) (maxDepth : Option Nat)
    (unique : Bool) (docs : List (Cid × Ipld)) : RefsReply :=
  match (if maxDepth = some 0 then some [] else rootLinks docs) with
  | none => .panic
  | some roots =>
    match Refs.refs ⟨maxDepth, unique, true, s.debug⟩ (Refs.look s.env s.size s.fetch) s.fuel roots with
    | none => .running
    | some (items, ending) => .stream (items.map (edgeLine blockText f)) ending

/-- `refs_inner` (refs.rs:31-97). -/
def refsInner (blockText : BlockErr → Bytes) (mb : UInt8 → Bytes → Option Bytes) (s : Served)
    (o : RefsOptions.RefsOptions Nat) : RefsReply :=
  match RefsFormat.fromOptions o.edges o.format with
  | .error e => .failed (.format e)
  | .ok f =>
    match parsePaths mb o.arg with
    | .error t => .failed (.path t)
    | .ok paths =>
      if s.timedOut o.timeout then .failed .elapsed
      else
        match refsRoots mb s paths with
        | .failed e => .failed e
        | .panic => .panic
        | .running => .running
        | .ok docs => refsStream blockText s f o.depth o.unique docs

/-- `refs` (refs.rs:25-29, 109-118): a query is required. -/
def refsRequest (q : QueryEnv) (blockText : BlockErr → Bytes) (s : Served) : Option Bytes → RefsReply
  | none => .failed .badQuery
  | some query =>
    match RefsOptions.parse q.duration (formPairs q.lossy query) with
    | .error e => .failed (.options e)
    | .ok o => refsInner blockText q.mb s o

/-! ### `refs/local` -/

/-- `inner_local` (refs.rs:181-208): the lines for what `list_blocks` gave (src/repo/mod.rs:485-487). -/
def refsLocal (listed : List Cid) : List Bytes := listed.map (fun c => (edgeObject c.toText []).write ++ [10])

/-- The status of an error: those of the query parser are rejected, all others are messages. -/
def refsStatus : RefsFail → Nat
  | .badQuery => 400
  | _ => 500

end Verif.Http
