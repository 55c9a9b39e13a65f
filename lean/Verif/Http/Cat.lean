import Verif.Http.Publish
import Verif.Http.Tar
import Verif.Ipfs.Ipns
import Verif.Unixfs.Reader

/-!
# `cat` and `get` over HTTP

Model of `cat` and `get` in http/src/v0/root_files.rs with what they use of `src/unixfs/cat.rs` and
`src/dag.rs`.

* `String::from_utf8_lossy` is the parameter `lossy`, and the parser of durations is `duration`.
* Which block a cid has does not change during a request (`fetch`; `none`: loading it fails). Whether a
  timeout that was asked for elapses is up to the environment.
* All errors of the query parser are one: the client gets a status 400 with their text. `serde` stops at
  the first, which makes no difference.
* A panic in a handler closes the connection.
-/

namespace Verif.Http

open Verif Verif.Ipfs Verif.Unixfs Verif.Ipld

/-- `form_urlencoded::parse`, by `serde_urlencoded` for `warp::query`: no query is the same as an empty one. -/
def formPairs (lossy : Bytes → Bytes) (query : Bytes) : List (Bytes × Bytes) :=
  (rawParts query).map (fun p => (lossy (percentDecode (replacePlus p.1)), lossy (percentDecode (replacePlus p.2))))

/-- A field of a struct, as derived by `serde`: it may not be given twice. -/
def fieldOnce (name : Bytes) (pairs : List (Bytes × Bytes)) : Except Unit (Option Bytes) :=
  match pairs.filter (fun p => p.1 = name) with
  | [] => .ok none
  | [p] => .ok (some p.2)
  | _ => .error ()

/-- An optional field with its parser. -/
def queryField {α : Type} (parse : Bytes → Option α) (name : Bytes) (pairs : List (Bytes × Bytes)) : Except Unit (Option α) :=
  match fieldOnce name pairs with
  | .error () => .error ()
  | .ok none => .ok none
  | .ok (some v) =>
    match parse v with
    | some x => .ok (some x)
    | none => .error ()

/-- "arg", "offset", "length" and "timeout". -/
def kArg : Bytes := [0x61, 0x72, 0x67]
def kOffset : Bytes := [0x6F, 0x66, 0x66, 0x73, 0x65, 0x74]
def kLength : Bytes := [0x6C, 0x65, 0x6E, 0x67, 0x74, 0x68]
def kTimeout : Bytes := [0x74, 0x69, 0x6D, 0x65, 0x6F, 0x75, 0x74]

/-- `CatArgs` (root_files.rs:45-51). -/
structure CatArgs where
  arg : IpfsPath
  offset : Option Nat
  length : Option Nat
  timeout : Option Nat
deriving DecidableEq, Repr

/-- What parsing needs. -/
structure QueryEnv where
  lossy : Bytes → Bytes
  duration : Bytes → Option Nat
  mb : UInt8 → Bytes → Option Bytes

/-- The query of `cat` (root_files.rs:53-57). -/
def catQuery (q : QueryEnv) (query : Bytes) : Except Unit CatArgs :=
  let pairs := formPairs q.lossy query
  match queryField (IpfsPath.parse q.mb) kArg pairs, queryField parseU64 kOffset pairs, queryField parseU64 kLength pairs,
      queryField q.duration kTimeout pairs with
  | .ok (some arg), .ok offset, .ok length, .ok timeout => .ok ⟨arg, offset, length, timeout⟩
  | _, _, _, _ => .error ()

/-- `GetArgs` (root_files.rs:90-94) and the query of `get` (root_files.rs:96-100). -/
def getQuery (q : QueryEnv) (query : Bytes) : Except Unit (IpfsPath × Option Nat) :=
  let pairs := formPairs q.lossy query
  match queryField (IpfsPath.parse q.mb) kArg pairs, queryField q.duration kTimeout pairs with
  | .ok (some arg), .ok timeout => .ok (arg, timeout)
  | _, _ => .error ()

/-- The node a request is made to. -/
structure Served where
  txt : Txt
  env : Env
  size : Nat
  fetch : Cid → Option Bytes
  /-- a debug build checks additions -/
  debug : Bool
  /-- the timeout of the request elapses, if there is one -/
  elapses : Bool
  fuel : Nat

/-- `IpldDag::resolve` (src/dag.rs:230-263) for any path; `none` if the fuel ran out. -/
def resolveAny (mb : UInt8 → Bytes → Option Bytes) (s : Served) (path : IpfsPath) : Option (Except AnyErr Node) :=
  match resolveIpns mb s.txt s.fuel path true with
  | none => none
  | some (.error _) => some (.error (.ipnsResolutionFailed path))
  | some (.ok resolved) =>
    match resolved.root with
    | .ipld c =>
      match dagResolve s.env s.size s.fetch true s.fuel c resolved.path with
      | none => none
      | some (.error e) => some (.error (.dag e))
      | some (.ok (node, _)) => some (.ok node)
    | _ => some (.error (.noCid resolved))

/-- `UnexpectedResolved`. -/
inductive NotUnixfs where
  | codec (n : Node)
  | nonBlock (n : Node)
deriving DecidableEq

/-- `ResolvedNode::source` (src/dag.rs:363-370). -/
def nodeSource : Node → Cid
  | .block c _ => c
  | .dagPbData c _ => c
  | .projection c _ => c
  | .link c _ => c

/-- `into_unixfs_block` (src/dag.rs:374-386). -/
def intoUnixfsBlock (n : Node) : Except NotUnixfs (Cid × Bytes) :=
  if (nodeSource n).codec ≠ codecDagPb then .error (.codec n)
  else
    match n with
    | .block c data => .ok (c, data)
    | n => .error (.nonBlock n)

/-- The errors that are answered with a status 500 and a text. -/
inductive ServeErr where
  | elapsed
  | resolving (e : AnyErr)
  | path (e : NotUnixfs)
  | walking (c : Cid) (e : ReadFail)
deriving DecidableEq

/-- An answer: a status 400, 501 or 500, a response with a body that comes in chunks and may end early, a
panic, or none yet when the fuel ran out. -/
inductive Reply (ε : Type) where
  | invalidQuery
  | notImplemented
  | failed (e : ServeErr)
  | stream (chunks : List Bytes) (how : ε)
  | panic
  | running

/-- The first block: `resolve` and `into_unixfs_block`, together under the timeout (root_files.rs:69-72,
107-112; src/unixfs/cat.rs:34-48). -/
inductive Located where
  | at (c : Cid) (data : Bytes)
  | failed (e : ServeErr)
  | panic
  | running
deriving DecidableEq

/-- Whether the timeout ends the request before the first block is there. -/
def Served.timedOut (s : Served) (timeout : Option Nat) : Bool := timeout.isSome && s.elapses

def locate (mb : UInt8 → Bytes → Option Bytes) (s : Served) (path : IpfsPath) (timeout : Option Nat) : Located :=
  if s.timedOut timeout then .failed .elapsed
  else
    match resolveAny mb s path with
    | none => .running
    | some (.error (.dag .panic)) => .panic
    | some (.error e) => .failed (.resolving e)
    | some (.ok node) =>
      match intoUnixfsBlock node with
      | .error e => .failed (.path e)
      | .ok (c, data) => .at c data

/-- What the offset and the length ask for. -/
inductive Wanted where
  | range (r : Option Rng)
  | notImplemented
  | panic
deriving DecidableEq, Repr

/-- The range (root_files.rs:62-67): the addition is checked in a debug build and wraps otherwise. -/
def wantedRange (debug : Bool) : Option Nat → Option Nat → Wanted
  | some start, some len =>
    if start + len < 2 ^ 64 then .range (some ⟨start, start + len⟩)
    else if debug then .panic
    else .range (some ⟨start, start + len - 2 ^ 64⟩)
  | some _, none => .notImplemented
  | none, some len => .range (some ⟨0, len⟩)
  | none, none => .range none

/-- `cat_inner` (root_files.rs:59-88) with the rest of `cat` (src/unixfs/cat.rs:50-119). -/
def catInner (mb : UInt8 → Bytes → Option Bytes) (s : Served) (args : CatArgs) : Reply CatEnd :=
  match wantedRange s.debug args.offset args.length with
  | .notImplemented => .notImplemented
  | .panic => .panic
  | .range range =>
    match locate mb s args.arg args.timeout with
    | .running => .running
    | .panic => .panic
    | .failed e => .failed e
    | .at c data =>
      match visitStart range data with
      | .error (.panic _) => .panic
      | .error e => .failed (.walking c e)
      | .ok _ => let r := cat s.fetch range data s.fuel; .stream r.1 r.2

/-- A request to `cat`. -/
def catRequest (q : QueryEnv) (s : Served) (query : Bytes) : Reply CatEnd :=
  match catQuery q query with
  | .error () => .invalidQuery
  | .ok args => catInner q.mb s args

/-- How the body of `get` ends. -/
inductive GetEnd where
  | done
  | tar (e : GetErr)
  | walk (e : WalkEnd)
deriving DecidableEq, Repr

/-- The walk from the first block (root_files.rs:137-156): it is not loaded again. -/
def walkFrom (fetch : Cid → Option Bytes) (fuel : Nat) (w : Walker) (first : Bytes) : List WItem × WalkEnd :=
  match w.step first with
  | .error e => ([], .failed e)
  | .ok (item, w) => let r := w.feed fetch fuel; (item :: r.1, r.2)

/-- `walk` (root_files.rs:125-205): each report of the walker is turned into chunks before the next block is
loaded. -/
def getStream (debug : Bool) (fetch : Cid → Option Bytes) (fuel : Nat) (c : Cid) (first : Bytes) : List Bytes × GetEnd :=
  let w := walkFrom fetch fuel (Walker.new debug c c.toText) first
  let t := (TarHelper.withCapacity (16 * 1024)).items w.1
  match t.2 with
  | some e => (t.1, .tar e)
  | none => (t.1, if w.2 = .done then .done else .walk w.2)

/-- `get_inner` (root_files.rs:102-115) and `resolve_dagpb` (root_files.rs:117-125). -/
def getInner (mb : UInt8 → Bytes → Option Bytes) (s : Served) (arg : IpfsPath) (timeout : Option Nat) : Reply GetEnd :=
  match locate mb s arg timeout with
  | .running => .running
  | .panic => .panic
  | .failed e => .failed e
  | .at c data => let r := getStream s.debug s.fetch s.fuel c data; .stream r.1 r.2

/-- A request to `get`. -/
def getRequest (q : QueryEnv) (s : Served) (query : Bytes) : Reply GetEnd :=
  match getQuery q query with
  | .error () => .invalidQuery
  | .ok (arg, timeout) => getInner q.mb s arg timeout

end Verif.Http
