import Verif.Http.Block
import Verif.Net.Bootstrap

/-!
# `bootstrap` over HTTP

Model of http/src/v0/bootstrap.rs.

* The parser of multiaddresses and the texts of their components are the library's: `parseAddr` and `show'`.
* What the environment decides of a request is its `Fate`: whether it is answered in time, a timeout elapses (the
  event may have been handled or not by then) or the background task of the node is gone.
* The fields are parsed in the order of the query: parsing stops at the first that fails, and a debug build
  panics in the parser of an address (src/p2p/addr.rs:136-143), which closes the connection.
-/

namespace Verif.Http

open Verif Verif.Ipfs Verif.Net

/-- What these requests need. -/
structure BootEnv (K : Type) where
  q : QueryEnv
  parseAddr : Bytes → Option Maddr
  show' : Ipfs.Comp → Bytes
  debug : Bool
  routing : Routing K
  /-- `BOOTSTRAP_NODES`, and what they parse to -/
  nodes : List (Bytes × AddrPeer)

/-- "default" and "all". -/
def kDefault : Bytes := "default".toUTF8.toList
def kAll : Bytes := "all".toUTF8.toList

/-- What became of parsing. -/
inductive Parsed (α : Type) where
  | ok (x : α)
  | bad
  | panic
deriving DecidableEq, Repr

/-- `MultiaddrWithPeerId::from_str` (src/p2p/addr.rs:160-169). -/
def parseBoot (debug : Bool) (parseAddr : Bytes → Option Maddr) (s : Bytes) : Parsed AddrPeer :=
  match parseAddr s with
  | none => .bad
  | some a =>
    match AddrPeer.ofAddr debug a with
    | .ok x => .ok x
    | .error .debugAssert => .panic
    | .error _ => .bad

/-- `BootstrapAddQuery` and `BootstrapRmQuery` (bootstrap.rs:44-49, 148-153); the flag is `default` or `all`. -/
structure BootQuery where
  arg : Option AddrPeer
  flag : Option Bool
  timeout : Option Nat
deriving DecidableEq, Repr

/-- `queryField` with a flag and a timeout (all that is parsed besides an address). -/
def bootWalk (debug : Bool) (parseAddr : Bytes → Option Maddr) (duration : Bytes → Option Nat) (flag : Bytes)
    (o : BootQuery) : List (Bytes × Bytes) → Parsed BootQuery
  | [] => .ok o
  | (k, v) :: l =>
    if k = kArg then
      if o.arg.isSome then .bad
      else
        match parseBoot debug parseAddr v with
        | .ok a => bootWalk debug parseAddr duration flag { o with arg := some a } l
        | .bad => .bad
        | .panic => .panic
    else if k = flag then
      if o.flag.isSome then .bad
      else
        match RefsOptions.parseBool v with
        | some b => bootWalk debug parseAddr duration flag { o with flag := some b } l
        | none => .bad
    else if k = kTimeout then
      if o.timeout.isSome then .bad
      else
        match duration v with
        | some d => bootWalk debug parseAddr duration flag { o with timeout := some d } l
        | none => .bad
    else bootWalk debug parseAddr duration flag o l

/-- `query::<BootstrapAddQuery>()` and `query::<BootstrapRmQuery>()`. -/
def bootQuery (env : BootEnv K) (flag query : Bytes) : Parsed BootQuery :=
  bootWalk env.debug env.parseAddr env.q.duration flag ⟨none, none, none⟩ (formPairs env.q.lossy query)

/-- What becomes of a request. -/
inductive Fate where
  | inTime
  | elapses (handled : Bool)
  | down
deriving DecidableEq, Repr

/-- The errors. -/
inductive BootFail where
  | badQuery
  | invalidQueryString
  | elapsed
  | down
deriving DecidableEq, Repr

/-- What a handler replies. -/
inductive BootReply where
  | peers (l : List Bytes)
  | failed (e : BootFail)
  | closed
deriving DecidableEq, Repr

/-- An event that is sent to the node, and the `maybe_timeout` around waiting for its answer. -/
def withFate {S α : Type} (timeout : Option Nat) (fate : Fate) (s : S) (ev : S × α) (reply : α → BootReply) : S × BootReply :=
  match fate with
  | .down => (s, .failed .down)
  | .inTime => (ev.1, reply ev.2)
  | .elapses handled =>
    match timeout with
    | some _ => (if handled then ev.1 else s, .failed .elapsed)
    | none => (ev.1, reply ev.2)

/-- The requests; the order of the list is up to the `HashSet`. -/
inductive BootReq where
  | list
  | add
  | addDefault
  | rm
  | rmAll
deriving DecidableEq, Repr

/-- `.map(|addr| addr.to_string())`. -/
def addrTexts (show' : Ipfs.Comp → Bytes) (l : List Maddr) : BootReply := .peers (l.map (Maddr.text show'))

/-- `bootstrap_query` (bootstrap.rs:17-34). -/
def bootList (env : BootEnv K) (order : List AddrPeer → List AddrPeer) (fate : Fate) (s : BootSt K) (query : Bytes) :
    BootSt K × BootReply :=
  match queryField env.q.duration kTimeout (formPairs env.q.lossy query) with
  | .error () => (s, .failed .badQuery)
  | .ok timeout => withFate timeout fate s (s, s.list order) (addrTexts env.show')

/-- `restore_helper` (bootstrap.rs:53-66) with the answer of its callers (bootstrap.rs:89-93, 207-209). -/
def bootRestore (env : BootEnv K) (fate : Fate) (s : BootSt K) (timeout : Option Nat) : BootSt K × BootReply :=
  withFate timeout fate s (s.restore env.routing (env.nodes.map (·.2))) (fun _ => .peers (env.nodes.map (·.1)))

/-- `clear_helper` (bootstrap.rs:118-131). -/
def bootClear (env : BootEnv K) (order : List AddrPeer → List AddrPeer) (fate : Fate) (s : BootSt K) (timeout : Option Nat) :
    BootSt K × BootReply :=
  withFate timeout fate s (s.clear env.routing order) (addrTexts env.show')

/-- `bootstrap_add_query` (bootstrap.rs:68-103). -/
def bootAdd (env : BootEnv K) (fate : Fate) (s : BootSt K) (query : Bytes) : BootSt K × BootReply :=
  match bootQuery env kDefault query with
  | .bad => (s, .failed .badQuery)
  | .panic => (s, .closed)
  | .ok o =>
    match o.arg with
    | some a => withFate o.timeout fate s (s.add env.routing a) (fun r => addrTexts env.show' [r])
    | none => if o.flag = some true then bootRestore env fate s o.timeout else (s, .failed .invalidQueryString)

/-- `bootstrap_rm_query` (bootstrap.rs:155-182). -/
def bootRm (env : BootEnv K) (order : List AddrPeer → List AddrPeer) (fate : Fate) (s : BootSt K) (query : Bytes) :
    BootSt K × BootReply :=
  match bootQuery env kAll query with
  | .bad => (s, .failed .badQuery)
  | .panic => (s, .closed)
  | .ok o =>
    match o.arg with
    | some a => withFate o.timeout fate s (s.remove env.routing a) (fun r => addrTexts env.show' [r])
    | none => if o.flag = some true then bootClear env order fate s o.timeout else (s, .failed .invalidQueryString)

/-- Each request (v0.rs:108-117); no query is the same as an empty one. -/
def serveBoot (env : BootEnv K) (order : List AddrPeer → List AddrPeer) (fate : Fate) (s : BootSt K) (query : Bytes) :
    BootReq → BootSt K × BootReply
  | .list => bootList env order fate s query
  | .add => bootAdd env fate s query
  | .addDefault =>
    match queryField env.q.duration kTimeout (formPairs env.q.lossy query) with
    | .error () => (s, .failed .badQuery)
    | .ok timeout => bootRestore env fate s timeout
  | .rm => bootRm env order fate s query
  | .rmAll =>
    match queryField env.q.duration kTimeout (formPairs env.q.lossy query) with
    | .error () => (s, .failed .badQuery)
    | .ok timeout => bootClear env order fate s timeout

/-- `Response` (bootstrap.rs:6-10). -/
def peersObject (l : List Bytes) : Json := .obj [("Peers".toUTF8.toList, .arr (l.map Json.str))]

/-- Status and body of an answer, if there is one (support.rs:126-215); the text of the errors is of libraries, except
for one. -/
def bootAnswer (libText : BootFail → Bytes) : BootReply → Option (Nat × Bytes)
  | .peers l => some (200, (peersObject l).write)
  | .failed .badQuery => some (400, (messageResponse (libText .badQuery)).write)
  | .failed .invalidQueryString => some (500, (messageResponse "invalid query string".toUTF8.toList).write)
  | .failed e => some (500, (messageResponse (libText e)).write)
  | .closed => none

end Verif.Http
