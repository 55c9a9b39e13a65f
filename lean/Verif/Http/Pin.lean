import Verif.Http.Block
import Verif.Ipfs.Pin

/-!
# Pins over HTTP

Model of http/src/v0/pin.rs with pin/add.rs: the queries, what is asked of the node and the answers.

* Requests are served one at a time. The pins of one request to `pin/add` are made by `try_join_all`, and so
  in any order (`order`). If one of them fails the others are dropped; those that were not complete count as not
  begun, those that were complete stay.
* A stream of pins that fails while it is read (which is not so for the stores modelled here after any history,
  see C33) has one error as its last item.
* A panic in a handler closes the connection.
-/

namespace Verif.Http

open Verif Verif.Repo Verif.Ipfs.Pin

/-- The fields of the queries. -/
def kRecursive : Bytes := "recursive".toUTF8.toList
def kProgress : Bytes := "progress".toUTF8.toList
def kType : Bytes := "type".toUTF8.toList
def kStream : Bytes := "stream".toUTF8.toList

/-- `ParseError` (support/option_parsing.rs:4-14), those used here. -/
inductive PinOptErr where
  | opt (e : RefsOptions.OptErr)
  | cid (value : Bytes)
  | filter (value : Bytes)
deriving DecidableEq, Repr

/-- Setting a boolean that may be given once (add.rs:79-86, pin.rs:95-102). -/
def setBool (key value : Bytes) (slot : Option Bool) : Except PinOptErr (Option Bool) :=
  match RefsOptions.setOnce key slot (RefsOptions.orErr (.boolean key value) (RefsOptions.parseBool value)) with
  | .error e => .error (.opt e)
  | .ok x => .ok x

/-- A loop over the pairs of a query that stops at the first error. -/
def pairLoop {V : Type} (step : V → Bytes × Bytes → Except PinOptErr V) (v : V) : List (Bytes × Bytes) → Except PinOptErr V
  | [] => .ok v
  | p :: ps =>
    match step v p with
    | .error e => .error e
    | .ok v => pairLoop step v ps

/-- The variables of the loop of `AddRequest::try_from` (add.rs:61-63). -/
structure AddVars where
  args : List Cid := []
  recursive : Option Bool := none
  progress : Option Bool := none
deriving DecidableEq, Repr

/-- Its body (add.rs:65-87). -/
def addStep (mb : UInt8 → Bytes → Option Bytes) (v : AddVars) (p : Bytes × Bytes) : Except PinOptErr AddVars :=
  if p.1 = kArg then
    match Cid.ofText mb p.2 with
    | none => .error (.cid p.2)
    | some c => .ok { v with args := v.args ++ [c] }
  else if p.1 = kRecursive then
    match setBool p.1 p.2 v.recursive with
    | .error e => .error e
    | .ok x => .ok { v with recursive := x }
  else if p.1 = kProgress then
    match setBool p.1 p.2 v.progress with
    | .error e => .error e
    | .ok x => .ok { v with progress := x }
  else .ok v

/-- `AddRequest` (add.rs:9-15). -/
structure AddRequest where
  args : List Cid
  recursive : Bool
  progress : Bool
deriving DecidableEq, Repr

/-- `AddRequest::try_from` (add.rs:55-99). -/
def addRequest (q : QueryEnv) (query : Bytes) : Except PinOptErr AddRequest :=
  match pairLoop (addStep q.mb) {} (formPairs q.lossy query) with
  | .error e => .error e
  | .ok v =>
    if v.args = [] then .error (.opt .missingArg)
    else .ok ⟨v.args, v.recursive.getD false, v.progress.getD false⟩

/-- `PinFilter` (pin.rs:118-158) with `to_mode`. -/
def filterNamed (s : Bytes) : Option (Option PinMode) :=
  if s = "all".toUTF8.toList then some none
  else if s = "direct".toUTF8.toList then some (some .direct)
  else if s = "recursive".toUTF8.toList then some (some .recursive)
  else if s = "indirect".toUTF8.toList then some (some .indirect)
  else none

/-- The variables of the loop of `ListRequest::try_from` (pin.rs:46-50). -/
structure ListVars where
  args : List Cid := []
  filter : Option (Option PinMode) := none
  timeout : Option Nat := none
  quiet : Option Bool := none
  stream : Option Bool := none
deriving DecidableEq, Repr

/-- Setting the filter (pin.rs:63-75). -/
def setFilter (key value : Bytes) : Option (Option PinMode) → Except PinOptErr (Option (Option PinMode))
  | some _ => .error (.opt (.duplicate key))
  | none =>
    match filterNamed value with
    | none => .error (.filter value)
    | some f => .ok (some f)

/-- Setting the timeout (pin.rs:76-86). -/
def setTimeout (duration : Bytes → Option Nat) (key value : Bytes) : Option Nat → Except PinOptErr (Option Nat)
  | some _ => .error (.opt (.duplicate key))
  | none =>
    match duration value with
    | none => .error (.opt .duration)
    | some d => .ok (some d)

/-- Its body (pin.rs:52-103). -/
def listStep (q : QueryEnv) (v : ListVars) (p : Bytes × Bytes) : Except PinOptErr ListVars :=
  if p.1 = kArg then
    match Cid.ofText q.mb p.2 with
    | none => .error (.cid p.2)
    | some c => .ok { v with args := v.args ++ [c] }
  else if p.1 = kType then
    match setFilter p.1 p.2 v.filter with
    | .error e => .error e
    | .ok x => .ok { v with filter := x }
  else if p.1 = kTimeout then
    match setTimeout q.duration p.1 p.2 v.timeout with
    | .error e => .error e
    | .ok x => .ok { v with timeout := x }
  else if p.1 = kQuiet then
    match setBool p.1 p.2 v.quiet with
    | .error e => .error e
    | .ok x => .ok { v with quiet := x }
  else if p.1 = kStream then
    match setBool p.1 p.2 v.stream with
    | .error e => .error e
    | .ok x => .ok { v with stream := x }
  else .ok v

/-- `ListRequest` (pin.rs:23-35), what is used of it. -/
structure ListRequest where
  args : List Cid
  filter : Option PinMode
  stream : Bool
deriving DecidableEq, Repr

/-- `ListRequest::try_from` (pin.rs:37-116): `stream` is set by what was given for "quiet". -/
def listRequest (q : QueryEnv) (query : Bytes) : Except PinOptErr ListRequest :=
  match pairLoop (listStep q) {} (formPairs q.lossy query) with
  | .error e => .error e
  | .ok v => .ok ⟨v.args, v.filter.getD none, v.quiet.getD true⟩

/-- `RemoveRequest` (pin.rs:307-316), by `warp::query`, with the default of `rm_inner` (pin.rs:330). -/
def removeRequest (q : QueryEnv) (query : Bytes) : Except Unit (Cid × Bool) :=
  let pairs := formPairs q.lossy query
  match queryField (Cid.ofText q.mb) kArg pairs, queryField RefsOptions.parseBool kRecursive pairs with
  | .ok (some c), .ok r => .ok (c, r.getD true)
  | _, _ => .error ()

variable {σ ε : Type}

/-- `list` and `query` of `trait PinStore` (src/repo/mod.rs:219-231). -/
structure PinLister (σ ε : Type) where
  list : σ → Option PinMode → List (Except ε (Cid × PinMode))
  query : σ → List Cid → Option PinMode → Except ε (List (Cid × PinKind))

/-- The in-memory store. -/
def memLister : PinLister MemPins PinErr := ⟨MemPins.list, MemPins.query⟩

/-- The stream of a store that reads everything first. -/
def streamed {α : Type} : Except ε (List α) → List (Except ε α)
  | .error e => [.error e]
  | .ok l => l.map Except.ok

/-- The store on disk. -/
def fsLister : PinLister FsPins PinErr := ⟨fun g m => streamed (g.list m), FsPins.query⟩

/-- The key-value store. -/
def kvLister : PinLister KvPins PinErr := ⟨fun t m => (t.list m).map Except.ok, fun t ids m => .ok (t.query ids m)⟩

/-- How a request fails. -/
inductive PinReqFail (ε : Type) where
  | badQuery
  | notImplemented
  | options (e : PinOptErr)
  | pinning (e : PinFail ε)
  | querying (e : ε)
deriving DecidableEq, Repr

/-- An answer. -/
inductive PinReply (ε : Type) where
  /-- a status 200 with a body -/
  | ok (body : Bytes)
  /-- a status 200 with a body in lines -/
  | lines (l : List Bytes)
  | failed (e : PinReqFail ε)
  | waits
  | closed
  /-- a request for blocks -/
  | block (r : BlockReply)
deriving DecidableEq, Repr

/-- The answer when pinning or unpinning fails. -/
def pinFailed : PinFail ε → PinReply ε
  | .waiting => .waits
  | .endless => .waits
  | .panic => .closed
  | e => .failed (.pinning e)

/-- `{"Pins": [..]}` (add.rs:17-23, 49-52, pin.rs:334-343). -/
def pinsObject (cids : List Cid) : Json :=
  .obj [("Pins".toUTF8.toList, .arr (cids.map (fun c => .str c.toText)))]

/-- Pins one after another, until one fails. -/
def insertPins (env : PinEnv) (st : PinStore σ ε) (recursive : Bool) (s : RepoState σ) :
    List Cid → Except (PinFail ε) Unit × RepoState σ
  | [] => (.ok (), s)
  | c :: cs =>
    match insertPin env st s c recursive with
    | (.error e, s) => (.error e, s)
    | (.ok _, s) => insertPins env st recursive s cs

/-- The answer to `pin/add` once the pins are made. -/
def addedAnswer (args : List Cid) : Except (PinFail ε) Unit → PinReply ε
  | .error e => pinFailed e
  | .ok _ => .ok (pinsObject args).write

/-- `add` (pin.rs:13-21, add.rs:25-53, 101-111): a query is required. -/
def pinAdd (q : QueryEnv) (env : PinEnv) (st : PinStore σ ε) (order : List Cid → List Cid) (s : RepoState σ) :
    Option Bytes → RepoState σ × PinReply ε
  | none => (s, .failed .badQuery)
  | some query =>
    match addRequest q query with
    | .error e => (s, .failed (.options e))
    | .ok r =>
      if r.progress then (s, .failed .notImplemented)
      else
        let res := insertPins env st r.recursive s (order r.args)
        (res.2, addedAnswer r.args res.1)

/-- A line of a listing: `Good` (pin.rs:183-189, 270-277). -/
def pinLine (c : Cid) (mode : Bytes) : Bytes :=
  (Json.obj [("Cid".toUTF8.toList, .str c.toText), ("Type".toUTF8.toList, .str mode)]).write ++ [10]

/-- The names of modes (pin.rs:207-211). -/
def modeName : PinMode → Bytes
  | .direct => "direct".toUTF8.toList
  | .indirect => "indirect".toUTF8.toList
  | .recursive => "recursive".toUTF8.toList

/-- The names of kinds (pin.rs:239-247). -/
def kindName : PinKind → Bytes
  | .recursive _ => "recursive".toUTF8.toList
  | .recursiveIntention => "recursive".toUTF8.toList
  | .direct => "direct".toUTF8.toList
  | .indirectFrom c => "indirect through ".toUTF8.toList ++ c.toText

/-- `format_json_newline` (pin.rs:259-293): an error is a line, too. -/
def listLine (errText : ε → Bytes) : Except ε (Cid × PinMode) → Bytes
  | .ok e => pinLine e.1 (modeName e.2)
  | .error e => (Json.obj [("Err".toUTF8.toList, .str (errText e))]).write ++ [10]

/-- `list` (pin.rs:160-257): a query is required. -/
def pinList (q : QueryEnv) (errText : ε → Bytes) (ls : PinLister σ ε) (s : RepoState σ) : Option Bytes → PinReply ε
  | none => .failed .badQuery
  | some query =>
    match listRequest q query with
    | .error e => .failed (.options e)
    | .ok r =>
      if r.args = [] then
        if r.stream then .lines ((ls.list s.pins r.filter).map (listLine errText)) else .failed .notImplemented
      else
        match ls.query s.pins r.args r.filter with
        | .error e => .failed (.querying e)
        | .ok details => if r.stream then .lines (details.map (fun e => pinLine e.1 (kindName e.2))) else .failed .notImplemented

/-- The answer to `pin/rm` once the pin is removed. -/
def removedAnswer (c : Cid) : Except (PinFail ε) Unit → PinReply ε
  | .error e => pinFailed e
  | .ok _ => .ok (pinsObject [c]).write

/-- `rm` (pin.rs:318-337). -/
def pinRm (q : QueryEnv) (env : PinEnv) (st : PinStore σ ε) (s : RepoState σ) (query : Option Bytes) :
    RepoState σ × PinReply ε :=
  match removeRequest q (query.getD []) with
  | .error () => (s, .failed .badQuery)
  | .ok (c, recursive) =>
    let res := removePin env st s c recursive
    (res.2, removedAnswer c res.1)

/-- What can happen at a node. Pinning is by these requests only. -/
inductive PinRequest where
  | add (query : Option Bytes) (order : List Cid → List Cid)
  | ls (query : Option Bytes)
  | rm (query : Option Bytes)
  | put (query : Option Bytes) (u : Upload)
  | dagPut (query : Option Bytes) (u : Upload)
  | get (query : Option Bytes) (elapses : Bool)
  | stat (query : Option Bytes) (elapses : Bool)
  | removeBlocks (query : Option Bytes)
  | arrive (b : Block)

/-- What a node needs to serve them. -/
structure PinHttp (ε : Type) where
  block : BlockEnv
  pin : PinEnv
  errText : ε → Bytes

/-- A request for blocks, and its answer. -/
def serveBlockReq (env : PinHttp ε) (st : PinStore σ ε) (s : RepoState σ) (r : BlockReq) : RepoState σ × PinReply ε :=
  let res := serveBlock env.block st.api s r
  (res.1, .block res.2)

/-- One request. -/
def servePin (env : PinHttp ε) (st : PinStore σ ε) (ls : PinLister σ ε) (s : RepoState σ) : PinRequest → RepoState σ × PinReply ε
  | .add query order => pinAdd env.block.q env.pin st order s query
  | .ls query => (s, pinList env.block.q env.errText ls s query)
  | .rm query => pinRm env.block.q env.pin st s query
  | .put query u => serveBlockReq env st s (.put query u)
  | .dagPut query u => serveBlockReq env st s (.dagPut query u)
  | .get query elapses => serveBlockReq env st s (.get query elapses)
  | .stat query elapses => serveBlockReq env st s (.stat query elapses)
  | .removeBlocks query => serveBlockReq env st s (.rm query)
  | .arrive b => serveBlockReq env st s (.arrive b)

/-- Any number of them: the repo after them, and the answers. -/
def servePins (env : PinHttp ε) (st : PinStore σ ε) (ls : PinLister σ ε) (s : RepoState σ) :
    List PinRequest → RepoState σ × List (PinReply ε)
  | [] => (s, [])
  | r :: reqs =>
    let res := servePin env st ls s r
    let rest := servePins env st ls res.1 reqs
    (rest.1, res.2 :: rest.2)

/-- The status of an error (support.rs:129-210). -/
def pinFailStatus : PinReqFail ε → Nat
  | .badQuery => 400
  | .notImplemented => 501
  | _ => 500

/-- The messages that are written in the code (option_parsing.rs:20-21, support.rs:137-143); the others are of
libraries or have values in the notation of `{:?}`. -/
def pinFailText (libText : PinReqFail ε → Bytes) : PinReqFail ε → Bytes
  | .notImplemented => "Not implemented".toUTF8.toList
  | .options (.opt .missingArg) => "required field \"arg\" missing".toUTF8.toList
  | .options (.opt (.duplicate key)) => "field \"".toUTF8.toList ++ key ++ "\" was duplicated".toUTF8.toList
  | e => libText e

/-- `recover_as_message_response`: status and body of an answer, if there is one. -/
def pinAnswer (libText : PinReqFail ε → Bytes) (blockText : BlockFail → Bytes) : PinReply ε → Option (Nat × Bytes)
  | .ok body => some (200, body)
  | .lines l => some (200, l.flatten)
  | .failed e => some (pinFailStatus e, (messageResponse (pinFailText libText e)).write)
  | .block r => httpAnswer blockText r
  | .waits => none
  | .closed => none

end Verif.Http
