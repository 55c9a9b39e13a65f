import Verif.Http.Block

/-!
# The routes of the HTTP API

Model of http/src/v0.rs, version.rs and `recover_as_message_response` (support.rs:126-215).

* The combinators are those of `warp` 0.3: a filter for a part of the path compares it with the text up to the next
  slash, without decoding, and takes it and the slash from the path; `end` wants nothing to be left; `or` tries the
  second filter from the same place if the first rejects, and keeps the reasons of both; a path that is not found gives
  no reason.
* What the handlers do is the parameter `run`; the answer records which of them were run.
-/

namespace Verif.Http

open Verif

/-- The handlers. -/
inductive Ep where
  | shutdown | id | add | cat | dns | get | refsLocal | refs | resolve | version
  | bitswapWantlist | bitswapStat
  | blockGet | blockPut | blockRm | blockStat
  | bootstrapList | bootstrapAdd | bootstrapAddDefault | bootstrapRm | bootstrapRmAll
  | dagPut | dagResolve
  | dhtFindPeer | dhtFindProvs | dhtProvide | dhtQuery
  | pubsubPeers | pubsubLs | pubsubPub | pubsubSub
  | swarmAddrsLocal | swarmAddrs | swarmConnect | swarmDisconnect | swarmPeers
  | pinAdd | pinLs | pinRm
deriving DecidableEq, Repr

/-- The reasons of rejections that are looked for (support.rs:84-124); `other` are all those that are not. -/
inductive Reason where
  | notImplemented
  | argumentMissing (name : Bytes)
  | nonUtf8Topic
  | invalidQuery (text : Bytes)
  | string (text : Bytes)
  | invalidPeerId
  | methodNotAllowed
  | lengthRequired
  | other
deriving DecidableEq, Repr

/-- What a filter answers: a status and a body, or reasons for rejecting the request. -/
inductive Routed where
  | reply (status : Nat) (body : Bytes)
  | rejected (reasons : List Reason)
deriving DecidableEq, Repr

/-- The text up to the next slash. -/
def segment : Bytes → Bytes
  | [] => []
  | c :: s => if c = 47 then [] else c :: segment s

/-- `warp::path`: what is left of the path. -/
def takeSeg (p rest : Bytes) : Option Bytes :=
  if segment rest = p then some ((rest.drop (segment rest).length).drop 1) else none

/-- Several parts. -/
def takeSegs : List Bytes → Bytes → Option Bytes
  | [], rest => some rest
  | p :: ps, rest => (takeSeg p rest).bind (takeSegs ps)

/-- What came of a filter: the handlers that were run and the answer. -/
abbrev Came := List Ep × Routed

/-- `Filter::or`. -/
def orElse (a : Came) (b : Unit → Came) : Came :=
  match a.2 with
  | .reply _ _ => a
  | .rejected rs =>
    match b () with
    | (ran, .reply s t) => (a.1 ++ ran, .reply s t)
    | (ran, .rejected rs') => (a.1 ++ ran, .rejected (rs ++ rs'))

/-- A filter that is not for this path. -/
def notFound : Came := ([], .rejected [])

/-- `path!(..)` without `..` and a handler (v0.rs:63-67). -/
def exactly (run : Ep → Routed) (segs : List Bytes) (e : Ep) (rest : Bytes) : Came :=
  match takeSegs segs rest with
  | some [] => ([e], run e)
  | _ => notFound

/-- `path!(.. / ..)` or without, and `not_implemented` (v0.rs:162-170, 185-187). -/
def stub (segs : List Bytes) (open' : Bool) (rest : Bytes) : Came :=
  match takeSegs segs rest with
  | some [] => ([], .reply 501 [])
  | some (_ :: _) => if open' then ([], .reply 501 []) else notFound
  | none => notFound

/-- `combine!` of handlers. -/
def combine (run : Ep → Routed) : List (List Bytes × Ep) → Bytes → Came
  | [], _ => notFound
  | (segs, e) :: l, rest => orElse (exactly run segs e rest) (fun _ => combine run l rest)

/-- `warp::path(..).and(combine!(..))`. -/
def within (run : Ep → Routed) (seg : Bytes) (l : List (List Bytes × Ep)) (rest : Bytes) : Came :=
  match takeSeg seg rest with
  | some rest' => combine run l rest'
  | none => notFound

/-- One entry of the big `combine!`. -/
inductive Route where
  | one (segs : List Bytes) (e : Ep)
  | group (seg : Bytes) (l : List (List Bytes × Ep))
  | stub (segs : List Bytes) (open' : Bool)

/-- A text. -/
def tx (s : String) : Bytes := s.toUTF8.toList

/-- The routes below "/api/v0" (v0.rs:76-171). -/
def routes : List Route :=
  [.one [tx "shutdown"] .shutdown, .one [tx "id"] .id, .one [tx "add"] .add, .one [tx "cat"] .cat, .one [tx "dns"] .dns,
    .one [tx "get"] .get, .one [tx "refs", tx "local"] .refsLocal, .one [tx "refs"] .refs, .one [tx "resolve"] .resolve,
    .one [tx "version"] .version,
    .group (tx "bitswap") [([tx "wantlist"], .bitswapWantlist), ([tx "stat"], .bitswapStat)],
    .group (tx "block") [([tx "get"], .blockGet), ([tx "put"], .blockPut), ([tx "rm"], .blockRm), ([tx "stat"], .blockStat)],
    .group (tx "bootstrap") [([tx "list"], .bootstrapList), ([tx "add"], .bootstrapAdd),
      ([tx "add", tx "default"], .bootstrapAddDefault), ([tx "rm"], .bootstrapRm), ([tx "rm", tx "all"], .bootstrapRmAll)],
    .group (tx "dag") [([tx "put"], .dagPut), ([tx "resolve"], .dagResolve)],
    .group (tx "dht") [([tx "findpeer"], .dhtFindPeer), ([tx "findprovs"], .dhtFindProvs), ([tx "provide"], .dhtProvide),
      ([tx "query"], .dhtQuery)],
    .group (tx "pubsub") [([tx "peers"], .pubsubPeers), ([tx "ls"], .pubsubLs), ([tx "pub"], .pubsubPub), ([tx "sub"], .pubsubSub)],
    .group (tx "swarm") [([tx "addrs", tx "local"], .swarmAddrsLocal), ([tx "addrs"], .swarmAddrs), ([tx "connect"], .swarmConnect),
      ([tx "disconnect"], .swarmDisconnect), ([tx "peers"], .swarmPeers)],
    .group (tx "pin") [([tx "add"], .pinAdd), ([tx "ls"], .pinLs), ([tx "rm"], .pinRm)],
    .stub [tx "config"] true, .stub [tx "dht", tx "get"] false, .stub [tx "dht", tx "put"] false, .stub [tx "key"] true,
    .stub [tx "name"] true, .stub [tx "object"] true, .stub [tx "ping"] true, .stub [tx "repo"] true, .stub [tx "stats"] true]

/-- One of them. -/
def Route.try (run : Ep → Routed) (r : Route) (rest : Bytes) : Came :=
  match r with
  | .one segs e => exactly run segs e rest
  | .group seg l => within run seg l rest
  | .stub segs open' => Http.stub segs open' rest

/-- The big `combine!`. -/
def tryAll (run : Ep → Routed) : List Route → Bytes → Came
  | [], _ => notFound
  | r :: l, rest => orElse (r.try run rest) (fun _ => tryAll run l rest)

/-- Where matching begins: behind the first slash. -/
def startPath (path : Bytes) : Bytes := if path.head? = some 47 then path.drop 1 else path

/-- `api` (v0.rs:74-76): the method is looked at first. -/
def api (run : Ep → Routed) (post : Bool) (path : Bytes) : Came :=
  if post then
    match takeSegs [tx "api", tx "v0"] (startPath path) with
    | some rest => tryAll run routes rest
    | none => notFound
  else ([], .rejected [.methodNotAllowed])

/-- The first of them that is some. -/
def findReason {α : Type} (f : Reason → Option α) (rs : List Reason) : Option α := rs.findSome? f

def Reason.argument : Reason → Option Bytes
  | .argumentMissing n => some n
  | _ => none

def Reason.query : Reason → Option Bytes
  | .invalidQuery t => some t
  | _ => none

def Reason.text : Reason → Option Bytes
  | .string t => some t
  | _ => none

/-- `{:?}` of the names of arguments: they are written in the program and have nothing to escape. -/
def quoted (s : Bytes) : Bytes := 34 :: s ++ [34]

/-- `recover_as_message_response` (support.rs:126-215). -/
def recover (rs : List Reason) : Nat × Bytes :=
  if .notImplemented ∈ rs then (501, (messageResponse (tx "Not implemented")).write)
  else
    match findReason Reason.argument rs with
    | some n => (400, (messageResponse (tx "required argument " ++ quoted n ++ tx " missing")).write)
    | none =>
      if .nonUtf8Topic ∈ rs then (400, (messageResponse (tx "non utf8 topic")).write)
      else
        match findReason Reason.query rs with
        | some t => (400, (messageResponse t).write)
        | none =>
          match findReason Reason.text rs with
          | some t => (500, (messageResponse t).write)
          | none =>
            if .invalidPeerId ∈ rs then (400, (messageResponse (tx "invalid peer id")).write)
            else if rs = [] ∨ .methodNotAllowed ∈ rs then (404, tx "404 page not found")
            else if .lengthRequired ∈ rs then (400, (messageResponse (tx "Missing header: content-length")).write)
            else (500, (messageResponse (tx "UNHANDLED REJECTION")).write)

/-- `routes` (v0.rs:69-174): the handlers that were run, the status and the body. -/
def serveApi (run : Ep → Routed) (post : Bool) (path : Bytes) : List Ep × Nat × Bytes :=
  match api run post path with
  | (ran, .reply s b) => (ran, s, b)
  | (ran, .rejected rs) => (ran, recover rs)

/-- `handle_shutdown` (v0.rs:176-183): whether the signal could be sent. -/
def shutdownReply (sent : Bool) : Routed := .reply (if sent then 200 else 501) []

/-- `version` (version.rs:7-53) with its query; the version and the commit are those of the build. -/
def versionReply (q : QueryEnv) (version commit query : Bytes) (badQuery : Bytes) : Routed :=
  let pairs := formPairs q.lossy query
  match queryField RefsOptions.parseBool (tx "number") pairs, queryField RefsOptions.parseBool (tx "commit") pairs,
    queryField RefsOptions.parseBool (tx "repo") pairs, queryField RefsOptions.parseBool (tx "all") pairs with
  | .ok _, .ok _, .ok _, .ok _ =>
    .reply 200 (Json.obj [(tx "Version", .str version), (tx "Commit", .str commit), (tx "Repo", .str []),
      (tx "ipfs-http-client", .str []), (tx "interface-ipfs-core", .str [])]).write
  | _, _, _, _ => .rejected [.invalidQuery badQuery]

end Verif.Http
