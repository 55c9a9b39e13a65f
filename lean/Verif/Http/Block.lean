import Verif.Base.Json
import Verif.Http.Cat
import Verif.Http.OnlyField
import Verif.Http.RefsOptions
import Verif.Repo.RemoveBlock

/-!
# Blocks over HTTP

Model of http/src/v0/block.rs with block/options.rs, of `put` in http/src/v0/dag.rs and of
`recover_as_message_response` in http/src/v0/support.rs for the errors of these, over the in-memory block
store and any pin store.

* Hash functions are the parameter `hash`, by code. The texts of errors that come from libraries are `libText`.
* Requests are served one at a time. The removals of one request to `block/rm` are run in their order:
  `FuturesOrdered` polls them in this order, and each takes a mutex at a time.
* A new block is announced after it was stored (src/repo/mod.rs:432-454); whether this fails is up to the
  environment (`announced`), and so is whether a timeout that was asked for elapses (`elapses`).
* A request for a block that is not there waits for it (`waits`), as in the model of subscriptions.
-/

namespace Verif.Http

open Verif Verif.Repo Verif.Spec

/-- What a node needs to serve requests for blocks. -/
structure BlockEnv where
  q : QueryEnv
  hash : Nat → Bytes → Bytes

/-- `s.parse::<u8>()`. -/
def parseU8 (s : Bytes) : Option Nat := (parseU64 s).filter (fun n => n < 256)

/-- The codes of sha2-512 and sha3-512. -/
def mhSha512 : Nat := 0x13
def mhSha3_512 : Nat := 0x14

/-- The fields of the queries. -/
def kFormatField : Bytes := "format".toUTF8.toList
def kMhtype : Bytes := "mhtype".toUTF8.toList
def kVersion : Bytes := "version".toUTF8.toList
def kHash : Bytes := "hash".toUTF8.toList
def kInputEnc : Bytes := "input-enc".toUTF8.toList
def kForce : Bytes := "force".toUTF8.toList
def kQuiet : Bytes := "quiet".toUTF8.toList

/-- How a request fails. -/
inductive BlockFail where
  | badQuery
  | notImplemented
  | noContentType
  | noBoundary
  | form (e : OnlyErr)
  | unknownHash
  | badVersion
  | unknownCodec
  /-- `Cid::new` -/
  | cidNew
  /-- parsing a cid -/
  | cidText (arg : Bytes)
  | announcing
  | elapsed
  | options (e : RefsOptions.OptErr)
deriving DecidableEq, Repr

/-- An answer. -/
inductive BlockReply where
  /-- a status 200 with a body -/
  | ok (body : Bytes)
  /-- a status 200 with a body in chunks -/
  | chunks (l : List Bytes)
  | failed (e : BlockFail)
  | waits
  /-- not a request -/
  | none
deriving DecidableEq, Repr

/-- `PutQuery` (block.rs:52-57) with the parser of queries. -/
structure BlockPutQuery where
  format : Option Bytes
  mhtype : Option Bytes
  version : Option Nat
deriving DecidableEq, Repr

def blockPutQuery (q : QueryEnv) (query : Bytes) : Except Unit BlockPutQuery :=
  let pairs := formPairs q.lossy query
  match queryField some kFormatField pairs, queryField some kMhtype pairs, queryField parseU8 kVersion pairs with
  | .ok format, .ok mhtype, .ok version => .ok ⟨format, mhtype, version⟩
  | _, _, _ => .error ()

/-- The names of codecs (block.rs:61-67, dag.rs:57-63). -/
def codecNamed (s : Bytes) : Option Nat :=
  if s = "dag-cbor".toUTF8.toList then some codecDagCbor
  else if s = "dag-pb".toUTF8.toList then some codecDagPb
  else if s = "dag-json".toUTF8.toList then some codecDagJson
  else if s = "raw".toUTF8.toList then some codecRaw
  else none

/-- `format` (block.rs:60-68). -/
def BlockPutQuery.codec (p : BlockPutQuery) : Except BlockFail Nat :=
  match codecNamed (p.format.getD "dag-pb".toUTF8.toList) with
  | some c => .ok c
  | none => .error .unknownCodec

/-- `digest` (block.rs:70-76): the code. -/
def BlockPutQuery.digest (p : BlockPutQuery) : Except BlockFail Nat :=
  let s := p.mhtype.getD "sha2-256".toUTF8.toList
  if s = "sha2-256".toUTF8.toList then .ok mhSha256
  else if s = "sha2-512".toUTF8.toList then .ok mhSha512
  else .error .unknownHash

/-- `version` (block.rs:78-84). -/
def BlockPutQuery.cidVersion (p : BlockPutQuery) : Except BlockFail Version :=
  match p.version.getD 0 with
  | 0 => .ok .v0
  | 1 => .ok .v1
  | _ => .error .badVersion

/-- The header `content-type`, as far as it matters. -/
inductive ContentType where
  /-- missing, or not a media type -/
  | absent
  | noBoundary
  | boundary
deriving DecidableEq, Repr

/-- "data" and "file". -/
def formNames : List Bytes := ["data".toUTF8.toList, "file".toUTF8.toList]

/-- A request with a form: the header is looked at before the body. -/
structure Upload where
  contentType : ContentType
  form : List (Option FormField)
  announced : Bool := true
deriving DecidableEq, Repr

/-- The boundary and the value of the form (block.rs:103-110, dag.rs:72-79). -/
def Upload.value (u : Upload) : Except BlockFail Bytes :=
  match u.contentType with
  | .absent => .error .noContentType
  | .noBoundary => .error .noBoundary
  | .boundary =>
    match onlyNamed formNames (1024 * 1024) u.form with
    | .error e => .error (.form e)
    | .ok data => .ok data

/-- The block of `block/put` (block.rs:103-127). -/
def blockToPut (env : BlockEnv) (p : BlockPutQuery) (u : Upload) : Except BlockFail Block :=
  match u.value with
  | .error e => .error e
  | .ok data =>
    match p.digest with
    | .error e => .error e
    | .ok code =>
      match p.cidVersion with
      | .error e => .error e
      | .ok v =>
        match p.codec with
        | .error e => .error e
        | .ok codec =>
          match Cid.new v codec code (env.hash code data) with
          | none => .error .cidNew
          | some cid => .ok ⟨cid, data⟩

/-- `{"Key": key, "Size": size}` (block.rs:135-138, 239-242). -/
def keySize (key : Bytes) (size : Nat) : Json :=
  .obj [("Key".toUTF8.toList, .str key), ("Size".toUTF8.toList, .num (JNum.ofInt size))]

variable {σ ε : Type}

/-- Only new blocks are announced. -/
def announceOk (announced : Bool) : BlockPut → Bool
  | .newBlock => announced
  | .existed => true

/-- `put_block` (src/repo/mod.rs:432-458). -/
def storeBlock (s : RepoState σ) (b : Block) (announced : Bool) : RepoState σ × Bool :=
  let r := s.blocks.put b
  ({ s with blocks := r.1 }, announceOk announced r.2.2)

/-- `put` (block.rs:87-139): the filters run in their order. -/
def blockPut (env : BlockEnv) (s : RepoState σ) (query : Option Bytes) (u : Upload) : RepoState σ × BlockReply :=
  match blockPutQuery env.q (query.getD []) with
  | .error () => (s, .failed .badQuery)
  | .ok p =>
    match blockToPut env p u with
    | .error e => (s, .failed e)
    | .ok b =>
      let r := storeBlock s b u.announced
      (r.1, if r.2 then .ok (keySize b.cid.toText b.data.length).write else .failed .announcing)

/-- `GetStatOptions` (block.rs:22-26). -/
def getStatQuery (q : QueryEnv) (query : Bytes) : Except Unit (Bytes × Option Nat) :=
  let pairs := formPairs q.lossy query
  match queryField some kArg pairs, queryField q.duration kTimeout pairs with
  | .ok (some arg), .ok timeout => .ok (arg, timeout)
  | _, _ => .error ()

/-- `get_query` and `stat_query` up to the block (block.rs:28-39, 226-237), with the argument. -/
def lookup (env : BlockEnv) (s : RepoState σ) (query : Option Bytes) (elapses : Bool) : Except BlockReply (Bytes × Block) :=
  match getStatQuery env.q (query.getD []) with
  | .error () => .error (.failed .badQuery)
  | .ok (arg, timeout) =>
    match Cid.ofText env.q.mb arg with
    | none => .error (.failed (.cidText arg))
    | some c =>
      if timeout.isSome && elapses then .error (.failed .elapsed)
      else
        match s.blocks.getBlock c with
        | none => .error .waits
        | some b => .ok (arg, b)

/-- `get` (block.rs:28-51). -/
def blockGet (env : BlockEnv) (s : RepoState σ) (query : Option Bytes) (elapses : Bool) : BlockReply :=
  match lookup env s query elapses with
  | .error r => r
  | .ok (_, b) => .ok b.data

/-- `stat` (block.rs:218-243): the key is the argument. -/
def blockStat (env : BlockEnv) (s : RepoState σ) (query : Option Bytes) (elapses : Bool) : BlockReply :=
  match lookup env s query elapses with
  | .error r => r
  | .ok (arg, b) => .ok (keySize arg b.data.length).write

/-- `RmOptions` (options.rs:4-12). -/
structure RmOptions where
  args : List Bytes
  force : Bool
  quiet : Bool
deriving DecidableEq, Repr

/-- The loop of `RmOptions::try_from` (options.rs:22-49). -/
def rmLoop (args : List Bytes) (force quiet : Option Bool) :
    List (Bytes × Bytes) → Except RefsOptions.OptErr (List Bytes × Option Bool × Option Bool)
  | [] => .ok (args, force, quiet)
  | (key, value) :: rest =>
    if key = kArg then rmLoop (args ++ [value]) force quiet rest
    else if key = kForce then
      match RefsOptions.setOnce key force (RefsOptions.orErr (.boolean key value) (RefsOptions.parseBool value)) with
      | .error e => .error e
      | .ok force => rmLoop args force quiet rest
    else if key = kQuiet then
      match RefsOptions.setOnce key quiet (RefsOptions.orErr (.boolean key value) (RefsOptions.parseBool value)) with
      | .error e => .error e
      | .ok quiet => rmLoop args force quiet rest
    else rmLoop args force quiet rest

/-- `RmOptions::try_from` (options.rs:14-57). -/
def rmOptions (lossy : Bytes → Bytes) (query : Bytes) : Except RefsOptions.OptErr RmOptions :=
  match rmLoop [] none none (formPairs lossy query) with
  | .error e => .error e
  | .ok (args, force, quiet) => .ok ⟨args, force.getD false, quiet.getD false⟩

/-- All of the cids, or the first that is not one (block.rs:169-173). -/
def parseCids (mb : UInt8 → Bytes → Option Bytes) : List Bytes → Except Bytes (List Cid)
  | [] => .ok []
  | s :: l =>
    match Cid.ofText mb s with
    | none => .error s
    | some c =>
      match parseCids mb l with
      | .error e => .error e
      | .ok cs => .ok (c :: cs)

/-- The removals (block.rs:175-182). -/
def removeAll (api : PinApi σ ε) (s : RepoState σ) : List Cid → RepoState σ × List RemoveAns
  | [] => (s, [])
  | c :: cs =>
    let r := s.removeBlock api c
    let rest := removeAll api r.1 cs
    (rest.1, r.2 :: rest.2)

/-- The texts of the errors of `remove_block` (src/repo/mod.rs:491-493, 511). -/
def removeError : RemoveAns → Bytes
  | .pinned => "block to remove is pinned".toUTF8.toList
  | .notFound => "block not found".toUTF8.toList
  | _ => []

/-- `RmResponse` (block.rs:141-146). -/
def rmResponse (error hash : Bytes) : Json :=
  .obj [("Error".toUTF8.toList, .str error), ("Hash".toUTF8.toList, .str hash)]

/-- A chunk of the answer (block.rs:186-210). -/
def rmChunk (force quiet : Bool) (c : Cid) (r : RemoveAns) : Bytes :=
  if quiet then [] else (rmResponse (if force then [] else removeError r) c.toText).write ++ [10]

/-- `rm` (block.rs:151-216): a query is required. -/
def blockRm (env : BlockEnv) (api : PinApi σ ε) (s : RepoState σ) : Option Bytes → RepoState σ × BlockReply
  | none => (s, .failed .badQuery)
  | some query =>
    match rmOptions env.q.lossy query with
    | .error e => (s, .failed (.options e))
    | .ok o =>
      match parseCids env.q.mb o.args with
      | .error arg => (s, .failed (.cidText arg))
      | .ok cids =>
        let r := removeAll api s cids
        (r.1, .chunks ((cids.zip r.2).map (fun p => rmChunk o.force o.quiet p.1 p.2)))

/-- `InputEncoding` (dag.rs:22-34): true for `Raw`. -/
def parseEncoding (s : Bytes) : Option Bool :=
  if s = "raw".toUTF8.toList then some true
  else if s = "json".toUTF8.toList then some false
  else none

/-- `PutQuery` of `dag/put` (dag.rs:14-20): the format, the hash, and whether the input is raw. -/
def dagPutQuery (q : QueryEnv) (query : Bytes) : Except Unit (Option Bytes × Option Bytes × Bool) :=
  let pairs := formPairs q.lossy query
  match queryField some kFormatField pairs, queryField some kHash pairs, queryField parseEncoding kInputEnc pairs with
  | .ok format, .ok hash, .ok enc => .ok (format, hash, enc.getD false)
  | _, _, _ => .error ()

/-- The names of hash functions (dag.rs:65-70). -/
def hashNamed (s : Bytes) : Option Nat :=
  if s = "sha2-256".toUTF8.toList then some mhSha256
  else if s = "sha2-512".toUTF8.toList then some mhSha512
  else if s = "sha3-512".toUTF8.toList then some mhSha3_512
  else none

/-- The block of `dag/put` (dag.rs:55-98). -/
def dagToPut (env : BlockEnv) (format hash : Option Bytes) (u : Upload) : Except BlockFail Block :=
  match codecNamed (format.getD "dag-cbor".toUTF8.toList) with
  | none => .error .unknownCodec
  | some codec =>
    match hashNamed (hash.getD "sha2-256".toUTF8.toList) with
    | none => .error .unknownHash
    | some code =>
      match u.value with
      | .error e => .error e
      | .ok data =>
        .ok ⟨if codec = codecDagPb ∧ code = mhSha256 then Cid.v0 (env.hash code data)
          else ⟨.v1, codec, code, env.hash code data⟩, data⟩

/-- `{"Cid": {"/": cid}}` (dag.rs:91-93). -/
def cidObject (c : Cid) : Json :=
  .obj [("Cid".toUTF8.toList, .obj [("/".toUTF8.toList, .str c.toText)])]

/-- `put` of dag.rs (dag.rs:36-100). The content type is looked at, by a filter, before the handler runs. -/
def dagPut (env : BlockEnv) (s : RepoState σ) (query : Option Bytes) (u : Upload) : RepoState σ × BlockReply :=
  match dagPutQuery env.q (query.getD []) with
  | .error () => (s, .failed .badQuery)
  | .ok (format, hash, raw) =>
    if u.contentType = .absent then (s, .failed .noContentType)
    else if raw then
      match dagToPut env format hash u with
      | .error e => (s, .failed e)
      | .ok b =>
        let r := storeBlock s b u.announced
        (r.1, if r.2 then .ok (cidObject b.cid).write else .failed .announcing)
    else (s, .failed .notImplemented)

/-- What can happen at a node: requests, pinning, and blocks that are stored by other parts of it. -/
inductive BlockReq where
  | put (query : Option Bytes) (u : Upload)
  | dagPut (query : Option Bytes) (u : Upload)
  | get (query : Option Bytes) (elapses : Bool)
  | stat (query : Option Bytes) (elapses : Bool)
  | rm (query : Option Bytes)
  | pin (op : PinOp)
  | arrive (b : Block)
deriving DecidableEq, Repr

/-- One of these. -/
def serveBlock (env : BlockEnv) (api : PinApi σ ε) (s : RepoState σ) : BlockReq → RepoState σ × BlockReply
  | .put query u => blockPut env s query u
  | .dagPut query u => dagPut env s query u
  | .get query elapses => (s, blockGet env s query elapses)
  | .stat query elapses => (s, blockStat env s query elapses)
  | .rm query => blockRm env api s query
  | .pin op => ((s.step api (.pin op)).1, .none)
  | .arrive b => ((storeBlock s b true).1, .none)

/-- Any number of them. -/
def serveBlocks (env : BlockEnv) (api : PinApi σ ε) (s : RepoState σ) (reqs : List BlockReq) : RepoState σ :=
  reqs.foldl (fun s r => (serveBlock env api s r).1) s

/-- The status of an error (support.rs:129-210). -/
def failStatus : BlockFail → Nat
  | .badQuery => 400
  | .notImplemented => 501
  | _ => 500

/-- The messages that are written in the code; the others are of libraries. -/
def failText (libText : BlockFail → Bytes) : BlockFail → Bytes
  | .notImplemented => "Not implemented".toUTF8.toList
  | .noContentType => "UNHANDLED REJECTION".toUTF8.toList
  | .noBoundary => "missing 'boundary' on content-type".toUTF8.toList
  | .unknownHash => "unknown hash".toUTF8.toList
  | .badVersion => "invalid cid version".toUTF8.toList
  | .unknownCodec => "unknown codec".toUTF8.toList
  | e => libText e

/-- `MessageResponse` (support.rs:22-36). -/
def messageResponse (message : Bytes) : Json :=
  .obj [("Message".toUTF8.toList, .str message), ("Code".toUTF8.toList, .num (JNum.ofInt 0)),
    ("Type".toUTF8.toList, .str "error".toUTF8.toList)]

/-- `recover_as_message_response`: status and body of an answer, if there is one. -/
def httpAnswer (libText : BlockFail → Bytes) : BlockReply → Option (Nat × Bytes)
  | .ok body => some (200, body)
  | .chunks l => some (200, l.flatten)
  | .failed e => some (failStatus e, (messageResponse (failText libText e)).write)
  | .waits => none
  | .none => none

end Verif.Http
