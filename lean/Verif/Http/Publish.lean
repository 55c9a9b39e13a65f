import Verif.Http.Add
import Verif.Http.OnlyField

/-!
# The arguments of `pubsub/pub` and `pubsub/sub`

Model of `publish_args` and what it uses (http/src/v0/pubsub.rs:414-526), and of the topic that
`pubsub/sub` takes from its query.

* The query is the text after '?', if any; `warp::query::raw` refuses a request without.
* The header "content-type" is absent, not a MIME type, or one with or without a boundary.
* The form in the body, read with the boundary, is a parameter.
* `warp::query` for `pubsub/sub` is `serde_urlencoded`, that is `form_urlencoded::parse`: as here, but '+'
  stands for a space and the decoded text is made UTF-8; only texts that are UTF-8 are represented.
-/

namespace Verif.Http

open Verif

/-- `splitn(2, |b| b == c)`: the part before the first `c` and the part after, empty if there is none. -/
def cutAt (c : UInt8) : Bytes → Bytes × Bytes
  | [] => ([], [])
  | b :: s => if b = c then ([], s) else (b :: (cutAt c s).1, (cutAt c s).2)

theorem cutAt_snd_length (c : UInt8) (s : Bytes) : (cutAt c s).2.length ≤ s.length := by
  induction s with
  | nil => simp [cutAt]
  | cons b s ih =>
    simp only [cutAt]
    split
    · simp
    · simp only [List.length_cons]; omega

theorem cutAt_snd_lt (c : UInt8) (b : UInt8) (s : Bytes) : (cutAt c (b :: s)).2.length < (b :: s).length := by
  simp only [cutAt]
  split
  · simp
  · have := cutAt_snd_length c s
    simp only [List.length_cons]; omega

/-- `QueryAsRawPartsParser` (pubsub.rs:500-526): the parts of a query. -/
def rawParts : Bytes → List (Bytes × Bytes)
  | [] => []
  | b :: s =>
    let p := cutAt 38 (b :: s)
    if p.1.isEmpty then rawParts p.2 else cutAt 61 p.1 :: rawParts p.2
termination_by s => s.length
decreasing_by all_goals exact cutAt_snd_lt 38 b s

/-- Why `pubsub/pub` is refused. -/
inductive PubRej where
  | invalidQuery
  | missing (what : Bytes)
  | nonUtf8Topic
  | invalidHeader
  /-- "message needs to be query or in multipart body" -/
  | noBody
  /-- "missing 'boundary' on content-type" -/
  | noBoundary
  | form (e : OnlyErr)
  /-- "argument \"data\" is required" -/
  | noData
deriving DecidableEq, Repr

/-- The header "content-type". -/
inductive CType where
  | absent
  | invalid
  | mime (boundary : Option Bytes)
deriving DecidableEq, Repr

/-- "topic" and "file". -/
def kTopic : Bytes := [0x74, 0x6F, 0x70, 0x69, 0x63]
def kFile : Bytes := [0x66, 0x69, 0x6C, 0x65]

/-- The first part of `publish_args` (pubsub.rs:418-459): the topic and the message if it is in the query. -/
def publishQuery (param : Bytes) (query : Option Bytes) : Except PubRej (Bytes × Option Bytes) :=
  match query with
  | none => .error .invalidQuery
  | some q =>
    if q.isEmpty then .error (.missing kTopic)
    else
      match ((rawParts q).filter (fun p => p.1 = param)).map Prod.snd with
      | [] => .error (.missing param)
      | first :: rest =>
        let topic := percentDecode first
        if utf8Ok topic then .ok (topic, rest.head?.map percentDecode) else .error .nonUtf8Topic

/-- `publish_args_inner` (pubsub.rs:466-494), after the header was read. -/
def publishInner (form : Bytes → List (Option FormField)) (ctype : CType) (topic : Bytes) :
    Option Bytes → Except PubRej (Bytes × Bytes)
  | some message => .ok (topic, message)
  | none =>
    match ctype with
    | .absent => .error .noBody
    | .invalid => .error .invalidHeader
    | .mime none => .error .noBoundary
    | .mime (some boundary) =>
      match onlyNamed [kFile] (1024 * 100) (form boundary) with
      | .ok [] => .error .noData
      | .ok buffer => .ok (topic, buffer)
      | .error .notFound => .error .noData
      | .error e => .error (.form e)

/-- `publish_args` (pubsub.rs:414-464): the topic and the message. -/
def publishArgs (form : Bytes → List (Option FormField)) (param : Bytes) (query : Option Bytes) (ctype : CType) :
    Except PubRej (Bytes × Bytes) :=
  match publishQuery param query with
  | .error e => .error e
  | .ok (topic, message) =>
    match ctype with
    | .invalid => .error .invalidHeader
    | ctype => publishInner form ctype topic message

/-- `replace_plus` of `form_urlencoded`. -/
def replacePlus (s : Bytes) : Bytes := s.map (fun c => if c = 43 then 32 else c)

/-- `TopicParameter` (pubsub.rs:364-368) by `serde_urlencoded`: the field "arg", just once. -/
def subscribeTopic (query : Bytes) : Option Bytes :=
  match ((rawParts query).map (fun p => (percentDecode (replacePlus p.1), percentDecode (replacePlus p.2)))).filter
      (fun p => p.1 = [0x61, 0x72, 0x67]) with
  | [(_, topic)] => if utf8Ok topic then some topic else none
  | _ => none

end Verif.Http
