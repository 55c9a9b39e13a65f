import Verif.Http.Node
import Verif.Http.PubsubSub

/-!
# What `pubsub/sub`, `pubsub/peers` and `pubsub/ls` answer

Model of http/src/v0/pubsub.rs:43-79 and 287-362: the lines of a response to `pubsub/sub`, and the two requests that list peers and
topics. Which messages a response has is modelled in `Http/PubsubSub`, what `pubsub/pub` takes from its request in `Http/Publish`.

* The node is the state of `Net/Pubsub` when its background task handles the call; `none` if the task is gone.
* `serde_json::to_vec` does not fail for an object of texts, so there is no `StreamError::Serialization`.
-/

namespace Verif.Http

open Verif Verif.Net

/-- `PubsubHttpApiMessage` and its `From` (pubsub.rs:300-337). -/
def pubObject (m : PubMsg) : Json :=
  .obj [("from".toUTF8.toList, .str (base64 m.source.toBytes)), ("data".toUTF8.toList, .str (base64 m.data)),
    ("seqno".toUTF8.toList, .str (base64 m.seq)), ("topicIDs".toUTF8.toList, .arr (m.topics.map Json.str))]

/-- `preformat` (pubsub.rs:350-362). -/
def preformat (m : PubMsg) : Bytes := (pubObject m).write ++ [10]

/-- The body of a response that has had these messages (pubsub.rs:165-186). -/
def subBody (out : List PubMsg) : Bytes := (out.map preformat).flatten

/-- `StringListResponse` (pubsub.rs:377-382). -/
def stringList (l : List Bytes) : Json := .obj [("Strings".toUTF8.toList, .arr (l.map Json.str))]

/-- `IpfsEvent::PubsubPeers` (src/lib.rs:1443-1450). -/
def peersOf (s : PubSt) : Option Topic → List PeerId
  | some t => s.subscribedPeers t
  | none => s.knownPeers

/-- `inner_peers` with `OptionalTopicParameter` (pubsub.rs:43-63, 370-375). -/
def pubsubPeers (q : QueryEnv) (node : Option PubSt) (query : Bytes) : NodeReply :=
  match queryField some kArg (formPairs q.lossy query) with
  | .error () => .failed .badQuery
  | .ok topic =>
    match node with
    | none => .failed .down
    | some s => .json (stringList ((peersOf s topic).map PeerId.toText))

/-- `inner_ls` (pubsub.rs:65-79) with `IpfsEvent::PubsubSubscribed` (src/lib.rs:1451-1453). -/
def pubsubLs (node : Option PubSt) : NodeReply :=
  match node with
  | none => .failed .down
  | some s => .json (stringList s.subscribedTopics)

end Verif.Http
