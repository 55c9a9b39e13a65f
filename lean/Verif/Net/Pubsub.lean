import Verif.Net.Swarm

/-!
# Topics and their streams

Model of `src/p2p/pubsub.rs`. Of floodsub, which is libp2p's, there is the list of the topics it is
subscribed to (`subscribe` and `unsubscribe` tell whether they changed it), its partial view of the network,
and the queue of what its `poll` gives, filled by the environment with anything at any time.

* A stream has a number. Its channel is the list of the messages not read; a channel ends for the stream
  when its sender is gone, which is when the stream is no longer in the table, and fails for the sender when
  the stream was dropped.
* The topics of dropped streams wait in `drops` for the next `poll`. That channel does not end as `Pubsub`
  has a sender itself (`unreachable!`, line 347).
* `buffer` only saves the clone of an `Arc`. Wakers are not modelled.
-/

namespace Verif.Net

open Verif Verif.Ipfs

abbrev Topic := Bytes

/-- `PubsubMessage` (src/p2p/pubsub.rs:39-52). -/
structure PubMsg where
  source : PeerId
  data : Bytes
  seq : Bytes
  topics : List Topic
deriving DecidableEq, Repr

/-- What floodsub gives when polled; actions are passed on as they are. -/
inductive FloodEv where
  | message (m : PubMsg)
  | subscribed (p : PeerId) (t : Topic)
  | unsubscribed (p : PeerId) (t : Topic)
  | action (n : Nat)
deriving DecidableEq, Repr

/-- `SubscriptionStream` (src/p2p/pubsub.rs:73-77) with the receiving end of its channel. -/
structure PubStream where
  topic : Topic
  onDrop : Bool
  alive : Bool
  inbox : List PubMsg
deriving DecidableEq, Repr

/-- `Pubsub` (src/p2p/pubsub.rs:23-35) and all streams ever made. -/
structure PubSt where
  streams : AMap Topic Nat
  peers : AMap PeerId (List Topic)
  /-- floodsub: `subscribed_topics` -/
  topics : List Topic
  /-- floodsub: `target_peers` -/
  view : List PeerId
  drops : List Topic
  made : List PubStream
  queue : List FloodEv
deriving DecidableEq, Repr

/-- `Pubsub::new` (src/p2p/pubsub.rs:137-147). -/
def PubSt.init : PubSt := ⟨[], [], [], [], [], [], []⟩

inductive PubPanic where
  /-- "subscribing to a unsubscribed topic should have succeeded" -/
  | subscribe
  /-- "sender removed but unsubscription failed" and the two others alike -/
  | unsubscribe
deriving DecidableEq, Repr

/-- `Floodsub::subscribe`: whether it was not yet subscribed. -/
def floodSubscribe (topics : List Topic) (t : Topic) : List Topic × Bool :=
  if t ∈ topics then (topics, false) else (topics ++ [t], true)

/-- `Floodsub::unsubscribe`: whether it was subscribed. -/
def floodUnsubscribe (topics : List Topic) (t : Topic) : List Topic × Bool :=
  if t ∈ topics then (topics.erase t, true) else (topics, false)

/-- `subscribe` (src/p2p/pubsub.rs:152-179): the number of the new stream. -/
def PubSt.subscribe (s : PubSt) (t : Topic) : Except PubPanic (PubSt × Option Nat) :=
  match AMap.get s.streams t with
  | some _ => .ok (s, none)
  | none =>
    match floodSubscribe s.topics t with
    | (_, false) => .error .subscribe
    | (topics, true) =>
      .ok ({ s with
        topics := topics
        streams := AMap.set s.streams t s.made.length
        made := s.made ++ [⟨t, true, true, []⟩] }, some s.made.length)

/-- Removal from the table with the assertion after it (src/p2p/pubsub.rs:185-196, 335-346): whether there
was an entry. -/
def PubSt.unsubscribe (s : PubSt) (t : Topic) : Except PubPanic (PubSt × Bool) :=
  match AMap.get s.streams t with
  | none => .ok (s, false)
  | some _ =>
    match floodUnsubscribe s.topics t with
    | (_, false) => .error .unsubscribe
    | (topics, true) => .ok ({ s with topics := topics, streams := AMap.erase s.streams t }, true)

/-- `known_peers` (src/p2p/pubsub.rs:204-206). -/
def PubSt.knownPeers (s : PubSt) : List PeerId := AMap.keys s.peers

/-- `subscribed_peers` (src/p2p/pubsub.rs:209-214). -/
def PubSt.subscribedPeers (s : PubSt) (t : Topic) : List PeerId :=
  s.peers.filterMap (fun e => if t ∈ e.2 then some e.1 else none)

/-- `subscribed_topics` (src/p2p/pubsub.rs:218-224). -/
def PubSt.subscribedTopics (s : PubSt) : List Topic := AMap.keys s.streams

/-- `drop` of a stream (src/p2p/pubsub.rs:79-89); nothing if there is no such stream any more. -/
def PubSt.dropStream (s : PubSt) (i : Nat) : PubSt :=
  match s.made[i]? with
  | none => s
  | some st =>
    if st.alive then
      { s with
        made := s.made.set i { st with alive := false, onDrop := false, inbox := [] }
        drops := if st.onDrop then s.drops ++ [st.topic] else s.drops }
    else s

/-- What reading from a stream gives. -/
inductive PubRead where
  | item (m : PubMsg)
  | pending
  | ended
  | noStream
deriving DecidableEq, Repr

/-- `poll_next` (src/p2p/pubsub.rs:113-125). -/
def PubSt.readStream (s : PubSt) (i : Nat) : PubSt × PubRead :=
  match s.made[i]? with
  | none => (s, .noStream)
  | some st =>
    if st.alive then
      match st.inbox with
      | m :: rest => ({ s with made := s.made.set i { st with inbox := rest } }, .item m)
      | [] =>
        if AMap.get s.streams st.topic = some i then (s, .pending)
        else ({ s with made := s.made.set i { st with onDrop := false } }, .ended)
    else (s, .noStream)

/-- The first loop of `poll` (src/p2p/pubsub.rs:330-350). -/
def PubSt.handleDrops (s : PubSt) : List Topic → Except PubPanic PubSt
  | [] => .ok s
  | t :: ts =>
    match s.unsubscribe t with
    | .error p => .error p
    | .ok (s', _) => s'.handleDrops ts

/-- `unbounded_send` to the stream of a topic, or its removal (src/p2p/pubsub.rs:360-373). -/
def PubSt.send (s : PubSt) (m : PubMsg) (t : Topic) : Except PubPanic PubSt :=
  match AMap.get s.streams t with
  | none => .ok s
  | some i =>
    match s.made[i]? with
    | some st =>
      if st.alive then .ok { s with made := s.made.set i { st with inbox := st.inbox ++ [m] } }
      else (s.unsubscribe t).map Prod.fst
    | none => (s.unsubscribe t).map Prod.fst

/-- The loop over the topics of a message (src/p2p/pubsub.rs:354-380). -/
def PubSt.sendAll (s : PubSt) (m : PubMsg) : List Topic → Except PubPanic PubSt
  | [] => .ok s
  | t :: ts =>
    match s.send m t with
    | .error p => .error p
    | .ok s' => s'.sendAll m ts

/-- `FloodsubEvent::Subscribed` (src/p2p/pubsub.rs:381-399). -/
def PubSt.peerSubscribed (s : PubSt) (p : PeerId) (t : Topic) : PubSt :=
  let topics := (AMap.get s.peers p).getD []
  { s with
    view := insertSet s.view p
    peers := AMap.set s.peers p (if t ∈ topics then topics else topics ++ [t]) }

/-- `FloodsubEvent::Unsubscribed` (src/p2p/pubsub.rs:400-417). -/
def PubSt.peerUnsubscribed (s : PubSt) (p : PeerId) (t : Topic) : PubSt :=
  match AMap.get s.peers p with
  | none => s
  | some topics =>
    let topics' := swapRemove topics t
    if topics'.isEmpty then
      { s with peers := AMap.erase s.peers p, view := s.view.filter (fun q => decide (q ≠ p)) }
    else { s with peers := AMap.set s.peers p topics' }

/-- One round of the second loop of `poll` (src/p2p/pubsub.rs:353-447). -/
def PubSt.handle (s : PubSt) : FloodEv → Except PubPanic (PubSt × Option Nat)
  | .action n => .ok (s, some n)
  | .message m => (s.sendAll m m.topics).map (fun s => (s, none))
  | .subscribed p t => .ok (s.peerSubscribed p t, none)
  | .unsubscribed p t => .ok (s.peerUnsubscribed p t, none)

/-- The second loop of `poll` (src/p2p/pubsub.rs:352-448), until an action or the end of the queue. -/
def PubSt.handleQueue (s : PubSt) : List FloodEv → Except PubPanic (PubSt × Option Nat)
  | [] => .ok ({ s with queue := [] }, none)
  | e :: q =>
    match PubSt.handle { s with queue := q } e with
    | .error p => .error p
    | .ok (s', some n) => .ok (s', some n)
    | .ok (s', none) => s'.handleQueue q

/-- `poll` (src/p2p/pubsub.rs:322-449): the action passed on, or `Pending`. -/
def PubSt.poll (s : PubSt) : Except PubPanic (PubSt × Option Nat) :=
  match s.handleDrops s.drops with
  | .error p => .error p
  | .ok s' => PubSt.handleQueue { s' with drops := [] } s.queue

/-- What can happen. Streams are dropped and read by other tasks while `poll` runs, so that a round of
either of its loops is a step of its own. -/
inductive PubOp where
  | subscribe (t : Topic)
  | unsubscribe (t : Topic)
  | dropStream (i : Nat)
  | readStream (i : Nat)
  | addNode (p : PeerId)
  | removeNode (p : PeerId)
  | arrive (e : FloodEv)
  /-- a round of the first loop -/
  | drain
  /-- a round of the second loop -/
  | serve
deriving DecidableEq, Repr

/-- What is answered. -/
inductive PubAns where
  | stream (i : Option Nat)
  | was (b : Bool)
  | read (i : Nat) (r : PubRead)
  | polled (n : Option Nat)
  | nothing
deriving DecidableEq, Repr

def PubSt.step (s : PubSt) : PubOp → Except PubPanic (PubSt × PubAns)
  | .subscribe t => (s.subscribe t).map (fun x => (x.1, .stream x.2))
  | .unsubscribe t => (s.unsubscribe t).map (fun x => (x.1, .was x.2))
  | .dropStream i => .ok (s.dropStream i, .nothing)
  | .readStream i => .ok ((s.readStream i).1, .read i (s.readStream i).2)
  | .addNode p => .ok ({ s with view := insertSet s.view p }, .nothing)
  | .removeNode p => .ok ({ s with view := s.view.filter (fun q => decide (q ≠ p)) }, .nothing)
  | .arrive e => .ok ({ s with queue := s.queue ++ [e] }, .nothing)
  | .drain =>
    match s.drops with
    | [] => .ok (s, .nothing)
    | t :: ts => (PubSt.unsubscribe { s with drops := ts } t).map (fun x => (x.1, .nothing))
  | .serve =>
    match s.queue with
    | [] => .ok (s, .nothing)
    | e :: q => (PubSt.handle { s with queue := q } e).map (fun x => (x.1, .polled x.2))

/-- A history and its answers. -/
def PubSt.run (s : PubSt) : List PubOp → Except PubPanic (PubSt × List PubAns)
  | [] => .ok (s, [])
  | op :: ops =>
    match s.step op with
    | .error p => .error p
    | .ok (s', a) =>
      match PubSt.run s' ops with
      | .error p => .error p
      | .ok (s'', as) => .ok (s'', a :: as)

end Verif.Net
