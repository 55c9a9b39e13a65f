import Verif.Net.Pubsub

/-!
# The responses of `pubsub/sub`

Model of `inner_subscribe` and `shovel` (http/src/v0/pubsub.rs:118-276) over the model of the subscriptions of
the node (`Verif.Net.Pubsub`). Requests and the background tasks ("shovels") are automata; one step is what
happens between two places where another task may run, and the next to take a step is chosen freely.

* `Pubsub::subscriptions` is `table` together with `locked`, its mutex; whoever finds it free may take it.
* A tokio broadcast channel of 16 places is the list of all that was sent on it. A receiver has the number of
  the message it will get next: `Lagged` if more than 16 are waiting, `Closed` if none is and no sender is left.
  `send` fails when there is no receiver.
* `Ipfs::pubsub_subscribe` (src/lib.rs:759-774) is a question (`asking`) which the background task of the node
  answers at some time with the number of the stream or none. It does not fail otherwise: the node is running.
* A panic ends the task: its guard of the mutex and then what it owns are dropped.
* `preformat` (350-362) does not fail, as the message is made of strings; what it writes is in `Http/PubsubHttp`.
-/

namespace Verif.Http

open Verif Verif.Net

/-- The node after a step. Its assertions do not fail (`C47_no_abort`). -/
def pubAfter (s : PubSt) (op : PubOp) : PubSt :=
  match s.step op with
  | .ok (s', _) => s'
  | .error _ => s

/-- The answer to `IpfsEvent::PubsubSubscribe` (src/lib.rs:1433-1435). -/
def pubAsk (s : PubSt) (t : Topic) : PubSt × Option Nat :=
  match s.subscribe t with
  | .ok r => r
  | .error _ => (s, none)

/-- Where a request is (http/src/v0/pubsub.rs:118-186). -/
inductive SubPc where
  /-- line 126 -/
  | waiting
  /-- line 142, holding the guard -/
  | asking
  | answered (r : Option Nat)
  /-- line 165: the channel and the next message -/
  | streaming (c pos : Nat)
  /-- the response ended with "consuming the stream too slowly" -/
  | lagged
  /-- the response ended without error -/
  | closed
  /-- line 143 -/
  | panicked
  /-- the client went away; in the latter case the question is still to be answered -/
  | gone
  | goneAsking
deriving DecidableEq, Repr

/-- A request for `pubsub/sub`, with the messages of its response so far. -/
structure SubReq where
  topic : Topic
  pc : SubPc
  out : List PubMsg
deriving DecidableEq, Repr

/-- Where a shovel is (http/src/v0/pubsub.rs:188-276). -/
inductive ShovelPc where
  /-- line 208 -/
  | reading
  /-- line 231, with `unsubscribed` -/
  | wanting (u : Bool)
  /-- line 248, holding the guard -/
  | asking
  | answered (r : Option Nat)
  /-- line 264: returned, the stream not yet dropped -/
  | leaving
  | gone
  /-- line 250: panicked, the stream not yet dropped -/
  | failing
  | panicked
  /-- line 266 -/
  | unreachable
deriving DecidableEq, Repr

/-- A shovel: the topic, the number of its stream, the number of its channel. -/
structure Shovel where
  topic : Topic
  stream : Nat
  chan : Nat
  pc : ShovelPc
deriving DecidableEq, Repr

/-- Everything. -/
structure SubHub where
  ps : PubSt
  /-- `Pubsub::subscriptions` (http/src/v0/pubsub.rs:36-40) -/
  table : AMap Topic Nat
  locked : Bool
  /-- what was sent on each channel -/
  chans : List (List PubMsg)
  reqs : List SubReq
  shovels : List Shovel
deriving DecidableEq, Repr

def SubHub.init : SubHub := ⟨PubSt.init, [], false, [], [], []⟩

/-- Capacity of a channel (http/src/v0/pubsub.rs:148). -/
def subCapacity : Nat := 16

/-- Whether the request has a receiver of the channel. -/
def SubReq.hears (r : SubReq) (c : Nat) : Bool :=
  match r.pc with
  | .streaming c' _ => decide (c' = c)
  | _ => false

/-- `receiver_count() > 0`. -/
def SubHub.heard (h : SubHub) (c : Nat) : Bool := h.reqs.any (fun r => r.hears c)

/-- Whether the task has not ended. -/
def ShovelPc.lives : ShovelPc → Bool
  | .gone => false
  | .panicked => false
  | .unreachable => false
  | _ => true

/-- Whether the channel has a sender: the one in the table or the one of a shovel. -/
def SubHub.open (h : SubHub) (c : Nat) : Bool :=
  h.table.any (fun e => decide (e.2 = c)) || h.shovels.any (fun s => decide (s.chan = c) && s.pc.lives)

/-- What was sent on the channel. -/
def SubHub.sent (h : SubHub) (c : Nat) : List PubMsg := (h.chans[c]?).getD []

def SubHub.setReq (h : SubHub) (i : Nat) (r : SubReq) : SubHub := { h with reqs := h.reqs.set i r }

def SubHub.setShovel (h : SubHub) (k : Nat) (s : Shovel) : SubHub := { h with shovels := h.shovels.set k s }

def SubHub.dropStream (h : SubHub) (i : Nat) : SubHub := { h with ps := pubAfter h.ps (.dropStream i) }

/-- `rx.recv()` and what is made of it (http/src/v0/pubsub.rs:165-183). -/
def SubHub.recv (h : SubHub) (i : Nat) (r : SubReq) (c pos : Nat) : SubHub :=
  if pos + subCapacity < (h.sent c).length then h.setReq i { r with pc := .lagged }
  else
    match (h.sent c)[pos]? with
    | some m => h.setReq i { r with pc := .streaming c (pos + 1), out := r.out ++ [m] }
    | none => if h.open c then h else h.setReq i { r with pc := .closed }

/-- The next step of a request (http/src/v0/pubsub.rs:126-186). -/
def SubHub.goReq (h : SubHub) (i : Nat) (r : SubReq) : SubHub :=
  match r.pc with
  | .waiting =>
    if h.locked then h
    else
      match AMap.get h.table r.topic with
      | some c => h.setReq i { r with pc := .streaming c (h.sent c).length }
      | none => { h.setReq i { r with pc := .asking } with locked := true }
  | .answered (some j) =>
    { h.setReq i { r with pc := .streaming h.chans.length 0 } with
      locked := false
      table := AMap.set h.table r.topic h.chans.length
      chans := h.chans ++ [[]]
      shovels := h.shovels ++ [⟨r.topic, j, h.chans.length, .reading⟩] }
  | .answered none => { h.setReq i { r with pc := .panicked } with locked := false }
  | .streaming c pos => h.recv i r c pos
  | _ => h

/-- The node answers the question of a request. The stream is dropped if nobody waits for it any more. -/
def SubHub.answerReq (h : SubHub) (i : Nat) (r : SubReq) : SubHub :=
  match r.pc with
  | .asking => { h.setReq i { r with pc := .answered (pubAsk h.ps r.topic).2 } with ps := (pubAsk h.ps r.topic).1 }
  | .goneAsking =>
    match (pubAsk h.ps r.topic).2 with
    | some j => { h.setReq i { r with pc := .gone } with ps := pubAfter (pubAsk h.ps r.topic).1 (.dropStream j) }
    | none => { h.setReq i { r with pc := .gone } with ps := (pubAsk h.ps r.topic).1 }
  | _ => h

/-- The client goes away: the future of the request or the body of the response is dropped. -/
def SubHub.hangUp (h : SubHub) (i : Nat) (r : SubReq) : SubHub :=
  match r.pc with
  | .waiting => h.setReq i { r with pc := .gone }
  | .asking => { h.setReq i { r with pc := .goneAsking } with locked := false }
  | .answered (some j) => { (h.setReq i { r with pc := .gone }).dropStream j with locked := false }
  | .answered none => { h.setReq i { r with pc := .gone } with locked := false }
  | .streaming _ _ => h.setReq i { r with pc := .gone }
  | _ => h

/-- A shovel sends a message (http/src/v0/pubsub.rs:224-228). -/
def SubHub.shovelSend (h : SubHub) (k : Nat) (s : Shovel) (m : PubMsg) : SubHub :=
  if h.heard s.chan then { h with chans := h.chans.set s.chan (h.sent s.chan ++ [m]) }
  else h.setShovel k { s with pc := .wanting false }

/-- A shovel has the guard (http/src/v0/pubsub.rs:231-271). -/
def SubHub.shovelLocked (h : SubHub) (k : Nat) (s : Shovel) (u : Bool) : SubHub :=
  match AMap.get h.table s.topic with
  | some c =>
    if h.heard c then
      if u then { h.setShovel k { s with pc := .asking } with locked := true }
      else h.setShovel k { s with pc := .reading }
    else { h.setShovel k { s with pc := .leaving } with table := AMap.erase h.table s.topic }
  | none => h.setShovel k { s with pc := .unreachable }

/-- The next step of a shovel (http/src/v0/pubsub.rs:203-275). -/
def SubHub.goShovel (h : SubHub) (k : Nat) (s : Shovel) : SubHub :=
  match s.pc with
  | .reading =>
    match (h.ps.readStream s.stream).2 with
    | .item m => { h with ps := pubAfter h.ps (.readStream s.stream) }.shovelSend k s m
    | .pending => h
    | _ => { h.setShovel k { s with pc := .wanting true } with ps := pubAfter h.ps (.readStream s.stream) }
  | .wanting u => if h.locked then h else h.shovelLocked k s u
  | .answered (some j) =>
    { (h.setShovel k { s with stream := j, pc := .reading }).dropStream s.stream with locked := false }
  | .answered none => { h.setShovel k { s with pc := .failing } with locked := false }
  | .leaving => (h.setShovel k { s with pc := .gone }).dropStream s.stream
  | .failing => (h.setShovel k { s with pc := .panicked }).dropStream s.stream
  | _ => h

/-- The node answers the question of a shovel. -/
def SubHub.answerShovel (h : SubHub) (k : Nat) (s : Shovel) : SubHub :=
  match s.pc with
  | .asking => { h.setShovel k { s with pc := .answered (pubAsk h.ps s.topic).2 } with ps := (pubAsk h.ps s.topic).1 }
  | _ => h

/-- The 50 ms have passed (http/src/v0/pubsub.rs:211-221). The stream is looked at first. -/
def SubHub.timeout (h : SubHub) (k : Nat) (s : Shovel) : SubHub :=
  match s.pc with
  | .reading =>
    if (h.ps.readStream s.stream).2 = .pending ∧ h.heard s.chan = false then h.setShovel k { s with pc := .wanting true }
    else h
  | _ => h

/-- What others do with the subscriptions of the node: anything but `subscribe`, which the module asks not to be
called by others (http/src/v0/pubsub.rs:9-11). -/
def outsideOp : PubOp → Bool
  | .subscribe _ => false
  | .dropStream _ => false
  | .readStream _ => false
  | _ => true

inductive SubOp where
  | request (t : Topic)
  | goReq (i : Nat)
  | answerReq (i : Nat)
  | hangUp (i : Nat)
  | goShovel (k : Nat)
  | answerShovel (k : Nat)
  | timeout (k : Nat)
  | node (op : PubOp)
deriving DecidableEq, Repr

/-- A step for the request of the number, if there is one. -/
def SubHub.onReq (h : SubHub) (i : Nat) (f : SubReq → SubHub) : SubHub :=
  match h.reqs[i]? with
  | some r => f r
  | none => h

def SubHub.onShovel (h : SubHub) (k : Nat) (f : Shovel → SubHub) : SubHub :=
  match h.shovels[k]? with
  | some s => f s
  | none => h

def SubHub.step (h : SubHub) : SubOp → SubHub
  | .request t => { h with reqs := h.reqs ++ [⟨t, .waiting, []⟩] }
  | .goReq i => h.onReq i (h.goReq i)
  | .answerReq i => h.onReq i (h.answerReq i)
  | .hangUp i => h.onReq i (h.hangUp i)
  | .goShovel k => h.onShovel k (h.goShovel k)
  | .answerShovel k => h.onShovel k (h.answerShovel k)
  | .timeout k => h.onShovel k (h.timeout k)
  | .node op => if outsideOp op then { h with ps := pubAfter h.ps op } else h

def SubHub.run (h : SubHub) (ops : List SubOp) : SubHub := ops.foldl SubHub.step h

end Verif.Http
