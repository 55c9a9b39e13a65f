import Verif.Bitswap.Message

/-!
# The bitswap behaviour

Model of `Ledger` of `bitswap/src/ledger.rs`, of `bitswap/src/behaviour.rs`, and of the part of
`src/p2p/behaviour.rs` that takes its events.

* `P` stands for `PeerId`. Connection ids, endpoints and handlers play no part.
* `HashMap`s are association lists; the order in which `poll` visits the peers is a parameter.
* A panic is `none`. Logging is left out.
* Handling of a dialling request and of messages by the swarm and the handlers is not modelled.
-/

namespace Verif.Bitswap

open Verif
open Verif.Repo (Block BlockPut)

/-- `Ledger` (bitswap/src/ledger.rs:14-22). -/
structure Ledger where
  sent : AMap Cid Int := []
  received : AMap Cid Int := []
  message : Message := {}
deriving DecidableEq, Repr

namespace Ledger

/-- `add_block` (bitswap/src/ledger.rs:30-32). -/
def addBlock (l : Ledger) (b : Block) : Ledger := { l with message := l.message.addBlock b }

/-- `want_block` (bitswap/src/ledger.rs:34-36). -/
def wantBlock (l : Ledger) (c : Cid) (priority : Int) : Ledger := { l with message := l.message.wantBlock c priority }

/-- `cancel_block` (bitswap/src/ledger.rs:38-40). -/
def cancelBlock (l : Ledger) (c : Cid) : Ledger := { l with message := l.message.cancelBlock c }

/-- `send` (bitswap/src/ledger.rs:50-63). -/
def send (l : Ledger) : Option (Message × Ledger) :=
  if l.message.isEmpty then none
  else
    let sent := l.message.cancel.foldl (fun m c => m.erase c) l.sent
    let sent := l.message.want.foldl (fun m e => m.set e.1 e.2) sent
    some (l.message, { l with sent := sent, message := {} })

end Ledger

/-- `Stats` (bitswap/src/behaviour.rs:38-46), counters of 64 bits. -/
structure Stats where
  sentBlocks : Nat := 0
  sentData : Nat := 0
  receivedBlocks : Nat := 0
  receivedData : Nat := 0
  duplicateBlocks : Nat := 0
  duplicateData : Nat := 0
deriving DecidableEq, Repr

/-- `fetch_add`: wraps. -/
def fetchAdd (a b : Nat) : Nat := (a + b) % 2 ^ 64

namespace Stats

/-- `update_outgoing` (bitswap/src/behaviour.rs:49-51). -/
def updateOutgoing (s : Stats) (n : Nat) : Stats := { s with sentBlocks := fetchAdd s.sentBlocks n }

/-- `update_incoming_unique` (bitswap/src/behaviour.rs:53-56). -/
def updateUnique (s : Stats) (bytes : Nat) : Stats :=
  { s with receivedBlocks := fetchAdd s.receivedBlocks 1, receivedData := fetchAdd s.receivedData bytes }

/-- `update_incoming_duplicate` (bitswap/src/behaviour.rs:58-61). -/
def updateDuplicate (s : Stats) (bytes : Nat) : Stats :=
  { s with duplicateBlocks := fetchAdd s.duplicateBlocks 1, duplicateData := fetchAdd s.duplicateData bytes }

/-- `add_assign` (bitswap/src/behaviour.rs:63-84). -/
def addAssign (s o : Stats) : Stats :=
  { sentBlocks := fetchAdd s.sentBlocks o.sentBlocks
    sentData := fetchAdd s.sentData o.sentData
    receivedBlocks := fetchAdd s.receivedBlocks o.receivedBlocks
    receivedData := fetchAdd s.receivedData o.receivedData
    duplicateBlocks := fetchAdd s.duplicateBlocks o.duplicateBlocks
    duplicateData := fetchAdd s.duplicateData o.duplicateData }

end Stats

/-- `BitswapEvent` (bitswap/src/behaviour.rs:31-35). -/
inductive Event (P : Type) where
  | block (p : P) (b : Block)
  | want (p : P) (c : Cid) (priority : Int)
  | cancel (p : P) (c : Cid)
deriving DecidableEq, Repr

/-- `NetworkBehaviourAction`, the variants in use. -/
inductive Action (P : Type) where
  | dial (p : P)
  | notify (p : P) (m : Message)
  | generate (e : Event P)
deriving DecidableEq, Repr

/-- `Bitswap` (bitswap/src/behaviour.rs:88-108). -/
structure Bitswap (P : Type) where
  events : List (Action P) := []
  targets : List P := []
  peers : AMap P Ledger := []
  wanted : AMap Cid Int := []
  ready : List (P × Block) := []
  stats : AMap P Stats := []
deriving Repr

/-- All values of a map changed: `iter_mut`. -/
def mapVals {κ ν : Type} (f : ν → ν) (m : AMap κ ν) : AMap κ ν := m.map (fun e => (e.1, f e.2))

namespace Bitswap

variable {P : Type} [DecidableEq P]

/-- `peer_wantlist` (bitswap/src/behaviour.rs:136-138). -/
def peerWantlist (s : Bitswap P) (p : P) : Option (AMap Cid Int) := (s.peers.get p).map Ledger.received

/-- `stats` (bitswap/src/behaviour.rs:140-147). -/
def total (s : Bitswap P) : Stats := s.stats.foldl (fun acc e => acc.addAssign e.2) {}

/-- `connect` (bitswap/src/behaviour.rs:156-166). -/
def connect (s : Bitswap P) (p : P) : Bitswap P :=
  if p ∈ s.targets then s else { s with targets := p :: s.targets, events := s.events ++ [.dial p] }

/-- `send_block` (bitswap/src/behaviour.rs:171-176). -/
def sendBlock (s : Bitswap P) (p : P) (b : Block) : Bitswap P :=
  match s.peers.get p with
  | none => s
  | some l => { s with peers := s.peers.set p (l.addBlock b) }

/-- The message of `send_want_list`. -/
def wantAll (w : AMap Cid Int) : Message := w.foldl (fun m e => m.wantBlock e.1 e.2) {}

/-- `send_want_list` (bitswap/src/behaviour.rs:179-195). -/
def sendWantList (s : Bitswap P) (p : P) : Bitswap P :=
  if s.wanted.isEmpty then s else { s with events := s.events ++ [.notify p (wantAll s.wanted)] }

/-- `want_block` (bitswap/src/behaviour.rs:200-205). -/
def wantBlock (s : Bitswap P) (c : Cid) (priority : Int) : Bitswap P :=
  { s with peers := mapVals (fun l => l.wantBlock c priority) s.peers, wanted := s.wanted.set c priority }

/-- `cancel_block` (bitswap/src/behaviour.rs:211-216). -/
def cancelBlock (s : Bitswap P) (c : Cid) : Bitswap P :=
  { s with peers := mapVals (fun l => l.cancelBlock c) s.peers, wanted := s.wanted.erase c }

/-- `entry(*peer_id).or_default()`. -/
def orDefault (m : AMap P Stats) (p : P) : AMap P Stats :=
  match m.get p with
  | some _ => m
  | none => m.set p {}

/-- `inject_connection_established` (bitswap/src/behaviour.rs:233-246). -/
def established (s : Bitswap P) (p : P) : Bitswap P :=
  sendWantList { s with stats := orDefault s.stats p, peers := s.peers.set p {} } p

/-- `inject_connection_closed` (bitswap/src/behaviour.rs:248-260). -/
def closed (s : Bitswap P) (p : P) : Bitswap P := { s with peers := s.peers.erase p }

/-- One block of a message that came in (bitswap/src/behaviour.rs:304-310). -/
def takeBlock (p : P) (s : Bitswap P) (b : Block) : Bitswap P :=
  let s := s.cancelBlock b.cid
  { s with events := s.events ++ [.generate (.block p b)] }

/-- The wants of a message that are looked at (bitswap/src/behaviour.rs:291-295). -/
def freshWants (s : Bitswap P) (m : Message) : AMap Cid Int :=
  m.want.filter (fun e => !(s.wanted.any (fun w => decide (w.1 = e.1))))

/-- `inject_event` with a message that came in (bitswap/src/behaviour.rs:262-311); `none` is a panic. -/
def received (s : Bitswap P) (p : P) (m : Message) : Option (Bitswap P) :=
  match s.peers.get p with
  | none => none
  | some l =>
    let fresh := s.freshWants m
    let rec1 := m.cancel.foldl (fun r c => r.erase c) l.received
    let ev1 := m.cancel.map (fun c => Action.generate (.cancel p c))
    let rec2 := fresh.foldl (fun r e => r.set e.1 e.2) rec1
    let ev2 := fresh.map (fun e => Action.generate (.want p e.1 e.2))
    let s1 := { s with peers := s.peers.set p { l with received := rec2 }, events := s.events ++ ev1 ++ ev2 }
    some (m.blocks.foldl (takeBlock p) s1)

/-- The first peer in the order given that has something to send. -/
def firstToSend (s : Bitswap P) : List P → Option (P × Message × Ledger)
  | [] => none
  | p :: ps =>
    match (s.peers.get p).bind Ledger.send with
    | some (m, l) => some (p, m, l)
    | none => firstToSend s ps

/-- `if let Some(peer_stats) = self.stats.get_mut(peer_id)`. -/
def countOutgoing (m : AMap P Stats) (p : P) (n : Nat) : AMap P Stats :=
  match m.get p with
  | none => m
  | some st => m.set p (st.updateOutgoing n)

/-- `poll` (bitswap/src/behaviour.rs:314-343); `order` is the order of iteration. -/
def poll (s : Bitswap P) (order : List P) : Option (Action P) × Bitswap P :=
  let s := { s.ready.foldl (fun s e => s.sendBlock e.1 e.2) s with ready := [] }
  match s.events with
  | e :: es => (some e, { s with events := es })
  | [] =>
    match s.firstToSend order with
    | none => (none, s)
    | some (p, m, l) =>
      (some (.notify p m), { s with peers := s.peers.set p l, stats := countOutgoing s.stats p m.blocks.length })

end Bitswap

/-! ### With the tasks of the node -/

/-- The behaviour, and the tasks that store a block. -/
structure Node (P : Type) where
  bs : Bitswap P := {}
  tasks : List (P × Block) := []
deriving Repr

/-- What can happen. -/
inductive Op (P : Type) where
  | connect (p : P)
  | want (c : Cid) (priority : Int)
  | cancel (c : Cid)
  | established (p : P)
  | closed (p : P)
  | received (p : P) (m : Message)
  /-- A task that looked for a wanted block queues it. -/
  | queue (p : P) (b : Block)
  | poll (order : List P)
  /-- The task with this number is done, `put_block` gave this; `none` is an error. -/
  | stored (i : Nat) (r : Option BlockPut)

namespace Node

variable {P : Type} [DecidableEq P]

/-- `inject_event` of the behaviour of the node (src/p2p/behaviour.rs:325-378); `none` is a panic. Looking
for wanted blocks is left to `Op.queue`. -/
def onEvent (s : Node P) : Event P → Option (Node P)
  | .block p b =>
    match s.bs.stats.get p with
    | none => none
    | some _ => some { s with tasks := s.tasks ++ [(p, b)] }
  | .want .. => some s
  | .cancel .. => some s

/-- What the outcome of `put_block` does to the counters (src/p2p/behaviour.rs:334-338). -/
def putCount (n : Nat) : Option BlockPut → Stats → Stats
  | some .newBlock, st => st.updateUnique n
  | some .existed, st => st.updateDuplicate n
  | none, st => st

/-- The end of a task (src/p2p/behaviour.rs:332-347): the counters are shared with the map. -/
def storeDone (s : Node P) (i : Nat) (r : Option BlockPut) : Node P :=
  match s.tasks[i]? with
  | none => s
  | some (p, b) =>
    { s with
      tasks := s.tasks.eraseIdx i
      bs := match s.bs.stats.get p with
        | none => s.bs
        | some st => { s.bs with stats := s.bs.stats.set p (putCount b.data.length r st) } }

/-- One step; `none` is a panic. The action is what `poll` hands to the swarm. -/
def step (s : Node P) : Op P → Option (Option (Action P) × Node P)
  | .connect p => some (none, { s with bs := s.bs.connect p })
  | .want c pr => some (none, { s with bs := s.bs.wantBlock c pr })
  | .cancel c => some (none, { s with bs := s.bs.cancelBlock c })
  | .established p => some (none, { s with bs := s.bs.established p })
  | .closed p => some (none, { s with bs := s.bs.closed p })
  | .received p m => (s.bs.received p m).map (fun b => (none, { s with bs := b }))
  | .queue p b => some (none, { s with bs := { s.bs with ready := s.bs.ready ++ [(p, b)] } })
  | .poll order =>
    let r := s.bs.poll order
    match r.1 with
    | some (.generate e) => (onEvent { s with bs := r.2 } e).map (fun n => (r.1, n))
    | a => some (a, { s with bs := r.2 })
  | .stored i r => some (none, s.storeDone i r)

/-- A run: the actions handed to the swarm, and the state. -/
def run (s : Node P) : List (Op P) → Option (List (Action P) × Node P)
  | [] => some ([], s)
  | o :: os =>
    match s.step o with
    | none => none
    | some (a, s') => (run s' os).map (fun r => (a.toList ++ r.1, r.2))

end Node

end Verif.Bitswap
