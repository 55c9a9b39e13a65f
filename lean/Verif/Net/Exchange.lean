import Verif.Bitswap.Behaviour
import Verif.Repo.Subs
import Verif.Repo.MemBlocks

/-!
# Nodes that exchange blocks

Model of what src/repo/mod.rs, src/lib.rs, src/p2p/behaviour.rs and the crate bitswap do together: any number of nodes,
each with its repo, the channel from the repo to the task of the node, the bitswap behaviour and the tasks it starts, and
the messages on their way, as the bytes that are written to the wire.

* What happens next is free. `get_block`, `put_block` and dropping the future of `get_block` are one step each, up to
  where they wait; what can happen in between is in `Verif.Repo.GetBlock` and `Verif.Repo.Subs`. A channel has its messages
  in the order in which they were sent: every send is by a new clone of the sender, which has a place of its own.
* Blocks are in the in-memory store, which does not fail. The registry of subscriptions is not shut down.
* Every message is sent in a substream of its own; they may overtake each other. A message arrives only while the peer
  is connected at the receiving side. Bytes that are not a message are dropped by the handler.
* The queries `want_block` makes to Kademlia, dialling, pins and statistics of other behaviours are left out.
-/

namespace Verif.Net

open Verif Verif.Repo Verif.Repo.Subs Verif.Bitswap

/-- `RepoEvent` (src/repo/mod.rs:338-351), those that lead to something. -/
inductive RepoEv where
  | want (c : Cid)
  | unwant (c : Cid)
  | new (c : Cid)
deriving DecidableEq, Repr

/-- A node. -/
structure Peer (P : Type) where
  store : MemBlocks
  reg : Reg Cid Block
  /-- `Repo::events` up to the task of the node -/
  chan : List RepoEv
  /-- the behaviour and the tasks that store blocks -/
  bits : Bitswap.Node P
  /-- the tasks that look for blocks others want -/
  lookups : List (P × Cid)

variable {P : Type} [DecidableEq P]

/-- A new node. -/
def Peer.init : Peer P := ⟨[], Reg.init, [], {}, []⟩

/-- `get_block` (src/repo/mod.rs:458-477) up to where it waits; `some` is the block that was there. -/
def Peer.get (x : Peer P) (c : Cid) : Option Block × Peer P :=
  match x.store.getBlock c with
  | some b => (some b, x)
  | none =>
    let reg := x.reg.create c true
    (none, { x with reg := (reg.insert x.reg.nextId).getD reg, chan := x.chan ++ [.want c] })

/-- `put_block` (src/repo/mod.rs:426-454); `none` is a panic. -/
def Peer.put (debug : Bool) (x : Peer P) (b : Block) : Option (BlockPut × Peer P) :=
  match x.store.put b with
  | (_, _, .existed) => some (.existed, x)
  | (store, _, .newBlock) =>
    match x.reg.finish debug b.cid b with
    | (_, .panic) => none
    | (reg, _) => some (.newBlock, { x with store := store, reg := reg, chan := x.chan ++ [.new b.cid] })

/-- The future of `get_block` is dropped (src/subscription.rs:396-423, 307-329): the message goes to the channel. -/
def Peer.drop (x : Peer P) (i : Nat) : Peer P :=
  match x.reg.dropLocked i with
  | none => x
  | some reg =>
    match reg.dropNotify i with
    | none => { x with reg := reg }
    | some reg' => { x with reg := reg', chan := x.chan ++ (reg'.unwants.drop reg.unwants.length).map .unwant }

/-- A step of the behaviour; `none` is a panic. -/
def Peer.bitswap (x : Peer P) (op : Bitswap.Op P) : Option (Option (Action P) × Peer P) :=
  (x.bits.step op).map (fun r => (r.1, { x with bits := r.2 }))

/-- The task of the node takes an event of the repo (src/lib.rs:1574-1596, src/p2p/behaviour.rs:533-537). -/
def Peer.event (x : Peer P) : Option (Peer P) :=
  match x.chan with
  | [] => some x
  | .want c :: es => ({ x with chan := es }.bitswap (.want c 1)).map Prod.snd
  | .unwant c :: es => ({ x with chan := es }.bitswap (.cancel c)).map Prod.snd
  | .new c :: es => ({ x with chan := es }.bitswap (.cancel c)).map Prod.snd

/-- The end of a task that looks for a block (src/p2p/behaviour.rs:359-374). -/
def Peer.look (x : Peer P) (k : Nat) : Option (Peer P) :=
  match x.lookups[k]? with
  | none => some x
  | some (p, c) =>
    let x := { x with lookups := x.lookups.eraseIdx k }
    match x.store.getBlock c with
    | none => some x
    | some b => (x.bitswap (.queue p b)).map Prod.snd

/-- A task that stores a block (src/p2p/behaviour.rs:328-349). -/
def Peer.save (debug : Bool) (x : Peer P) (k : Nat) : Option (Peer P) :=
  match x.bits.tasks[k]? with
  | none => some x
  | some (_, b) =>
    match x.put debug b with
    | none => none
    | some (r, x) => (x.bitswap (.stored k (some r))).map Prod.snd

/-- A frame on its way. -/
structure Parcel (P : Type) where
  sender : P
  receiver : P
  bytes : Bytes
deriving DecidableEq, Repr

/-- All nodes and what is on its way. -/
structure NetSt (P : Type) where
  node : P → Peer P
  flight : List (Parcel P)

/-- New nodes. -/
def NetSt.init : NetSt P := ⟨fun _ => Peer.init, []⟩

/-- A node changed. -/
def NetSt.upd (s : NetSt P) (x : P) (n : Peer P) : NetSt P := { s with node := fun y => if y = x then n else s.node y }

/-- What can happen. -/
inductive NetEv (P : Type) where
  | get (x : P) (c : Cid)
  | put (x : P) (b : Block)
  | remove (x : P) (c : Cid)
  /-- the future of a `get_block` is polled -/
  | await (x : P) (i : Nat)
  | drop (x : P) (i : Nat)
  | event (x : P)
  /-- the swarm polls the behaviour, which visits the peers in this order -/
  | swarm (x : P) (order : List P)
  | look (x : P) (k : Nat)
  | save (x : P) (k : Nat)
  | established (x y : P)
  | closed (x y : P)
  /-- a frame arrives -/
  | deliver (k : Nat)
  | lose (k : Nat)
  /-- any bytes arrive, from anybody -/
  | bytes (x y : P) (bs : Bytes)

/-- Bytes arrive at `x` from `y`; `none` is a panic. -/
def Peer.arrive (H : Hashes) (x : Peer P) (y : P) (bs : Bytes) : Option (Peer P) :=
  match Message.unframe H bs with
  | none => some x
  | some m => (x.bitswap (.received y m)).map Prod.snd

/-- What the swarm does with what it gets from the behaviour. -/
def NetSt.act (s : NetSt P) (x : P) (n : Peer P) : Option (Action P) → NetSt P
  | some (.notify y m) => { s.upd x n with flight := s.flight ++ [⟨x, y, m.frame⟩] }
  | some (.generate (.want y c _)) => s.upd x { n with lookups := n.lookups ++ [(y, c)] }
  | _ => s.upd x n

/-- One event; `none` is a panic. -/
def NetSt.step (H : Hashes) (debug : Bool) (s : NetSt P) : NetEv P → Option (NetSt P)
  | .get x c => some (s.upd x ((s.node x).get c).2)
  | .put x b => ((s.node x).put debug b).map (fun r => s.upd x r.2)
  | .remove x c => some (s.upd x { s.node x with store := ((s.node x).store.remove c).1 })
  | .await x i => some (s.upd x { s.node x with reg := (((s.node x).reg.poll i).map Prod.fst).getD (s.node x).reg })
  | .drop x i => some (s.upd x ((s.node x).drop i))
  | .event x => (s.node x).event.map (s.upd x)
  | .swarm x order => ((s.node x).bitswap (.poll order)).map (fun r => s.act x r.2 r.1)
  | .look x k => ((s.node x).look k).map (s.upd x)
  | .save x k => ((s.node x).save debug k).map (s.upd x)
  | .established x y => ((s.node x).bitswap (.established y)).map (fun r => s.upd x r.2)
  | .closed x y => ((s.node x).bitswap (.closed y)).map (fun r => s.upd x r.2)
  | .deliver k =>
    match s.flight[k]? with
    | none => some s
    | some f => ((s.node f.receiver).arrive H f.sender f.bytes).map
        (fun n => { s.upd f.receiver n with flight := s.flight.eraseIdx k })
  | .lose k => some { s with flight := s.flight.eraseIdx k }
  | .bytes x y bs => ((s.node x).arrive H y bs).map (s.upd x)

end Verif.Net
