import Verif.Ipfs.Addr

/-!
# The bootstrappers of a node

Model of the bootstrap list in src/p2p/behaviour.rs.

* The list is a `HashSet` (src/p2p/swarm.rs:64), here a list without duplicates. The order in which it is
  iterated is not defined; it is the parameter `order` of `list` and `clear`.
* The routing table of Kademlia is the library's: a state `K` with `add_address` and `remove_address`, of whose
  result the code only uses whether there is one. `told` records the calls that were made, the last one first; it
  is not in the code.
* The nodes of `BOOTSTRAP_NODES` (src/config.rs:6-7) are the parameter `defaults`, already parsed: that they parse
  is a test of the code.
-/

namespace Verif.Net

open Verif Verif.Ipfs

/-- The routing table of Kademlia. -/
structure Routing (K : Type) where
  /-- `Kademlia::add_address` -/
  add : K → PeerId → Maddr → K
  /-- `Kademlia::remove_address`, and whether it is `Some` -/
  remove : K → PeerId → Maddr → K × Bool

/-- A call of the routing table. -/
inductive KadTell where
  | learn (p : PeerId) (a : Maddr)
  | forget (p : PeerId) (a : Maddr)
deriving DecidableEq, Repr

/-- The parts of `Behaviour` that matter here. -/
structure BootSt (K : Type) where
  boots : List AddrPeer
  kad : K
  told : List KadTell

variable {K : Type}

/-- `kademlia.add_address(&peer_id, ma)`. -/
def BootSt.learn (R : Routing K) (s : BootSt K) (p : PeerId) (a : Maddr) : BootSt K :=
  { s with kad := R.add s.kad p a, told := .learn p a :: s.told }

/-- `kademlia.remove_address(&peer_id, &prefix)`. -/
def BootSt.forget (R : Routing K) (s : BootSt K) (p : PeerId) (a : Maddr) : BootSt K × Bool :=
  ({ s with kad := (R.remove s.kad p a).1, told := .forget p a :: s.told }, (R.remove s.kad p a).2)

/-- The first loop of `Behaviour::new` (src/p2p/behaviour.rs:460-462). -/
def BootSt.learnAll (R : Routing K) (s : BootSt K) : List (Maddr × PeerId) → BootSt K
  | [] => s
  | (a, p) :: l => (s.learn R p a).learnAll R l

/-- The second loop (src/p2p/behaviour.rs:473-477): what does not parse is left out; `none` if an assertion of a
debug build fails. -/
def BootSt.insertAll (debug : Bool) (s : BootSt K) : List (Maddr × PeerId) → Option (BootSt K)
  | [] => some s
  | (a, _) :: l =>
    match AddrPeer.ofAddr debug a with
    | .ok x => BootSt.insertAll debug { s with boots := if x ∈ s.boots then s.boots else x :: s.boots } l
    | .error .debugAssert => none
    | .error _ => s.insertAll debug l

/-- `Behaviour::new` (src/p2p/behaviour.rs:438-489) with `options.bootstrap`. -/
def BootSt.new (debug : Bool) (R : Routing K) (kad : K) (options : List (Maddr × PeerId)) : Option (BootSt K) :=
  ((⟨[], kad, []⟩ : BootSt K).learnAll R options).insertAll debug options

/-- `get_bootstrappers` (src/p2p/behaviour.rs:621-628). -/
def BootSt.list (order : List AddrPeer → List AddrPeer) (s : BootSt K) : List Maddr :=
  (order s.boots).map AddrPeer.toAddr

/-- `add_bootstrapper` (src/p2p/behaviour.rs:630-645). -/
def BootSt.add (R : Routing K) (s : BootSt K) (a : AddrPeer) : BootSt K × Maddr :=
  if a ∈ s.boots then (s, a.toAddr)
  else (({ s with boots := a :: s.boots } : BootSt K).learn R a.peer a.multiaddr.addr, a.toAddr)

/-- `remove_bootstrapper` (src/p2p/behaviour.rs:647-663). -/
def BootSt.remove (R : Routing K) (s : BootSt K) (a : AddrPeer) : BootSt K × Maddr :=
  if a ∈ s.boots then
    ((({ s with boots := s.boots.filter (fun b => b ≠ a) } : BootSt K).forget R a.peer a.multiaddr.addr).1, a.toAddr)
  else (s, a.toAddr)

/-- The loop of `clear_bootstrappers` (src/p2p/behaviour.rs:669-679). -/
def BootSt.forgetAll (R : Routing K) (s : BootSt K) : List AddrPeer → BootSt K × List Maddr
  | [] => (s, [])
  | a :: l =>
    match s.forget R a.peer a.multiaddr.addr with
    | (s1, known) =>
      match s1.forgetAll R l with
      | (s2, ret) => (s2, if known then a.toAddr :: ret else ret)

/-- `clear_bootstrappers` (src/p2p/behaviour.rs:665-682). -/
def BootSt.clear (R : Routing K) (order : List AddrPeer → List AddrPeer) (s : BootSt K) : BootSt K × List Maddr :=
  ({ s with boots := [] } : BootSt K).forgetAll R (order s.boots)

/-- `restore_bootstrappers` (src/p2p/behaviour.rs:684-713). -/
def BootSt.restore (R : Routing K) (s : BootSt K) : List AddrPeer → BootSt K × List Maddr
  | [] => (s, [])
  | a :: l =>
    if a ∈ s.boots then s.restore R l
    else
      match (({ s with boots := a :: s.boots } : BootSt K).learn R a.peer a.multiaddr.addr).restore R l with
      | (s2, ret) => (s2, a.toAddr :: ret)

/-- The events of src/lib.rs:1546-1565 that change the list. -/
inductive BootOp where
  | add (a : AddrPeer)
  | remove (a : AddrPeer)
  | clear
  | restore
deriving DecidableEq, Repr

/-- One of them, and its answer. -/
def BootSt.op (R : Routing K) (order : List AddrPeer → List AddrPeer) (defaults : List AddrPeer) (s : BootSt K) :
    BootOp → BootSt K × List Maddr
  | .add a => let (s, r) := s.add R a; (s, [r])
  | .remove a => let (s, r) := s.remove R a; (s, [r])
  | .clear => s.clear R order
  | .restore => s.restore R defaults

/-- All of a history; the order of every iteration may be another one. -/
def BootSt.run (R : Routing K) (defaults : List AddrPeer) (s : BootSt K) :
    List (BootOp × (List AddrPeer → List AddrPeer)) → BootSt K
  | [] => s
  | (o, order) :: l => ((s.op R order defaults o).1).run R defaults l

end Verif.Net
