import Verif.Base.AMap
import Verif.Ipfs.Addr
import Verif.Repo.Subs

/-!
# Connections and requests to connect

Model of `SwarmApi` (src/p2p/swarm.rs), the behaviour that keeps track of connections and completes the
futures of `connect`, on top of the registry of subscriptions (`Verif.Repo.Subs`).

* The swarm of libp2p is the environment: it calls the methods of the behaviour in any order, with any
  arguments. How it dials is added in `Verif.Net.Dial`.
* `create_subscription` runs as a whole: other threads only poll and drop other futures of the registry,
  and only dropping the whole `SwarmApi` shuts the registry down.
* Of the times only the presence is kept (`times`), as `connected_times` is only looked at when there is no
  roundtrip time.
* The texts of errors are data; the order of a `Vec` is kept, `swap_remove` included.
* A panic ends the run. `debug` tells debug builds, where `debug_assert!` and the check of
  `finish_subscription` are active.
-/

namespace Verif.Net

open Verif Verif.Ipfs Verif.Repo.Subs

/-- `Result<(), String>`. -/
abbrev ConnRes := Except Bytes Unit

structure SwarmSt where
  peers : List PeerId
  reg : Reg AddrPeer ConnRes
  connections : AMap AddrOnly PeerId
  rtt : AMap PeerId Nat
  connected : AMap PeerId (List AddrOnly)
  times : List PeerId
  pendAddrs : AMap PeerId (List AddrPeer)
  pendConns : AMap PeerId (List AddrPeer)
  /-- the peers to dial, `events` -/
  events : List PeerId

/-- `SwarmApi::default()`. -/
def SwarmSt.init : SwarmSt := ⟨[], Reg.init, [], [], [], [], [], [], []⟩

inductive SwarmPanic where
  /-- `expect("dialed address contains peerid in libp2p 0.38")` -/
  | dialedAddr
  /-- `expect("send back address does not contain peerid in libp2p 0.38")` -/
  | sendBackAddr
  /-- `expect("to recieve an MultiAddrWithPeerId from DialError")` -/
  | failedAddr
  /-- `debug_assert!(removed.is_some(), "connection was not tracked ...")` -/
  | notTracked
  /-- `panic!("no subscriptions to be awoken! ...")` of `finish_subscription` -/
  | nothingAwoken
deriving DecidableEq, Repr

/-- `ConnectedPoint`. -/
inductive Endpoint where
  | dialer (address : Maddr)
  | listener (sendBack : Maddr)
deriving DecidableEq, Repr

/-- `DialError` as far as it is told apart (src/p2p/swarm.rs:353-384). -/
inductive DialErr where
  | transport (addrs : List (Maddr × Bytes))
  | wrongPeer (text : Bytes)
  | other
deriving DecidableEq, Repr

/-- `HashSet::insert`. -/
def insertSet {α : Type} [DecidableEq α] (l : List α) (a : α) : List α := if a ∈ l then l else l ++ [a]

/-- `iter().position(|x| *x == a)` and `swap_remove` of it: the last element takes its place. -/
def swapRemove {α : Type} [DecidableEq α] : List α → α → List α
  | [], _ => []
  | x :: l, a =>
    if x = a then
      match l.getLast? with
      | none => []
      | some z => z :: l.dropLast
    else x :: swapRemove l a

/-- `if v.is_empty() { oe.remove() }` after a change of the vector of an occupied entry. -/
def putVec {κ α : Type} [DecidableEq κ] (m : AMap κ (List α)) (k : κ) (v : List α) : AMap κ (List α) :=
  if v.isEmpty then AMap.erase m k else AMap.set m k v

/-- `connection_point_addr` (src/p2p/swarm.rs:411-424). -/
def pointAddr (debug : Bool) : Endpoint → Except SwarmPanic AddrOnly
  | .dialer a =>
    match AddrPeer.ofAddr debug a with
    | .ok x => .ok x.only
    | .error _ => .error .dialedAddr
  | .listener a =>
    match AddrOnly.ofAddr a with
    | .ok x => .ok x
    | .error _ => .error .sendBackAddr

/-- `connect_registry.finish_subscription`. -/
def finishOne (debug : Bool) (reg : Reg AddrPeer ConnRes) (k : AddrPeer) (r : ConnRes) :
    Except SwarmPanic (Reg AddrPeer ConnRes) :=
  match reg.finish debug k r with
  | (_, .panic) => .error .nothingAwoken
  | (reg', _) => .ok reg'

/-- One after the other. -/
def finishAll (debug : Bool) (reg : Reg AddrPeer ConnRes) : List (AddrPeer × ConnRes) →
    Except SwarmPanic (Reg AddrPeer ConnRes)
  | [] => .ok reg
  | (k, r) :: l =>
    match finishOne debug reg k r with
    | .error p => .error p
    | .ok reg' => finishAll debug reg' l

/-- "finished connecting to another address" and "Connection reset by peer". -/
def sAnother : Bytes := [102, 105, 110, 105, 115, 104, 101, 100, 32, 99, 111, 110, 110, 101, 99, 116, 105, 110,
  103, 32, 116, 111, 32, 97, 110, 111, 116, 104, 101, 114, 32, 97, 100, 100, 114, 101, 115, 115]
def sReset : Bytes := [67, 111, 110, 110, 101, 99, 116, 105, 111, 110, 32, 114, 101, 115, 101, 116, 32, 98, 121,
  32, 112, 101, 101, 114]

/-- What is reported of a connection (src/p2p/swarm.rs:17-22): with the latest roundtrip time, or that it is
the time since connecting, or nothing. -/
inductive Rtt where
  | measured (t : Nat)
  | sinceConnecting
  | none
deriving DecidableEq, Repr

/-- `connections` (src/p2p/swarm.rs:80-95). -/
def SwarmSt.reported (s : SwarmSt) : List (AddrPeer × Rtt) :=
  s.connected.filterMap (fun e =>
    e.2.head?.map (fun a => (⟨a, e.1⟩,
      match AMap.get s.rtt e.1 with
      | some t => .measured t
      | .none => if e.1 ∈ s.times then .sinceConnecting else .none)))

/-- `connections_to` (src/p2p/swarm.rs:149-155). -/
def SwarmSt.connectionsTo (s : SwarmSt) (p : PeerId) : List Maddr :=
  ((AMap.get s.connected p).getD []).map AddrOnly.addr

/-- `connect` (src/p2p/swarm.rs:102-138): the number of the future. -/
def SwarmSt.connect (s : SwarmSt) (a : AddrPeer) : SwarmSt × Option Nat :=
  if a.multiaddr ∈ (AMap.get s.connected a.peer).getD [] then (s, none)
  else
    let i := s.reg.nextId
    let reg := (s.reg.create a false)
    ({ s with
        reg := (reg.insert i).getD reg
        events := s.events ++ [a.peer]
        times := insertSet s.times a.peer
        pendAddrs := AMap.set s.pendAddrs a.peer ((AMap.get s.pendAddrs a.peer).getD [] ++ [a]) }, some i)

/-- `disconnect` (src/p2p/swarm.rs:140-147): the peer that is banned and unbanned. -/
def SwarmSt.disconnect (s : SwarmSt) (a : AddrPeer) : Option PeerId := AMap.get s.connections a.multiaddr

/-- `addresses_of_peer` (src/p2p/swarm.rs:166-179). -/
def SwarmSt.addressesOf (s : SwarmSt) (p : PeerId) : SwarmSt × List Maddr :=
  let addresses := (AMap.get s.pendAddrs p).getD []
  ({ s with
      pendAddrs := AMap.erase s.pendAddrs p
      pendConns := AMap.set s.pendConns p ((AMap.get s.pendConns p).getD [] ++ addresses) },
    addresses.map AddrPeer.toAddr)

/-- The dialed address is taken from the given out ones (src/p2p/swarm.rs:206-235). -/
def SwarmSt.justConnected (debug : Bool) (s : SwarmSt) (p : PeerId) : Endpoint → Except SwarmPanic SwarmSt
  | .listener _ => .ok s
  | .dialer a =>
    match AMap.get s.pendConns p with
    | none => .ok s
    | some addresses =>
      match AddrPeer.ofAddr debug a with
      | .error _ => .error .dialedAddr
      | .ok k =>
        if k ∈ addresses then
          match finishOne debug s.reg k (.ok ()) with
          | .error x => .error x
          | .ok reg => .ok { s with reg := reg, pendConns := putVec s.pendConns p (swapRemove addresses k) }
        else .ok s

/-- `inject_connection_established` (src/p2p/swarm.rs:181-264). -/
def SwarmSt.established (debug : Bool) (s : SwarmSt) (p : PeerId) (ep : Endpoint) : Except SwarmPanic SwarmSt :=
  match pointAddr debug ep with
  | .error x => .error x
  | .ok addr =>
    let s1 := { s with
      peers := insertSet s.peers p
      connected := AMap.set s.connected p ((AMap.get s.connected p).getD [] ++ [addr])
      connections := AMap.set s.connections addr p }
    match s1.justConnected debug p ep with
    | .error x => .error x
    | .ok s2 =>
      let all := (AMap.get s2.pendAddrs p).getD [] ++ (AMap.get s2.pendConns p).getD []
      match finishAll debug s2.reg (all.map (fun a => (a, .error sAnother))) with
      | .error x => .error x
      | .ok reg =>
        .ok { s2 with
          reg := reg
          pendAddrs := AMap.erase s2.pendAddrs p
          pendConns := AMap.erase s2.pendConns p }

/-- The pending request of a closed connection that was dialed (src/p2p/swarm.rs:304-334). -/
def SwarmSt.justClosed (debug : Bool) (s : SwarmSt) (p : PeerId) (addr : AddrOnly) :
    Endpoint → Except SwarmPanic SwarmSt
  | .listener _ => .ok s
  | .dialer _ =>
    match AMap.get s.pendConns p with
    | none => .ok s
    | some conns =>
      if ⟨addr, p⟩ ∈ conns then
        match finishOne debug s.reg ⟨addr, p⟩ (.error sReset) with
        | .error x => .error x
        | .ok reg =>
          .ok { s with reg := reg, pendConns := putVec s.pendConns p (swapRemove conns ⟨addr, p⟩) }
      else .ok { s with pendConns := putVec s.pendConns p conns }

/-- `inject_connection_closed` (src/p2p/swarm.rs:266-335). -/
def SwarmSt.closed (debug : Bool) (s : SwarmSt) (p : PeerId) (ep : Endpoint) : Except SwarmPanic SwarmSt :=
  match pointAddr debug ep with
  | .error x => .error x
  | .ok addr =>
    let connected :=
      match AMap.get s.connected p with
      | none => s.connected
      | some conns => putVec s.connected p (swapRemove conns addr)
    if debug && (AMap.get s.connections addr).isNone then .error .notTracked
    else
      { s with
        connected := connected
        connections := AMap.erase s.connections addr
        times := s.times.filter (fun q => decide (q ≠ p)) }.justClosed debug p addr ep

/-- The addresses of a transport error (src/p2p/swarm.rs:355-366). -/
def transportFailures (debug : Bool) (reg : Reg AddrPeer ConnRes) (addresses : List AddrPeer) :
    List (Maddr × Bytes) → Except SwarmPanic (Reg AddrPeer ConnRes × List AddrPeer)
  | [] => .ok (reg, addresses)
  | (a, text) :: l =>
    match AddrPeer.ofAddr debug a with
    | .error _ => .error .failedAddr
    | .ok k =>
      match finishOne debug reg k (.error text) with
      | .error x => .error x
      | .ok reg' => transportFailures debug reg' (swapRemove addresses k) l

/-- `inject_dial_failure` (src/p2p/swarm.rs:339-396). -/
def SwarmSt.dialFailure (debug : Bool) (s : SwarmSt) (peer : Option PeerId) (err : DialErr) :
    Except SwarmPanic SwarmSt :=
  match peer with
  | none => .ok s
  | some p =>
    match AMap.get s.pendConns p with
    | none => .ok s
    | some addresses =>
      match err with
      | .transport l =>
        match transportFailures debug s.reg addresses l with
        | .error x => .error x
        | .ok (reg, rest) => .ok { s with reg := reg, pendConns := putVec s.pendConns p rest }
      | .wrongPeer text =>
        match finishAll debug s.reg (addresses.map (fun a => (a, .error text))) with
        | .error x => .error x
        | .ok reg => .ok { s with reg := reg, pendConns := putVec s.pendConns p [] }
      | .other => .ok { s with pendConns := putVec s.pendConns p addresses }

/-- What can happen: calls through the api, polls and drops of futures, calls by the swarm. -/
inductive SwarmEv where
  | addPeer (p : PeerId)
  | removePeer (p : PeerId)
  | setRtt (p : PeerId) (t : Nat)
  | connect (a : AddrPeer)
  | pollFut (i : Nat)
  | dropFut (i : Nat)
  | dropDone (i : Nat)
  | addressesOf (p : PeerId)
  | established (p : PeerId) (conn : Nat) (ep : Endpoint)
  | closed (p : PeerId) (conn : Nat) (ep : Endpoint)
  | dialFailure (peer : Option PeerId) (err : DialErr)
  | poll
deriving DecidableEq, Repr

/-- One event. Futures that do not exist cannot be polled or dropped; such an event changes nothing. -/
def SwarmSt.step (debug : Bool) (s : SwarmSt) : SwarmEv → Except SwarmPanic SwarmSt
  | .addPeer p => .ok { s with peers := insertSet s.peers p }
  | .removePeer p => .ok { s with peers := s.peers.filter (fun q => decide (q ≠ p)) }
  | .setRtt p t => .ok { s with rtt := AMap.set s.rtt p t }
  | .connect a => .ok (s.connect a).1
  | .pollFut i => .ok { s with reg := ((s.reg.poll i).map Prod.fst).getD s.reg }
  | .dropFut i => .ok { s with reg := (s.reg.dropLocked i).getD s.reg }
  | .dropDone i => .ok { s with reg := (s.reg.dropNotify i).getD s.reg }
  | .addressesOf p => .ok (s.addressesOf p).1
  | .established p _ ep => s.established debug p ep
  | .closed p _ ep => s.closed debug p ep
  | .dialFailure peer err => s.dialFailure debug peer err
  | .poll => .ok { s with events := s.events.tail }

/-- A history. -/
def SwarmSt.run (debug : Bool) (s : SwarmSt) : List SwarmEv → Except SwarmPanic SwarmSt
  | [] => .ok s
  | e :: es =>
    match s.step debug e with
    | .error p => .error p
    | .ok s' => SwarmSt.run debug s' es

end Verif.Net
