import Verif.Net.Swarm

/-!
# Dialing

`SwarmApi` (`Verif.Net.Swarm`) together with the part of libp2p's swarm that dials on its behalf. That part
is not in the repository; the model follows libp2p 0.43:

* a request to dial a peer is refused if a dial of the peer is running (`PeerCondition::NotDialing`,
  src/p2p/swarm.rs:123-125), by a failure of another kind than the two the code handles;
* otherwise the addresses are those of all behaviours; without any there is again such a failure;
* a dial that runs ends by a connection at one of its addresses or by one failure; a `Transport` failure
  lists all its addresses.

Asking for the known addresses (`addrs`) is here too, since it asks the same method for addresses as a dial does.
-/

namespace Verif.Net

open Verif Verif.Ipfs Verif.Repo.Subs

/-- `addrs` (src/p2p/behaviour.rs:509-517), for the peers in this order. `addresses_of_peer` is the one that is derived
for the whole behaviour: it asks all behaviours in the order of the fields, `SwarmApi` last; `other` are the addresses
of those before. -/
def SwarmSt.addrs (other : PeerId → List Maddr) (s : SwarmSt) : List PeerId → SwarmSt × List (PeerId × List Maddr)
  | [] => (s, [])
  | p :: l =>
    let (s1, own) := s.addressesOf p
    let (s2, rest) := SwarmSt.addrs other s1 l
    (s2, (p, other p ++ own) :: rest)

/-- The time of a connection in milliseconds (src/p2p/swarm.rs:84-88); `elapsed` is the time since connecting. -/
def Rtt.millis (elapsed : Nat) : Rtt → Option Nat
  | .measured t => some t
  | .sinceConnecting => some elapsed
  | .none => Option.none

/-- `connections` (src/p2p/swarm.rs:80-95) with the times; what `Ipfs::peers` answers (src/lib.rs:1414-1417). -/
def SwarmSt.peersTold (elapsed : PeerId → Nat) (s : SwarmSt) : List (AddrPeer × Option Nat) :=
  s.reported.map (fun x => (x.1, x.2.millis (elapsed x.1.peer)))

/-- The behaviour and the dials that run, with their addresses. -/
structure World where
  st : SwarmSt
  running : AMap PeerId (List Maddr)

def World.init : World := ⟨SwarmSt.init, []⟩

inductive WorldEv where
  | connect (a : AddrPeer)
  | pollFut (i : Nat)
  | dropFut (i : Nat)
  | dropDone (i : Nat)
  /-- the swarm takes a request to dial from the behaviour; other behaviours know the addresses `more` -/
  | dial (more : List Maddr)
  /-- another behaviour has a peer dialed -/
  | dialToo (p : PeerId) (more : List Maddr)
  | dialed (p : PeerId) (conn : Nat) (a : Maddr)
  | accepted (p : PeerId) (conn : Nat) (a : Maddr)
  | closed (p : PeerId) (conn : Nat) (ep : Endpoint)
  | failed (p : PeerId) (err : DialErr)
  /-- the known addresses are asked for; the order in which the set of peers is iterated -/
  | asked (order : List PeerId)
  /-- `Behaviour::add_peer` (src/p2p/behaviour.rs:492-501) -/
  | learned (p : PeerId)
  /-- a ping was not answered in time (src/p2p/behaviour.rs:401-407, 503-507) -/
  | timedOut (p : PeerId)
deriving DecidableEq, Repr

/-- `Swarm::dial` of libp2p. -/
def World.startDial (debug : Bool) (w : World) (p : PeerId) (more : List Maddr) : Except SwarmPanic World :=
  match AMap.get w.running p with
  | some _ => (w.st.dialFailure debug (some p) .other).map (fun s => ⟨s, w.running⟩)
  | none =>
    let (s, own) := w.st.addressesOf p
    if (own ++ more).isEmpty then (s.dialFailure debug (some p) .other).map (fun s => ⟨s, w.running⟩)
    else .ok ⟨s, AMap.set w.running p (own ++ more)⟩

/-- A failure tells of all addresses tried. -/
def coversTried (tried : List Maddr) : DialErr → Bool
  | .transport l => tried.all (fun a => decide (a ∈ l.map Prod.fst))
  | _ => true

/-- One event; `none` if it cannot happen. -/
def World.step (debug : Bool) (w : World) : WorldEv → Option (Except SwarmPanic World)
  | .connect a => some (.ok ⟨(w.st.connect a).1, w.running⟩)
  | .pollFut i => some ((w.st.step debug (.pollFut i)).map (fun s => ⟨s, w.running⟩))
  | .dropFut i => some ((w.st.step debug (.dropFut i)).map (fun s => ⟨s, w.running⟩))
  | .dropDone i => some ((w.st.step debug (.dropDone i)).map (fun s => ⟨s, w.running⟩))
  | .dial more =>
    match w.st.events with
    | [] => none
    | p :: rest => some (World.startDial debug ⟨{ w.st with events := rest }, w.running⟩ p more)
  | .dialToo p more => some (w.startDial debug p more)
  | .dialed p _ a =>
    match AMap.get w.running p with
    | none => none
    | some tried =>
      if a ∈ tried then
        some ((w.st.established debug p (.dialer a)).map (fun s => ⟨s, AMap.erase w.running p⟩))
      else none
  | .accepted p _ a => some ((w.st.established debug p (.listener a)).map (fun s => ⟨s, w.running⟩))
  | .closed p _ ep => some ((w.st.closed debug p ep).map (fun s => ⟨s, w.running⟩))
  | .failed p err =>
    match AMap.get w.running p with
    | none => none
    | some tried =>
      if coversTried tried err then
        some ((w.st.dialFailure debug (some p) err).map (fun s => ⟨s, AMap.erase w.running p⟩))
      else none
  | .asked order => if order.isPerm w.st.peers then some (.ok ⟨(w.st.addrs (fun _ => []) order).1, w.running⟩) else none
  | .learned p => some ((w.st.step debug (.addPeer p)).map (fun s => ⟨s, w.running⟩))
  | .timedOut p => some ((w.st.step debug (.removePeer p)).map (fun s => ⟨s, w.running⟩))

end Verif.Net
