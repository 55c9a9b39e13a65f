import Verif.Base.AMap
import Verif.Ipfs.Addr

/-!
# Listening addresses

Model of the part of `IpfsFuture` (src/lib.rs:1228-1355, 1398-1399, 1475-1495) that keeps track of the
addresses listened on.

* The swarm is the environment: `add` carries what `Swarm::listen_on` returned for the address (a
  `ListenerId`, or `none` for an error; only looked at when the code calls it), `bound` is
  `SwarmEvent::NewListenAddr` with the `listener_id` the code does not look at, `closed` is a listener that
  ended on its own. `alive` are the listeners of the swarm; `Swarm::remove_listener` returns whether the
  listener was there.
* The channels on which requests are answered are numbers; `sender.send` appends to the outputs.
* A `HashMap` is iterated over in the order given by the event (`order`).
* A panic ends the run with an error.
-/

namespace Verif.Ipfs

open Verif

/-- The value of `listening_addresses` (src/lib.rs:1233). -/
structure LEntry where
  id : Nat
  pending : Option Nat
deriving DecidableEq, Repr

structure ListenState where
  map : AMap Maddr LEntry
  alive : List Nat
deriving DecidableEq, Repr

def ListenState.init : ListenState := ⟨[], []⟩

inductive ListenPanic where
  /-- `unreachable!("More than one matching ...")` (src/lib.rs:1271-1278). -/
  | ambiguous
  /-- `assert_ne!(x, 0, "cannot have bound to port 0")` (src/p2p/addr.rs:206, 210). -/
  | boundToZero
deriving DecidableEq, Repr

inductive ListenEv where
  | add (addr : Maddr) (ret : Option Nat) (res : Option Nat)
  | bound (addr : Maddr) (by' : Nat) (order : AMap Maddr LEntry → AMap Maddr LEntry)
  | remove (addr : Maddr)
  | closed (id : Nat)

inductive ListenAns where
  | ok (addr : Maddr)
  | unspecifiedBusy
  | alreadyAdding
  | listenFailed
deriving DecidableEq, Repr

inductive ListenOut where
  | answer (ch : Nat) (a : ListenAns)
  | removed
  | removeFailed
  | removeUnknown
deriving DecidableEq, Repr

/-- `if let Some(sender) = ret { sender.send(a) }`. -/
def tell (ret : Option Nat) (a : ListenAns) : List ListenOut :=
  match ret with
  | some ch => [.answer ch a]
  | none => []

/-- `matching_keys.next()` (src/lib.rs:1247-1255): the next matching key and the keys after it. -/
def nextMatch (bound : Maddr) : List Maddr → Except ListenPanic (Option (Maddr × List Maddr))
  | [] => .ok none
  | k :: ks =>
    match couldBeBound 0 bound k with
    | none => .error .boundToZero
    | some true => .ok (some (k, ks))
    | some false => nextMatch bound ks

/-- The search for a request with an unspecified ip (src/lib.rs:1286-1299). -/
def nextUnspecified (bound : Maddr) : List (Maddr × LEntry) → Except ListenPanic (Option Maddr)
  | [] => .ok none
  | (k, e) :: ks =>
    if startsUnspecified k then
      match couldBeBound 1 bound k with
      | none => .error .boundToZero
      | some true => if e.pending.isSome then .ok (some k) else nextUnspecified bound ks
      | some false => nextUnspecified bound ks
    else nextUnspecified bound ks

/-- `listening_addresses.remove(&first)` and `insert(addr, (id, None))` (src/lib.rs:1261-1265, 1302-1306):
the new map and the sender. -/
def rebind (m : AMap Maddr LEntry) (first addr : Maddr) : AMap Maddr LEntry × Option Nat :=
  match AMap.get m first with
  | some e => (AMap.set (AMap.erase m first) addr ⟨e.id, none⟩, e.pending)
  | none => (m, none)

/-- `complete_listening_address_adding` (src/lib.rs:1240-1319). -/
def complete (m : AMap Maddr LEntry) (addr : Maddr) (order : AMap Maddr LEntry → AMap Maddr LEntry) :
    Except ListenPanic (AMap Maddr LEntry × Option Nat) :=
  match AMap.get m addr with
  | some e => .ok (AMap.set m addr ⟨e.id, none⟩, e.pending)
  | none =>
    match nextMatch addr (AMap.keys (order m)) with
    | .error p => .error p
    | .ok (some (first, rest)) =>
      match nextMatch addr rest with
      | .error p => .error p
      | .ok (some _) => .error .ambiguous
      | .ok none => .ok (rebind m first addr)
    | .ok none =>
      match nextUnspecified addr (order m) with
      | .error p => .error p
      | .ok (some first) => .ok (rebind m first addr)
      | .ok none => .ok (m, none)

/-- `start_add_listener_address` (src/lib.rs:1321-1354). -/
def startAdd (s : ListenState) (addr : Maddr) (ret res : Option Nat) : ListenState × List ListenOut :=
  if startsUnspecified addr && decide ((s.map.filter (fun e => e.2.pending.isSome)).length > 0) then
    (s, tell ret .unspecifiedBusy)
  else
    match AMap.get s.map addr with
    | some _ => (s, tell ret .alreadyAdding)
    | none =>
      match res with
      | some id => (⟨AMap.set s.map addr ⟨id, ret⟩, id :: s.alive⟩, [])
      | none => (s, tell ret .listenFailed)

/-- One event. -/
def ListenState.step (s : ListenState) : ListenEv → Except ListenPanic (ListenState × List ListenOut)
  | .add addr ret res => .ok (startAdd s addr ret res)
  | .bound addr _ order =>
    match complete s.map addr order with
    | .error p => .error p
    | .ok (m, ret) => .ok ({ s with map := m }, tell ret (.ok addr))
  | .remove addr =>
    match AMap.get s.map addr with
    | some e =>
      .ok (⟨AMap.erase s.map addr, s.alive.filter (fun i => decide (i ≠ e.id))⟩,
        [if e.id ∈ s.alive then .removed else .removeFailed])
    | none => .ok (s, [.removeUnknown])
  | .closed id => .ok ({ s with alive := s.alive.filter (fun i => decide (i ≠ id)) }, [])

/-- A history from a state. -/
def ListenState.run (s : ListenState) : List ListenEv → Except ListenPanic (ListenState × List ListenOut)
  | [] => .ok (s, [])
  | e :: es =>
    match s.step e with
    | .error p => .error p
    | .ok (s', o) =>
      match ListenState.run s' es with
      | .error p => .error p
      | .ok (s'', o') => .ok (s'', o ++ o')

end Verif.Ipfs
