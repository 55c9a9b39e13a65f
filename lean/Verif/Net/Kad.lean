import Verif.Net.Swarm

/-!
# Queries of the DHT

Model of what src/p2p/behaviour.rs and src/lib.rs do with the queries of `libp2p::kad::Kademlia`: the futures of the
requests, the events that complete them, and what callers are told.

* `Kademlia` is the environment. It numbers its queries without repetition, never wrapping around, and reports about
  each of them with `OutboundQueryCompleted` of the kind the query is of. After the last report `Kademlia::query` has the
  query no more; only queries to bootstrap have reports before the last one. Queries that nobody asked for are those of
  `want_block` and the republishing of records and providers.
* Other events of `Kademlia` are only logged.
* `create_subscription` runs as a whole, as in `Verif.Net.Swarm`; the registry of the behaviour is not shut down.
* A key of a record is a byte string, a record its key and value. How many answers are required (`Quorum`) is a number.
-/

namespace Verif.Net

open Verif Verif.Ipfs Verif.Repo.Subs

/-- A record (`libp2p::kad::record::Record`), as far as it is used. -/
structure KadRecord where
  key : Bytes
  value : Bytes
deriving DecidableEq, Repr

/-- What a query was started for. -/
inductive KadQuery where
  | bootstrap
  | closest (p : PeerId)
  | providers (key : Bytes)
  | provide (key : Bytes)
  | get (key : Bytes) (quorum : Nat)
  | put (record : KadRecord) (quorum : Nat)
  | republishProvider (key : Bytes)
  | republishRecord (key : Bytes)
deriving DecidableEq, Repr

/-- `QueryResult` of libp2p-kad, with the fields that are used. -/
inductive QueryResult where
  | bootstrapOk
  | bootstrapTimeout
  | closestOk (peers : List PeerId)
  | closestTimeout
  | providersOk (peers : List PeerId)
  | providersTimeout
  | provideOk
  | provideTimeout
  | republishProviderOk
  | republishProviderTimeout
  | getOk (records : List (Option PeerId × KadRecord))
  | getNotFound
  | getQuorum
  | getTimeout
  | putOk
  | putQuorum
  | putTimeout
  | republishOk
  | republishQuorum
  | republishTimeout
deriving DecidableEq, Repr

/-- `KadResult` (src/p2p/behaviour.rs:42-50). -/
inductive KadResult where
  | complete
  | peers (l : List PeerId)
  | records (l : List KadRecord)
deriving DecidableEq, Repr

/-- `Result<KadResult, String>`. -/
inductive KadRes where
  | ok (r : KadResult)
  | err (message : Bytes)
deriving DecidableEq, Repr

/-- The registry of futures, and the queries `Kademlia` has. -/
structure KadSt where
  reg : Reg Nat KadRes
  queries : AMap Nat KadQuery
  nextQuery : Nat

def KadSt.init : KadSt := ⟨Reg.init, [], 0⟩

/-- The results that are of the kind of a query. -/
def KadQuery.gives : KadQuery → QueryResult → Bool
  | .bootstrap, .bootstrapOk | .bootstrap, .bootstrapTimeout => true
  | .closest _, .closestOk _ | .closest _, .closestTimeout => true
  | .providers _, .providersOk _ | .providers _, .providersTimeout => true
  | .provide _, .provideOk | .provide _, .provideTimeout => true
  | .get .., .getOk _ | .get .., .getNotFound | .get .., .getQuorum | .get .., .getTimeout => true
  | .put .., .putOk | .put .., .putQuorum | .put .., .putTimeout => true
  | .republishProvider _, .republishProviderOk | .republishProvider _, .republishProviderTimeout => true
  | .republishRecord _, .republishOk | .republishRecord _, .republishQuorum | .republishRecord _, .republishTimeout => true
  | _, _ => false

/-- The first `match` of `inject_event` (src/p2p/behaviour.rs:94-106): those that return `KadResult::Complete`. -/
def completesPlainly : QueryResult → Bool
  | .closestOk _ | .closestTimeout | .providersOk _ | .providersTimeout => false
  | .getOk _ | .getNotFound | .getQuorum | .getTimeout => false
  | .bootstrapTimeout | .provideTimeout => false
  | .putQuorum | .putTimeout => false
  | _ => true

/-- The texts of errors. -/
def tBootstrap : Bytes := "kad: timed out while trying to bootstrap".toUTF8.toList
def tProviders : Bytes := "timed out while trying to get providers for the given key".toUTF8.toList
def tProvide : Bytes := "kad: timed out while trying to provide the record".toUTF8.toList
def tNotFound : Bytes := "couldn't find a record for the given key".toUTF8.toList
def tGetQuorum : Bytes := "quorum failed when trying to obtain a record for the given key".toUTF8.toList
def tGet : Bytes := "timed out while trying to get a record for the given key".toUTF8.toList
def tPutQuorum : Bytes := "kad: quorum failed when trying to put the record".toUTF8.toList
def tPut : Bytes := "kad: timed out while trying to put the record".toUTF8.toList

/-- The second `match` (src/p2p/behaviour.rs:108-300): what the subscription is finished with. -/
def completesWith : QueryResult → Option KadRes
  | .bootstrapOk => none
  | .bootstrapTimeout => some (.err tBootstrap)
  | .closestOk peers => some (.ok (.peers peers))
  | .closestTimeout => some (.err tProviders)
  | .providersOk peers => some (.ok (.peers peers))
  | .providersTimeout => some (.err tProviders)
  | .provideOk => none
  | .provideTimeout => some (.err tProvide)
  | .republishProviderOk => none
  | .republishProviderTimeout => none
  | .getOk records => some (.ok (.records (records.map Prod.snd)))
  | .getNotFound => some (.err tNotFound)
  | .getQuorum => some (.err tGetQuorum)
  | .getTimeout => some (.err tGet)
  | .putOk => none
  | .putQuorum => some (.err tPutQuorum)
  | .putTimeout => some (.err tPut)
  | .republishOk => none
  | .republishQuorum => some (.err tPutQuorum)
  | .republishTimeout => none

/-- `finish_subscription`; `none` if it panics. -/
def kadFinish (debug : Bool) (reg : Reg Nat KadRes) (id : Nat) (r : KadRes) : Option (Reg Nat KadRes) :=
  match reg.finish debug id r with
  | (_, .panic) => none
  | (reg, _) => some reg

/-- The second part of `inject_event`. -/
def kadSecond (debug : Bool) (reg : Reg Nat KadRes) (id : Nat) (result : QueryResult) : Option (Reg Nat KadRes) :=
  match completesWith result with
  | none => some reg
  | some r => kadFinish debug reg id r

/-- `inject_event` for `OutboundQueryCompleted` (src/p2p/behaviour.rs:92-301); `none` if it panics. -/
def KadSt.completed (debug : Bool) (s : KadSt) (id : Nat) (result : QueryResult) : Option KadSt :=
  if (AMap.get s.queries id).isNone then
    if completesPlainly result then
      match kadFinish debug s.reg id (.ok .complete) with
      | none => none
      | some reg => (kadSecond debug reg id result).map (fun reg => { s with reg := reg })
    else (kadSecond debug s.reg id result).map (fun reg => { s with reg := reg })
  else some s

/-- A query is started. -/
def KadSt.start (s : KadSt) (q : KadQuery) : KadSt :=
  { s with queries := AMap.set s.queries s.nextQuery q, nextQuery := s.nextQuery + 1 }

/-- `create_subscription` for the query that was just started. -/
def KadSt.subscribe (s : KadSt) (id : Nat) : KadSt :=
  let reg := s.reg.create id false
  { s with reg := (reg.insert s.reg.nextId).getD reg }

/-- `bootstrap`, `get_closest_peers`, `get_providers`, `start_providing`, `dht_get`, `dht_put`
(src/p2p/behaviour.rs:553-619): the future is the next of the registry. -/
def KadSt.request (s : KadSt) (q : KadQuery) : KadSt := (s.start q).subscribe s.nextQuery

/-- What can happen. -/
inductive KadEv where
  /-- a query with a future -/
  | request (q : KadQuery)
  /-- a query nobody waits for -/
  | background (q : KadQuery)
  /-- a report about a query; whether it is the last one -/
  | report (id : Nat) (result : QueryResult) (last : Bool)
  | pollFut (i : Nat)
  | dropFut (i : Nat)
  | dropDone (i : Nat)
deriving DecidableEq, Repr

/-- After an event: the state, or a panic. Before its last report a query is removed. -/
def KadSt.step (debug : Bool) (s : KadSt) : KadEv → Option KadSt
  | .request q => some (s.request q)
  | .background q => some (s.start q)
  | .report id result last =>
    if last then { s with queries := AMap.erase s.queries id }.completed debug id result else s.completed debug id result
  | .pollFut i => some { s with reg := ((s.reg.poll i).map Prod.fst).getD s.reg }
  | .dropFut i => some { s with reg := (s.reg.dropLocked i).getD s.reg }
  | .dropDone i => some { s with reg := (s.reg.dropNotify i).getD s.reg }

/-! ### What callers are told (src/lib.rs) -/

/-- What a call of `Ipfs` gives. -/
inductive DhtRes (α : Type) where
  | ok (a : α)
  | error (message : Bytes)
  /-- `unreachable!()` -/
  | panic
deriving DecidableEq, Repr

/-- The end of `get_closest_peers` and `get_providers` (src/lib.rs:988-992, 1047-1051). -/
def peersTold : KadRes → DhtRes (List PeerId)
  | .ok (.peers l) => .ok l
  | .ok _ => .panic
  | .err e => .error e

/-- The end of `provide` and `dht_put` (src/lib.rs:1022-1026, 1108-1112). -/
def doneTold : KadRes → DhtRes Unit
  | .ok .complete => .ok ()
  | .ok _ => .panic
  | .err e => .error e

/-- The end of `dht_get` (src/lib.rs:1075-1082). -/
def valuesTold : KadRes → DhtRes (List Bytes)
  | .ok (.records l) => .ok (l.map KadRecord.value)
  | .ok _ => .panic
  | .err e => .error e

/-- What is known of a peer (src/lib.rs:1515-1523): the addresses of connections to it, or else those of `Kademlia`. -/
def knownAddrs (swarm kad : List Maddr) : List Maddr := if swarm ≠ [] then swarm else kad

/-- `IpfsEvent::FindPeer` (src/lib.rs:1514-1530): addresses, or (`none`) a query for the closest peers. -/
def findPeerLocal (localOnly : Bool) (swarm kad : List Maddr) : Option (List Maddr) :=
  if knownAddrs swarm kad ≠ [] ∨ localOnly = true then some (knownAddrs swarm kad) else none

/-- `find_peer` (src/lib.rs:937-968): what is known at first, what became of the query, and what is known then. -/
def findPeer (notFound : Bytes) (swarm kad : List Maddr) (query : KadRes) (swarm' kad' : List Maddr) : DhtRes (List Maddr) :=
  match findPeerLocal false swarm kad with
  | some addrs => if addrs ≠ [] then .ok addrs else .panic
  | none =>
    match query with
    | .err e => .error e
    | .ok _ =>
      match findPeerLocal true swarm' kad' with
      | some addrs => if addrs ≠ [] then .ok addrs else .error notFound
      | none => .error notFound

/-- `provide` (src/lib.rs:999-1027): only blocks that are there; `started` has the error with which starting the query
failed. -/
def provideTold (hasBlock : Bool) (noBlock : Bytes) (started : Option Bytes) (query : KadRes) : DhtRes Unit :=
  if hasBlock then
    match started with
    | some e => .error e
    | none => doneTold query
  else .error noBlock

end Verif.Net
