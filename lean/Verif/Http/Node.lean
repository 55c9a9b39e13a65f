import Verif.Base.Base64
import Verif.Base.BMap
import Verif.Http.Bootstrap
import Verif.Ipfs.Ipns
import Verif.Net.Kad

/-!
# `dht`, `bitswap`, `swarm`, `id`, `resolve` and `dns` over HTTP

Model of http/src/v0/dht.rs, bitswap.rs, swarm.rs, id.rs and ipns.rs.

* What the node answers is a parameter of each request: the results of the calls of `Ipfs` that are modelled in
  `Net/Kad`, `Net/Swarm`, `Bitswap/Behaviour` and `Ipfs/Ipns`. For calls that only fail if the background task of the
  node is gone, `none` is this failure.
* Whether a timeout that was asked for elapses is up to the environment.
* As in `Http/Bootstrap`, the parser and the texts of multiaddresses are the library's.
* A panic closes the connection.
-/

namespace Verif.Http

open Verif Verif.Ipfs Verif.Net

/-- The errors. -/
inductive NodeFail where
  | badQuery
  | invalidPeerId
  | notImplemented
  | elapsed
  | down
  | badAddr
  | badPath
  | call (message : Bytes)
  | name (e : IpnsErr)
deriving DecidableEq, Repr

/-- What a handler replies. -/
inductive NodeReply where
  | json (j : Json)
  | failed (e : NodeFail)
  | closed

/-- What these requests need. -/
structure NodeEnv where
  q : QueryEnv
  parseAddr : Bytes → Option Maddr
  show' : Ipfs.Comp → Bytes
  debug : Bool

/-- "verbose", "num-providers", "peer", "id", "dht-record-count", "dht-timeout" and "recursive". -/
def kVerbose : Bytes := "verbose".toUTF8.toList
def kNumProviders : Bytes := "num-providers".toUTF8.toList
def kPeer : Bytes := "peer".toUTF8.toList
def kId : Bytes := "id".toUTF8.toList
def kRecordCount : Bytes := "dht-record-count".toUTF8.toList
def kDhtTimeout : Bytes := "dht-timeout".toUTF8.toList
def kDeep : Bytes := "recursive".toUTF8.toList

/-- `.maybe_timeout(..).await.map_err(..)?.map_err(..)?` and what is done with the result. -/
def awaited {α : Type} (timeout : Option Nat) (elapses : Bool) (r : DhtRes α) (reply : α → Json) : NodeReply :=
  match timeout, elapses with
  | some _, true => .failed .elapsed
  | _, _ =>
    match r with
    | .ok a => .json (reply a)
    | .error e => .failed (.call e)
    | .panic => .closed

/-- `ResponsesMember` (dht.rs:20-28). -/
def memberObject (addrs : List Bytes) (id : Bytes) : Json :=
  .obj [("Addrs".toUTF8.toList, .arr (addrs.map Json.str)), ("ID".toUTF8.toList, .str id)]

/-- `Response` (dht.rs:6-18). -/
def dhtObject (id : Bytes) (responses : List Json) : Json :=
  .obj [("Extra".toUTF8.toList, .str []), ("ID".toUTF8.toList, .str id), ("Responses".toUTF8.toList, .arr responses),
    ("Type".toUTF8.toList, .num (JNum.ofInt 2))]

/-- `FindPeerQuery`, `ProvideQuery` and `GetClosestPeersQuery` (dht.rs:30-36, 126-133, 168-175). -/
def dhtQuery {α : Type} (parse : Bytes → Option α) (q : QueryEnv) (query : Bytes) : Except Unit (α × Option Nat) :=
  let pairs := formPairs q.lossy query
  match queryField parse kArg pairs, queryField RefsOptions.parseBool kVerbose pairs, queryField q.duration kTimeout pairs with
  | .ok (some a), .ok _, .ok t => .ok (a, t)
  | _, _, _ => .error ()

/-- `find_peer_query` (dht.rs:38-66). -/
def dhtFindPeer (env : NodeEnv) (node : PeerId → DhtRes (List Maddr)) (elapses : Bool) (query : Bytes) : NodeReply :=
  match dhtQuery PeerId.ofText env.q query with
  | .error () => .failed .badQuery
  | .ok (p, t) =>
    awaited t elapses (node p) (fun addrs => dhtObject [] [memberObject (addrs.map (Maddr.text env.show')) p.toText])

/-- `FindProvidersQuery` (dht.rs:76-85). -/
def findProvsQuery (q : QueryEnv) (query : Bytes) : Except Unit (Cid × Option Nat × Option Nat) :=
  match dhtQuery (Cid.ofText q.mb) q query, queryField parseU64 kNumProviders (formPairs q.lossy query) with
  | .ok (c, t), .ok n => .ok (c, n, t)
  | _, _ => .error ()

/-- `find_providers_query` (dht.rs:87-124). -/
def dhtFindProvs (env : NodeEnv) (node : Cid → DhtRes (List PeerId)) (elapses : Bool) (query : Bytes) : NodeReply :=
  match findProvsQuery env.q query with
  | .error () => .failed .badQuery
  | .ok (c, n, t) =>
    awaited t elapses (node c) (fun ps => dhtObject [] ((ps.take (n.getD 20)).map (fun p => memberObject [] p.toText)))

/-- `provide_query` (dht.rs:135-158). -/
def dhtProvide (env : NodeEnv) (node : Cid → DhtRes Unit) (elapses : Bool) (query : Bytes) : NodeReply :=
  match dhtQuery (Cid.ofText env.q.mb) env.q query with
  | .error () => .failed .badQuery
  | .ok (c, t) => awaited t elapses (node c) (fun _ => dhtObject c.toText [])

/-- `get_closest_peers_query` (dht.rs:177-208). -/
def dhtClosest (env : NodeEnv) (node : PeerId → DhtRes (List PeerId)) (elapses : Bool) (query : Bytes) : NodeReply :=
  match dhtQuery PeerId.ofText env.q query with
  | .error () => .failed .badQuery
  | .ok (p, t) => awaited t elapses (node p) (fun ps => dhtObject p.toText (ps.map (fun x => memberObject [] x.toText)))

/-- `json!({"/": cid.to_string()})`. -/
def slashObject (c : Cid) : Json := .obj [("/".toUTF8.toList, .str c.toText)]

/-- `wantlist_query` (bitswap.rs:18-38). -/
def bitswapWantlist (env : NodeEnv) (node : Option PeerId → Option (List Cid)) (query : Bytes) : NodeReply :=
  match queryField some kPeer (formPairs env.q.lossy query) with
  | .error () => .failed .badQuery
  | .ok peer =>
    match peer.map PeerId.ofText with
    | some none => .failed .invalidPeerId
    | some (some p) => answer (node (some p))
    | none => answer (node none)
where
  answer : Option (List Cid) → NodeReply
    | none => .failed .down
    | some cids => .json (.obj [("Keys".toUTF8.toList, .arr (cids.map slashObject))])

/-- `BitswapStats` (src/lib.rs). -/
structure BitswapStats where
  blocksSent : Nat
  dataSent : Nat
  blocksReceived : Nat
  dataReceived : Nat
  dupBlksReceived : Nat
  dupDataReceived : Nat
  peers : List PeerId
  wantlist : List Cid
deriving DecidableEq

/-- A number. -/
def natJson (n : Nat) : Json := .num (JNum.ofInt n)

/-- `StatResponse` (bitswap.rs:48-89). -/
def statObject (s : BitswapStats) : Json :=
  .obj [("BlocksReceived".toUTF8.toList, natJson s.blocksReceived), ("BlocksSent".toUTF8.toList, natJson s.blocksSent),
    ("DataReceived".toUTF8.toList, natJson s.dataReceived), ("DataSent".toUTF8.toList, natJson s.dataSent),
    ("DupBlksReceived".toUTF8.toList, natJson s.dupBlksReceived), ("DupDataReceived".toUTF8.toList, natJson s.dupDataReceived),
    ("MessagesReceived".toUTF8.toList, natJson 0), ("Peers".toUTF8.toList, .arr (s.peers.map (fun p => .str p.toText))),
    ("ProvideBufLen".toUTF8.toList, natJson 0), ("Wantlist".toUTF8.toList, .arr (s.wantlist.map slashObject))]

/-- `stat_query` (bitswap.rs:91-98). -/
def bitswapStat (node : Option BitswapStats) : NodeReply :=
  match node with
  | none => .failed .down
  | some s => .json (statObject s)

/-- `connect_query` and `disconnect_query` (swarm.rs:13-26, 159-172); `node` is the error of the call, if there is one. -/
def swarmCall (env : NodeEnv) (node : AddrPeer → Option NodeFail) (query : Bytes) : NodeReply :=
  match queryField some kArg (formPairs env.q.lossy query) with
  | .ok (some arg) =>
    match parseBoot env.debug env.parseAddr arg with
    | .bad => .failed .badAddr
    | .panic => .closed
    | .ok a =>
      match node a with
      | some e => .failed e
      | none => .json (.arr [])
  | _ => .failed .badQuery

/-- The latency (swarm.rs:66-79): half of the round trip in milliseconds, if it is known. -/
def latencyText : Option Nat → Bytes
  | some ms => decimal (ms / 2) ++ "ms".toUTF8.toList
  | none => "n/a".toUTF8.toList

/-- `Peer` (swarm.rs:46-52). -/
def peerObject (show' : Ipfs.Comp → Bytes) (verbose : Bool) (c : AddrPeer × Option Nat) : Json :=
  .obj [("Addr".toUTF8.toList, .str (Maddr.text show' c.1.multiaddr.addr)), ("Peer".toUTF8.toList, .str c.1.peer.toText),
    ("Latency".toUTF8.toList, if verbose then .str (latencyText c.2) else .null)]

/-- `peers_query` (swarm.rs:54-90); the round trips in milliseconds. -/
def swarmPeers (env : NodeEnv) (node : Option (List (AddrPeer × Option Nat))) (query : Bytes) : NodeReply :=
  match queryField RefsOptions.parseBool kVerbose (formPairs env.q.lossy query) with
  | .error () => .failed .badQuery
  | .ok verbose =>
    match node with
    | none => .failed .down
    | some l => .json (.obj [("Peers".toUTF8.toList, .arr (l.map (peerObject env.show' (verbose == some true))))])

/-- The loop of `addrs_query` (swarm.rs:112-118). -/
def addrsMap (show' : Ipfs.Comp → Bytes) (m : BMap (List Bytes)) : List (PeerId × List Maddr) → BMap (List Bytes)
  | [] => m
  | (p, addrs) :: l => addrsMap show' (m.insert p.toText (addrs.map (Maddr.text show'))) l

/-- `addrs_query` (swarm.rs:106-121). -/
def swarmAddrs (env : NodeEnv) (node : Option (List (PeerId × List Maddr))) : NodeReply :=
  match node with
  | none => .failed .down
  | some l =>
    .json (.obj [("Addrs".toUTF8.toList, .obj ((addrsMap env.show' [] l).map (fun e => (e.1, .arr (e.2.map Json.str)))))])

/-- `addrs_local_query` (swarm.rs:141-155). -/
def swarmAddrsLocal (env : NodeEnv) (node : Option (List Maddr)) (query : Bytes) : NodeReply :=
  match queryField RefsOptions.parseBool kId (formPairs env.q.lossy query) with
  | .error () => .failed .badQuery
  | .ok _ =>
    match node with
    | none => .failed .down
    | some l => .json (.obj [("Strings".toUTF8.toList, .arr (l.map (fun a => .str (Maddr.text env.show' a))))])

/-- `Ipfs::identity` (src/lib.rs:733-755): the addresses of the node with its peer id at the end. -/
def ownAddrs (p : PeerId) (l : List Maddr) : List Maddr := l.map (fun a => a ++ [.p2p p.mhCode p.digest])

/-- `identity` (id.rs:7-62): the encoded public key, its peer id and the addresses of the node. -/
def nodeId (env : NodeEnv) (node : Option (Bytes × PeerId × List Maddr)) (query : Bytes) : NodeReply :=
  match queryField some kArg (formPairs env.q.lossy query), queryField some kFormatField (formPairs env.q.lossy query) with
  | .ok arg, .ok _ =>
    match arg.map PeerId.ofText with
    | some none => .failed .invalidPeerId
    | some (some _) => .failed .notImplemented
    | none =>
      match node with
      | none => .failed .down
      | some (key, p, l) =>
        .json (.obj [("ID".toUTF8.toList, .str p.toText), ("PublicKey".toUTF8.toList, .str (base64 key)),
          ("Addresses".toUTF8.toList, .arr ((ownAddrs p l).map (fun a => .str (Maddr.text env.show' a)))),
          ("AgentVersion".toUTF8.toList, .str "rust-ipfs/0.1.0".toUTF8.toList),
          ("ProtocolVersion".toUTF8.toList, .str "ipfs/0.1.0".toUTF8.toList)])
  | _, _ => .failed .badQuery

/-- `ResolveResponse` and `DnsResponse` (ipns.rs:44-48, 88-92). -/
def pathObject (p : IpfsPath) : Json := .obj [("Path".toUTF8.toList, .str p.text)]

/-- The answer of both; `none` if the fuel ran out. -/
def pathAnswer : Option (Except IpnsErr IpfsPath) → Option NodeReply
  | none => none
  | some (.ok p) => some (.json (pathObject p))
  | some (.error e) => some (.failed (.name e))

/-- `resolve_query` (ipns.rs:6-42). -/
def nameResolve (env : NodeEnv) (txt : Txt) (query : Bytes) : Option NodeReply :=
  let pairs := formPairs env.q.lossy query
  match queryField (IpfsPath.parse env.q.mb) kArg pairs, queryField parseU64 kRecordCount pairs, queryField some kDhtTimeout pairs with
  | .ok (some p), .ok _, .ok _ => pathAnswer (resolveIpns env.q.mb txt 0 p false)
  | _, _, _ => some (.failed .badQuery)

/-- The path of `dns_query` (ipns.rs:64-77). -/
def dnsPath (mb : UInt8 → Bytes → Option Bytes) (arg : Bytes) : Option IpfsPath :=
  if arg.head? ≠ some 47 then
    match IpfsPath.parse mb arg with
    | some p => some p
    | none => IpfsPath.parse mb ("/ipns/".toUTF8.toList ++ arg)
  else IpfsPath.parse mb arg

/-- `dns_query` (ipns.rs:50-86). -/
def nodeDns (env : NodeEnv) (txt : Txt) (fuel : Nat) (query : Bytes) : Option NodeReply :=
  let pairs := formPairs env.q.lossy query
  match queryField some kArg pairs, queryField RefsOptions.parseBool kDeep pairs with
  | .ok (some arg), .ok recursive =>
    match dnsPath env.q.mb arg with
    | none => some (.failed .badPath)
    | some p => pathAnswer (resolveIpns env.q.mb txt fuel p (recursive.getD false))
  | _, _ => some (.failed .badQuery)

/-- The status of an error with the text of a library (support.rs:126-210). -/
def nodeStatus : NodeFail → Nat
  | .badQuery => 400
  | _ => 500

/-- Status and body of an answer, if there is one. -/
def nodeAnswer (libText : NodeFail → Bytes) : NodeReply → Option (Nat × Bytes)
  | .json j => some (200, j.write)
  | .failed .notImplemented => some (501, (messageResponse "Not implemented".toUTF8.toList).write)
  | .failed .invalidPeerId => some (400, (messageResponse "invalid peer id".toUTF8.toList).write)
  | .failed (.call m) => some (500, (messageResponse m).write)
  | .failed e => some (nodeStatus e, (messageResponse (libText e)).write)
  | .closed => none

end Verif.Http
