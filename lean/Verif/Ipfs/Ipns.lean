import Verif.Base.AMap
import Verif.Ipfs.DagResolve

/-!
# IPNS: dnslink, recursive resolution and the records of the repository

Model of `src/ipns/mod.rs`, `src/ipns/dnslink.rs`, `Ipfs::resolve_ipns` (src/lib.rs:629-649), the ipns
part of `src/repo/mod.rs` and the column of `src/repo/mem.rs`.

* What the resolver answers is the parameter `txt`: the strings of all TXT records of a name, or `none` if
  the lookup fails. It does not change while a path is resolved. A failure to read the configuration of the
  resolver is the same as all lookups failing.
* Every column operation holds the lock of the map, so that operations are atomic.
* `String::from_utf8_lossy` is the identity on what `put_ipns` stored.
-/

namespace Verif.Ipfs

open Verif Verif.Ipld Verif.Unixfs

/-- "dnslink=" and "_dnslink.". -/
def sDnslinkEq : Bytes := [100, 110, 115, 108, 105, 110, 107, 61]
def sDnslinkDot : Bytes := [95, 100, 110, 115, 108, 105, 110, 107, 46]

/-- The answers of the resolver. -/
abbrev Txt := Bytes → Option (List Bytes)

/-- The filter on the strings of the records (src/ipns/dnslink.rs:48-57). -/
def linkOf (s : Bytes) : Option Bytes :=
  if sDnslinkEq.isPrefixOf s then some (s.drop sDnslinkEq.length) else none

/-- `paths.next()` being `Some(Ok(x))` (src/ipns/dnslink.rs:45-66): only the first link is looked at. -/
def firstLink (mb : UInt8 → Bytes → Option Bytes) (strings : List Bytes) : Option IpfsPath :=
  match strings.filterMap linkOf with
  | [] => none
  | s :: _ => if utf8Ok s then IpfsPath.parse mb s else none

/-- The names looked up (src/ipns/dnslink.rs:14-26). -/
def searched (domain : Bytes) : List Bytes :=
  domain :: if sDnslinkDot.isPrefixOf domain then [] else [sDnslinkDot ++ domain]

/-- `dnslink::resolve` (src/ipns/dnslink.rs:6-77). -/
def dnslinkResolve (mb : UInt8 → Bytes → Option Bytes) (txt : Txt) (domain : Bytes) : Option IpfsPath :=
  (searched domain).findSome? (fun d => (txt d).bind (firstLink mb))

/-- The errors of `Ipns::resolve`. -/
inductive IpnsErr where
  | unimplemented
  | failed (domain : Bytes)
deriving DecidableEq, Repr

/-- `Ipns::resolve` (src/ipns/mod.rs:25-32). -/
def ipnsResolve (mb : UInt8 → Bytes → Option Bytes) (txt : Txt) (path : IpfsPath) : Except IpnsErr IpfsPath :=
  match path.root with
  | .ipld _ => .ok path
  | .ipns _ => .error .unimplemented
  | .dns domain =>
    match dnslinkResolve mb txt domain with
    | some p => .ok p
    | none => .error (.failed domain)

/-- The loop of `resolve_ipns` (src/lib.rs:636-641); `none` if the fuel ran out. -/
def resolveLoop (mb : UInt8 → Bytes → Option Bytes) (txt : Txt) :
    Nat → List IpfsPath → Except IpnsErr IpfsPath → Option (Except IpnsErr IpfsPath)
  | 0, _, _ => none
  | _ + 1, _, .error e => some (.error e)
  | fuel + 1, seen, .ok res =>
    if res ∈ seen then some (.ok res) else resolveLoop mb txt fuel (res :: seen) (ipnsResolve mb txt res)

/-- `Ipfs::resolve_ipns` (src/lib.rs:630-649). -/
def resolveIpns (mb : UInt8 → Bytes → Option Bytes) (txt : Txt) (fuel : Nat) (path : IpfsPath) (recursive : Bool) :
    Option (Except IpnsErr IpfsPath) :=
  let resolved := ipnsResolve mb txt path
  if recursive then resolveLoop mb txt fuel [] resolved else some resolved

/-- `ResolveError` with the two errors of paths whose root is no cid (src/dag.rs:23-31). -/
inductive AnyErr where
  | ipnsResolutionFailed (path : IpfsPath)
  | noCid (path : IpfsPath)
  | dag (e : DagErr)
deriving DecidableEq, Repr

/-- `IpldDag::get` (src/dag.rs:194-218) for any path. -/
def dagGetAny (mb : UInt8 → Bytes → Option Bytes) (txt : Txt) (e : Env) (size : Nat) (fetch : Cid → Option Bytes)
    (fuel : Nat) (path : IpfsPath) : Option (Except AnyErr Ipld) :=
  match resolveIpns mb txt fuel path true with
  | none => none
  | some (.error _) => some (.error (.ipnsResolutionFailed path))
  | some (.ok resolved) =>
    match resolved.root with
    | .ipld c => (dagGet e size fetch fuel c resolved.path).map (fun r =>
        match r with
        | .ok d => .ok d
        | .error x => .error (.dag x))
    | _ => some (.error (.noCid resolved))

/-! ### The records of the repository -/

/-- The column of the in-memory store (src/repo/mem.rs:393-443). -/
abbrev IpnsStore := AMap Bytes Bytes

/-- `Repo::put_ipns` (src/repo/mod.rs:537-544). -/
def IpnsStore.putIpns (s : IpnsStore) (peer : PeerId) (path : IpfsPath) : IpnsStore :=
  AMap.set s peer.toBytes path.text

/-- `Repo::remove_ipns` (src/repo/mod.rs:547-553). -/
def IpnsStore.removeIpns (s : IpnsStore) (peer : PeerId) : IpnsStore := AMap.erase s peer.toBytes

/-- `Repo::get_ipns` (src/repo/mod.rs:518-534): `error` if the text does not parse. -/
def IpnsStore.getIpns (mb : UInt8 → Bytes → Option Bytes) (s : IpnsStore) (peer : PeerId) :
    Except Unit (Option IpfsPath) :=
  match AMap.get s peer.toBytes with
  | none => .ok none
  | some bytes =>
    match IpfsPath.parse mb bytes with
    | some p => .ok (some p)
    | none => .error ()

/-- What may be called. `wipe` is that of the store (src/repo/mem.rs:439-442). -/
inductive IpnsOp where
  | put (peer : PeerId) (path : IpfsPath)
  | remove (peer : PeerId)
  | get (peer : PeerId)
  | wipe
deriving DecidableEq, Repr

/-- The effect of a call. -/
def IpnsStore.step (s : IpnsStore) : IpnsOp → IpnsStore
  | .put peer path => s.putIpns peer path
  | .remove peer => s.removeIpns peer
  | .get _ => s
  | .wipe => []

/-- After a history of calls. -/
def IpnsStore.after (hist : List IpnsOp) : IpnsStore := hist.foldl IpnsStore.step []

end Verif.Ipfs
