import Verif.Base.CidText

/-!
# Multiaddresses with and without a peer id

Model of `src/p2p/addr.rs`. A `Multiaddr` of the `multiaddr` crate is the list of its components
(`iter`/`into_iter`/`collect`/`push`); its bytes, of which the code only uses the length, are the
concatenation of the encodings of the components. The components the code looks at have constructors of
their own, all others (`dns4`, `ws`, `unix`, ...) are `other` with the code of the protocol and the encoded
data after it.

Not modelled: the text of the other components (a parameter `show'` of the texts below) and the parser of
texts, which is the crate's.
-/

namespace Verif.Ipfs

open Verif

/-- `multiaddr::Protocol`. -/
inductive Comp where
  | ip4 (a b c d : UInt8)
  | ip6 (octets : List UInt8)
  | tcp (port : Nat)
  | udp (port : Nat)
  | sctp (port : Nat)
  | memory (port : Nat)
  | p2p (mhCode : Nat) (digest : Bytes)
  | p2pCircuit
  | other (code : Nat) (data : Bytes)
deriving DecidableEq, Repr

/-- A `Multiaddr`. -/
abbrev Maddr := List Comp

/-- The number of bytes of a component (`Protocol::write_bytes` of the crate): code and data; the data of
`p2p` is preceded by its length. -/
def Comp.size : Comp → Nat
  | .ip4 .. => 1 + 4
  | .ip6 .. => 1 + 16
  | .tcp _ => 1 + 2
  | .udp _ => 2 + 2
  | .sctp _ => 2 + 2
  | .memory _ => 2 + 8
  | .p2p code d => 2 + (writeVarint (mhBytes code d).length).length + (mhBytes code d).length
  | .p2pCircuit => 2
  | .other code data => (writeVarint code).length + data.length

/-- `Multiaddr::len`: the number of bytes. -/
def Maddr.byteLen (a : Maddr) : Nat := (a.map Comp.size).sum

/-- `matches!(p, Protocol::P2p(_))`. -/
def Comp.isP2p : Comp → Bool
  | .p2p _ _ => true
  | _ => false

/-- `matches!(p, Protocol::P2p(_) | Protocol::P2pCircuit)`. -/
def Comp.isPeerPart : Comp → Bool
  | .p2p _ _ => true
  | .p2pCircuit => true
  | _ => false

/-- `MultiaddrWrapperError` (src/p2p/addr.rs:14-23) without the errors of the parser of the crate;
`debugAssert` is the assertion of lines 136-143, checked in debug builds only. -/
inductive AddrErr where
  | containsP2p
  | invalidPeerId
  | missingP2p
  | debugAssert
deriving DecidableEq, Repr

/-- `MultiaddrWithoutPeerId` (src/p2p/addr.rs:35). -/
structure AddrOnly where
  addr : Maddr
deriving DecidableEq, Repr

/-- `MultiaddrWithPeerId` (src/p2p/addr.rs:104-109). -/
structure AddrPeer where
  multiaddr : AddrOnly
  peer : PeerId
deriving DecidableEq, Repr

/-- `MultiaddrWithoutPeerId::try_from(Multiaddr)` (src/p2p/addr.rs:43-53). -/
def AddrOnly.ofAddr (a : Maddr) : Except AddrErr AddrOnly :=
  if a.any Comp.isP2p then .error .containsP2p else .ok ⟨a⟩

/-- `MultiaddrWithoutPeerId::with` (src/p2p/addr.rs:92-98, 111-115). -/
def AddrOnly.withPeer (a : AddrOnly) (p : PeerId) : AddrPeer := ⟨a, p⟩

/-- `MultiaddrWithoutPeerId::from(MultiaddrWithPeerId)` (src/p2p/addr.rs:55-60). -/
def AddrPeer.only (a : AddrPeer) : AddrOnly := ⟨a.multiaddr.addr⟩

/-- `Multiaddr::from(MultiaddrWithPeerId)` (src/p2p/addr.rs:117-125). -/
def AddrPeer.toAddr (a : AddrPeer) : Maddr := a.multiaddr.addr ++ [.p2p a.peer.mhCode a.peer.digest]

/-- `PeerId::from_multihash` of libp2p: sha2-256, or identity with at most 42 bytes. -/
def peerOf (code : Nat) (d : Bytes) : Option PeerId :=
  if code = mhSha256 ∨ (code = 0 ∧ d.length ≤ 42) then some ⟨code, d⟩ else none

/-- `multiaddr.iter().find(|p| matches!(p, Protocol::P2p(_)))` (src/p2p/addr.rs:131). -/
def firstP2p : Maddr → Option (Nat × Bytes)
  | [] => none
  | .p2p code d :: _ => some (code, d)
  | _ :: a => firstP2p a

/-- The condition of the assertion (src/p2p/addr.rs:137-140). -/
def endsInPeerPart (a : Maddr) : Bool :=
  match a.getLast? with
  | some c => c.isPeerPart
  | none => false

/-- `MultiaddrWithPeerId::try_from(Multiaddr)` (src/p2p/addr.rs:127-158). -/
def AddrPeer.ofAddr (debug : Bool) (a : Maddr) : Except AddrErr AddrPeer :=
  match firstP2p a with
  | some (code, d) =>
    if debug && !endsInPeerPart a then .error .debugAssert
    else
      match peerOf code d with
      | some p => .ok ⟨⟨a.filter (fun c => !c.isPeerPart)⟩, p⟩
      | none => .error .invalidPeerId
  | none => .error .missingP2p

/-- "/p2p/". -/
def sP2p : Bytes := [47, 112, 50, 112, 47]

/-- "/p2p-circuit". -/
def sCircuit : Bytes := [47, 112, 50, 112, 45, 99, 105, 114, 99, 117, 105, 116]

/-- The `Display` of a component in the crate: the multihash of `p2p` in base 58. -/
def Comp.text (show' : Comp → Bytes) : Comp → Bytes
  | .p2p code d => sP2p ++ base58 (mhBytes code d)
  | .p2pCircuit => sCircuit
  | c => show' c

/-- The `Display` of `Multiaddr`. -/
def Maddr.text (show' : Comp → Bytes) (a : Maddr) : Bytes := (a.map (Comp.text show')).flatten

/-- The `Display` of `MultiaddrWithPeerId` (src/p2p/addr.rs:171-175). -/
def AddrPeer.text (show' : Comp → Bytes) (a : AddrPeer) : Bytes :=
  Maddr.text show' a.multiaddr.addr ++ sP2p ++ a.peer.toText

/-- `starts_unspecified` (src/p2p/addr.rs:178-184). -/
def startsUnspecified : Maddr → Bool
  | .ip4 a b c d :: _ => a == 0 && b == 0 && c == 0 && d == 0
  | .ip6 o :: _ => o.all (· == 0)
  | _ => false

/-- The comparison of one component of the bound address with one of the address that may have an
ephemeral port (src/p2p/addr.rs:202-214); `none` is the failed assertion. -/
def boundComp (right left : Comp) : Option Bool :=
  match right, left with
  | .tcp 0, .tcp x => if x = 0 then none else some true
  | .udp 0, .udp x => if x = 0 then none else some true
  | .sctp 0, .sctp x => if x = 0 then none else some true
  | .memory 0, .memory x => if x = 0 then none else some true
  | r, l => some (decide (r = l))

/-- `zip(..).all(..)` over the components (src/p2p/addr.rs:198-214): stops at the first difference and at
the end of the shorter list. -/
def boundAll : Maddr → Maddr → Option Bool
  | l :: bound, r :: may =>
    match boundComp r l with
    | none => none
    | some false => some false
    | some true => boundAll bound may
  | _, _ => some true

/-- `could_be_bound_from_ephemeral` (src/p2p/addr.rs:186-216). -/
def couldBeBound (skip : Nat) (bound may : Maddr) : Option Bool :=
  if Maddr.byteLen bound ≠ Maddr.byteLen may then some false
  else boundAll (bound.drop skip) (may.drop skip)

end Verif.Ipfs
