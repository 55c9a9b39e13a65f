import Verif.Base.AMap
import Verif.Base.Prost
import Verif.Bitswap.Prefix

/-!
# Bitswap messages

Model of `Message` of `bitswap/src/ledger.rs` and of `bitswap/src/bitswap_pb.proto`.

* Priorities are 32-bit integers. The maps are association lists; their order stands for the order of
  iteration, which is arbitrary.
* Length prefixing and the size limit of `bitswap/src/protocol.rs` are at the end.
-/

namespace Verif.Bitswap

open Verif Verif.Prost
open Verif.Repo (Block)

/-- `Message` (bitswap/src/ledger.rs:67-77). -/
structure Message where
  want : AMap Cid Int := []
  cancel : List Cid := []
  full : Bool := false
  blocks : List Block := []
deriving DecidableEq, Repr

namespace Message

/-- `is_empty` (bitswap/src/ledger.rs:81-83). -/
def isEmpty (m : Message) : Bool := m.want.isEmpty && m.cancel.isEmpty && m.blocks.isEmpty

/-- `add_block` (bitswap/src/ledger.rs:101-103). -/
def addBlock (m : Message) (b : Block) : Message := { m with blocks := m.blocks ++ [b] }

/-- `want_block` (bitswap/src/ledger.rs:111-113). -/
def wantBlock (m : Message) (c : Cid) (priority : Int) : Message := { m with want := m.want.set c priority }

/-- `cancel_block` (bitswap/src/ledger.rs:116-118). -/
def cancelBlock (m : Message) (c : Cid) : Message :=
  { m with cancel := if c ∈ m.cancel then m.cancel else m.cancel ++ [c] }

end Message

/-- `wantlist::Entry` of the protobuf definition, the fields that are used. -/
structure PbEntry where
  block : Bytes := []
  priority : Int := 0
  cancel : Bool := false
deriving DecidableEq, Repr

/-- `message::Block`. -/
structure PbBlock where
  prefix_ : Bytes := []
  data : Bytes := []
deriving DecidableEq, Repr

/-- The protobuf message, the fields that are used. -/
structure PbMessage where
  entries : Option (List PbEntry) := none
  payload : List PbBlock := []
deriving DecidableEq, Repr

/-- An `int32` as the varint it is written as: negative ones take 64 bits. -/
def i32ToVar (i : Int) : Nat := if i < 0 then (i + 2 ^ 64).toNat else i.toNat

/-- A varint as an `int32`: the lower 32 bits. -/
def varToI32 (v : Nat) : Int := if v % 2 ^ 32 < 2 ^ 31 then (v % 2 ^ 32 : Nat) else (v % 2 ^ 32 : Nat) - (2 : Int) ^ 32

/-- `merge_field` of an entry. -/
def entryStep (s : PbEntry) (n : Nat) (v : WireVal) : Option PbEntry :=
  if n = 1 then match v with
    | .len b => some { s with block := b }
    | _ => none
  else if n = 2 then match v with
    | .varint x => some { s with priority := varToI32 x }
    | _ => none
  else if n = 3 then match v with
    | .varint x => some { s with cancel := x ≠ 0 }
    | _ => none
  else if n = 4 ∨ n = 5 then match v with
    | .varint _ => some s
    | _ => none
  else some s

/-- `merge_field` of a want list. -/
def wantlistStep (s : List PbEntry) (n : Nat) (v : WireVal) : Option (List PbEntry) :=
  if n = 1 then match v with
    | .len b => (msg entryStep {} b).map (fun e => s ++ [e])
    | _ => none
  else if n = 2 then match v with
    | .varint _ => some s
    | _ => none
  else some s

/-- `merge_field` of a block. -/
def blockStep (s : PbBlock) (n : Nat) (v : WireVal) : Option PbBlock :=
  if n = 1 then match v with
    | .len b => some { s with prefix_ := b }
    | _ => none
  else if n = 2 then match v with
    | .len b => some { s with data := b }
    | _ => none
  else some s

/-- `merge_field` of a block presence. -/
def presenceStep (s : Unit) (n : Nat) (v : WireVal) : Option Unit :=
  if n = 1 then match v with
    | .len _ => some s
    | _ => none
  else if n = 2 then match v with
    | .varint _ => some s
    | _ => none
  else some s

/-- `merge_field` of the message. -/
def messageStep (s : PbMessage) (n : Nat) (v : WireVal) : Option PbMessage :=
  if n = 1 then match v with
    | .len b => (msg wantlistStep (s.entries.getD []) b).map (fun l => { s with entries := some l })
    | _ => none
  else if n = 2 then match v with
    | .len _ => some s
    | _ => none
  else if n = 3 then match v with
    | .len b => (msg blockStep {} b).map (fun p => { s with payload := s.payload ++ [p] })
    | _ => none
  else if n = 4 then match v with
    | .len b => (msg presenceStep () b).map (fun _ => s)
    | _ => none
  else if n = 5 then match v with
    | .varint _ => some s
    | _ => none
  else some s

/-- `bitswap_pb::Message::decode`. -/
def PbMessage.decode (bs : Bytes) : Option PbMessage := msg messageStep {} bs

/-- `encode` of an entry. -/
def PbEntry.encode (e : PbEntry) : Bytes :=
  bytesField 1 e.block ++ varField 2 (i32ToVar e.priority) ++ varField 3 (if e.cancel then 1 else 0)

/-- `encode` of a block. -/
def PbBlock.encode (b : PbBlock) : Bytes := bytesField 1 b.prefix_ ++ bytesField 2 b.data

/-- `encode` of a want list. -/
def encodeWantlist (es : List PbEntry) : Bytes := es.flatMap (fun e => subField 1 e.encode)

/-- `encode` of the message. -/
def PbMessage.encode (m : PbMessage) : Bytes :=
  (match m.entries with
    | none => []
    | some es => subField 1 (encodeWantlist es)) ++ m.payload.flatMap (fun b => subField 3 b.encode)

/-- The entries of `From<&Message> for Vec<u8>` (bitswap/src/ledger.rs:131-147). -/
def Message.entries (m : Message) : List PbEntry :=
  m.want.map (fun e => { block := e.1.toBytes, priority := e.2 }) ++
    m.cancel.map (fun c => { block := c.toBytes, cancel := true })

/-- `From<&Message> for Vec<u8>` (bitswap/src/ledger.rs:127-164). -/
def Message.toPb (m : Message) : PbMessage :=
  { entries := if m.entries.isEmpty then none else some m.entries,
    payload := m.blocks.map (fun b => { prefix_ := (Prefix.ofCid b.cid).toBytes, data := b.data }) }

/-- `to_bytes` (bitswap/src/ledger.rs:167-169). -/
def Message.toBytes (m : Message) : Bytes := m.toPb.encode

/-- The loop over the entries (bitswap/src/ledger.rs:188-195). -/
def addEntries (m : Message) : List PbEntry → Option Message
  | [] => some m
  | e :: es =>
    match Cid.ofBytes e.block with
    | none => none
    | some c => addEntries (if e.cancel then m.cancelBlock c else m.wantBlock c e.priority) es

/-- The loop over the payload (bitswap/src/ledger.rs:196-204). -/
def addPayload (H : Hashes) (m : Message) : List PbBlock → Option Message
  | [] => some m
  | b :: bs =>
    match Prefix.new H b.prefix_ with
    | none => none
    | some p =>
      match p.toCid H b.data with
      | none => none
      | some c => addPayload H (m.addBlock ⟨c, b.data⟩) bs

/-- `TryFrom<&[u8]> for Message` (bitswap/src/ledger.rs:183-207). -/
def Message.ofBytes (H : Hashes) (bs : Bytes) : Option Message :=
  match PbMessage.decode bs with
  | none => none
  | some pb =>
    match addEntries {} (pb.entries.getD []) with
    | none => none
    | some m => addPayload H m pb.payload

/-- `MAX_BUF_SIZE` (bitswap/src/protocol.rs:20). -/
def maxBufSize : Nat := 524288

/-- `upgrade_outbound` (bitswap/src/protocol.rs:71-76): `write_length_prefixed`. -/
def Message.frame (m : Message) : Bytes := writeVarint m.toBytes.length ++ m.toBytes

/-- `upgrade_inbound` (bitswap/src/protocol.rs:45-51): `read_length_prefixed` of at most `MAX_BUF_SIZE`
bytes, from a stream with these bytes. The length must not be longer than needed; a stream without any bytes
counts as one of length zero. -/
def Message.unframe (H : Hashes) (bs : Bytes) : Option Message :=
  if bs = [] then Message.ofBytes H []
  else match readMinVarint bs with
    | none => none
    | some (len, r) =>
      if maxBufSize < len then none
      else match takeExact len r with
        | none => none
        | some (packet, _) => Message.ofBytes H packet

end Verif.Bitswap
