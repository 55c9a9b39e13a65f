import Verif.Base.Prost
import Verif.Ipld.Ipld

/-!
# dag-pb documents

Model of `src/ipld/dag_pb.rs` and `src/ipld/dag_pb.proto`.
-/

namespace Verif.Ipld

open Verif Verif.Prost

/-- `PbLink` (src/ipld/dag_pb.rs:46-50). -/
structure DagPbLink where
  cid : Cid
  name : Bytes
  size : Nat
deriving DecidableEq, Repr

/-- `PbNode` (src/ipld/dag_pb.rs:52-55). -/
structure DagPbNode where
  links : List DagPbLink
  data : Bytes
deriving DecidableEq, Repr

/-- `pb::PbLink` (src/ipld/dag_pb.proto:7-14). -/
structure PbLinkMsg where
  hash : Bytes := []
  name : Bytes := []
  tsize : Nat := 0
deriving DecidableEq, Repr

/-- `pb::PbNode` (src/ipld/dag_pb.proto:17-22). -/
structure PbNodeMsg where
  links : List PbLinkMsg := []
  data : Bytes := []
deriving DecidableEq, Repr

/-- The derived `encode_raw`. -/
def PbLinkMsg.encode (l : PbLinkMsg) : Bytes :=
  bytesField 1 l.hash ++ (bytesField 2 l.name ++ varField 3 l.tsize)

/-- The derived `encode_raw`, fields in the order of their numbers. -/
def PbNodeMsg.encode (n : PbNodeMsg) : Bytes :=
  bytesField 1 n.data ++ n.links.flatMap (fun l => subField 2 l.encode)

/-- The derived `merge_field` of a link. -/
def PbLinkMsg.step (l : PbLinkMsg) : Nat → WireVal → Option PbLinkMsg
  | 1, .len b => some { l with hash := b }
  | 2, .len b => if utf8Ok b then some { l with name := b } else none
  | 3, .varint v => some { l with tsize := v }
  | 1, _ => none
  | 2, _ => none
  | 3, _ => none
  | _, _ => some l

/-- The derived `merge_field` of a node. -/
def PbNodeMsg.step (n : PbNodeMsg) : Nat → WireVal → Option PbNodeMsg
  | 1, .len b => some { n with data := b }
  | 2, .len b => (msg PbLinkMsg.step {} b).map (fun l => { n with links := n.links ++ [l] })
  | 1, _ => none
  | 2, _ => none
  | _, _ => some n

/-- `Message::decode`. -/
def PbNodeMsg.decode (bs : Bytes) : Option PbNodeMsg := msg PbNodeMsg.step {} bs

/-- One link of `PbNode::from_bytes` (src/ipld/dag_pb.rs:65-68). -/
def DagPbLink.ofMsg (l : PbLinkMsg) : Option DagPbLink :=
  (Cid.ofBytes l.hash).map (fun c => ⟨c, l.name, l.tsize⟩)

/-- `PbNode::from_bytes` (src/ipld/dag_pb.rs:60-71). -/
def DagPbNode.ofBytes (bs : Bytes) : Option DagPbNode :=
  (PbNodeMsg.decode bs).bind (fun m =>
    (m.links.mapM DagPbLink.ofMsg).map (fun links => ⟨links, m.data⟩))

/-- `PbNode::into_bytes` (src/ipld/dag_pb.rs:73-93). -/
def DagPbNode.toBytes (n : DagPbNode) : Bytes :=
  PbNodeMsg.encode ⟨n.links.map (fun l => ⟨l.cid.toBytes, l.name, l.size⟩), n.data⟩

def kLinks : Bytes := [0x4C, 0x69, 0x6E, 0x6B, 0x73]
def kData : Bytes := [0x44, 0x61, 0x74, 0x61]
def kHash : Bytes := [0x48, 0x61, 0x73, 0x68]
def kName : Bytes := [0x4E, 0x61, 0x6D, 0x65]
def kTsize : Bytes := [0x54, 0x73, 0x69, 0x7A, 0x65]

/-- The names spelled out. -/
example : kLinks = "Links".toUTF8.toList ∧ kData = "Data".toUTF8.toList ∧ kHash = "Hash".toUTF8.toList ∧
    kName = "Name".toUTF8.toList ∧ kTsize = "Tsize".toUTF8.toList := by decide +kernel

/-- `From<PbLink> for Ipld` (src/ipld/dag_pb.rs:110-118). -/
def DagPbLink.toIpld (l : DagPbLink) : Ipld :=
  .map (BMap.insert (BMap.insert (BMap.insert [] kHash (.link l.cid)) kName (.str l.name)) kTsize
    (.int l.size))

/-- `From<PbNode> for Ipld` (src/ipld/dag_pb.rs:95-108). -/
def DagPbNode.toIpld (n : DagPbNode) : Ipld :=
  .map (BMap.insert (BMap.insert [] kLinks (.list (n.links.map DagPbLink.toIpld))) kData (.bytes n.data))

/-- The `IpldError`s used here (src/ipld/mod.rs:175-211). -/
inductive IpldErr where
  | keyNotFound
  | notList
  | notBytes
  | notLink
  | notString
  | notInteger
deriving DecidableEq, Repr

/-- `i128 as u64`. -/
def toU64 (i : Int) : Nat := (i % 2 ^ 64).toNat

/-- The `Hash` of a link (src/ipld/dag_pb.rs:145-149). -/
def linkHash (d : Ipld) : Except IpldErr Cid :=
  match d.get kHash with
  | none => .error .keyNotFound
  | some (.link c) => .ok c
  | some _ => .error .notLink

/-- The `Name` of a link (src/ipld/dag_pb.rs:150-154). -/
def linkName (d : Ipld) : Except IpldErr Bytes :=
  match d.get kName with
  | none => .error .keyNotFound
  | some (.str s) => .ok s
  | some _ => .error .notString

/-- The `Tsize` of a link (src/ipld/dag_pb.rs:155-159). -/
def linkSize (d : Ipld) : Except IpldErr Nat :=
  match d.get kTsize with
  | none => .error .keyNotFound
  | some (.int i) => .ok (toU64 i)
  | some _ => .error .notInteger

/-- `TryFrom<&Ipld> for PbLink` (src/ipld/dag_pb.rs:141-162). -/
def DagPbLink.ofIpld (d : Ipld) : Except IpldErr DagPbLink := do
  let cid ← linkHash d
  let name ← linkName d
  let size ← linkSize d
  return ⟨cid, name, size⟩

/-- `collect::<Result<_, _>>()`: the first error ends it. -/
def linksOf : List Ipld → Except IpldErr (List DagPbLink)
  | [] => .ok []
  | d :: ds => do
    let l ← DagPbLink.ofIpld d
    let ls ← linksOf ds
    return l :: ls

/-- The `Links` of a node (src/ipld/dag_pb.rs:124-131). -/
def nodeLinks (d : Ipld) : Except IpldErr (List DagPbLink) :=
  match d.get kLinks with
  | none => .error .keyNotFound
  | some (.list ds) => linksOf ds
  | some _ => .error .notList

/-- The `Data` of a node (src/ipld/dag_pb.rs:132-136). -/
def nodeData (d : Ipld) : Except IpldErr Bytes :=
  match d.get kData with
  | none => .error .keyNotFound
  | some (.bytes b) => .ok b
  | some _ => .error .notBytes

/-- `TryFrom<&Ipld> for PbNode` (src/ipld/dag_pb.rs:120-139). -/
def DagPbNode.ofIpld (d : Ipld) : Except IpldErr DagPbNode := do
  let links ← nodeLinks d
  let data ← nodeData d
  return ⟨links, data⟩

end Verif.Ipld
