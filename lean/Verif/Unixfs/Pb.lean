import Verif.Base.PbWire

/-!
# UnixFS and dag-pb messages

Model of `unixfs/src/pb.rs`, `unixfs/src/pb/merkledag.rs` and
`unixfs/src/pb/unixfs.rs`. Strings are kept as their UTF-8 bytes, `Cow` borrowing
is erased.
-/

namespace Verif.Unixfs

open Verif

/-- `merkledag::PBLink` (unixfs/src/pb/merkledag.rs:19-23). -/
structure PBLink where
  hash : Option Bytes := none
  name : Option Bytes := none
  tsize : Option Nat := none
deriving DecidableEq, Repr

/-- `merkledag::PBNode` (unixfs/src/pb/merkledag.rs:64-67). -/
structure PBNode where
  links : List PBLink := []
  data : Option Bytes := none
deriving DecidableEq, Repr

/-- `unixfs::mod_Data::DataType` (unixfs/src/pb/unixfs.rs:111-118). -/
inductive FsType where
  | raw
  | directory
  | file
  | metadata
  | symlink
  | hamtShard
deriving DecidableEq, Repr

/-- `unixfs::UnixTime` (unixfs/src/pb/unixfs.rs:164-167). -/
structure UnixTime where
  seconds : Int := 0
  nanos : Option Nat := none
deriving DecidableEq, Repr

/-- `unixfs::Data`, aliased `UnixFs` (unixfs/src/pb/unixfs.rs:20-29). The derived
`Default` gives type raw and everything else absent. -/
structure UnixFs where
  type : FsType := .raw
  data : Option Bytes := none
  filesize : Option Nat := none
  blocksizes : List Nat := []
  hashType : Option Nat := none
  fanout : Option Nat := none
  mode : Option Nat := none
  mtime : Option UnixTime := none
deriving DecidableEq, Repr

/-- `FlatUnixFs` (unixfs/src/pb.rs:84-87). -/
structure Flat where
  links : List PBLink := []
  data : UnixFs := {}
deriving DecidableEq, Repr

/-- `DataType as i32` / `From<DataType> for i32` (unixfs/src/pb/unixfs.rs:150-161). -/
def FsType.toWire : FsType → Nat
  | .raw => 0
  | .directory => 1
  | .file => 2
  | .metadata => 3
  | .symlink => 4
  | .hamtShard => 5

/-- `From<i32> for DataType` applied to `read_enum` (unixfs/src/pb/unixfs.rs:124-136):
the varint is cut to 32 bits, unknown values become raw. -/
def FsType.ofWire (n : Nat) : FsType :=
  match n % 2 ^ 32 with
  | 0 => .raw
  | 1 => .directory
  | 2 => .file
  | 3 => .metadata
  | 4 => .symlink
  | 5 => .hamtShard
  | _ => .raw

/-- `i64 as u64`, as done by `write_int64`. -/
def i64ToU64 (i : Int) : Nat := (i % 2 ^ 64).toNat

/-- `u64 as i64`, as done by `read_int64`. -/
def u64ToI64 (n : Nat) : Int := if n < 2 ^ 63 then n else (n : Int) - 2 ^ 64

/-- The four little endian bytes of a `u32` (`write_fixed32`). -/
def u32le (n : Nat) : Bytes :=
  [UInt8.ofNat (n % 256), UInt8.ofNat (n / 256 % 256), UInt8.ofNat (n / 65536 % 256),
   UInt8.ofNat (n / 16777216 % 256)]

/-- `read_fixed32`. -/
def ofU32le (b : Bytes) : Nat :=
  match b with
  | [a, b, c, d] => a.toNat + 256 * b.toNat + 65536 * c.toNat + 16777216 * d.toNat
  | _ => 0

/-! ## Writing -/

/-- `if let Some(ref s) = x { w.write_with_tag(..) }`. -/
def optField {α : Type} (x : Option α) (f : α → Bytes) : Bytes :=
  match x with
  | none => []
  | some a => f a

/-- `x.as_ref().map_or(0, |m| ..)`. -/
def optSize {α : Type} (x : Option α) (f : α → Nat) : Nat :=
  match x with
  | none => 0
  | some a => f a

/-- `PBLink::get_size` (unixfs/src/pb/merkledag.rs:42-49). -/
def PBLink.getSize (l : PBLink) : Nat :=
  optSize l.hash (fun m => 1 + sizeofLen m.length) +
  optSize l.name (fun m => 1 + sizeofLen m.length) +
  optSize l.tsize (fun m => 1 + sizeofVarint m)

/-- `PBLink::write_message` (unixfs/src/pb/merkledag.rs:50-61). -/
def PBLink.write (l : PBLink) : Bytes :=
  optField l.hash (lenField 10) ++ (optField l.name (lenField 18) ++
    optField l.tsize (varintField 24))

/-- `PBNode::get_size` (unixfs/src/pb/merkledag.rs:85-92). -/
def PBNode.getSize (n : PBNode) : Nat :=
  (n.links.map (fun s => 1 + sizeofLen s.getSize)).sum +
  optSize n.data (fun m => 1 + sizeofLen m.length)

/-- `PBNode::write_message` (unixfs/src/pb/merkledag.rs:93-101). -/
def PBNode.write (n : PBNode) : Bytes :=
  (n.links.map (fun s => msgField 18 s.getSize s.write)).flatten ++ optField n.data (lenField 10)

/-- `UnixTime::get_size` (unixfs/src/pb/unixfs.rs:185-189). -/
def UnixTime.getSize (t : UnixTime) : Nat :=
  1 + sizeofVarint (i64ToU64 t.seconds) + optSize t.nanos (fun _ => 1 + 4)

/-- `UnixTime::write_message` (unixfs/src/pb/unixfs.rs:190-196). -/
def UnixTime.write (t : UnixTime) : Bytes :=
  varintField 8 (i64ToU64 t.seconds) ++ optField t.nanos (fun n => fixed32Field 21 (u32le n))

/-- `Data::get_size` (unixfs/src/pb/unixfs.rs:53-82). -/
def UnixFs.getSize (d : UnixFs) : Nat :=
  1 + sizeofVarint d.type.toWire +
  optSize d.data (fun m => 1 + sizeofLen m.length) +
  optSize d.filesize (fun m => 1 + sizeofVarint m) +
  (d.blocksizes.map (fun s => 1 + sizeofVarint s)).sum +
  optSize d.hashType (fun m => 1 + sizeofVarint m) +
  optSize d.fanout (fun m => 1 + sizeofVarint m) +
  optSize d.mode (fun m => 1 + sizeofVarint m) +
  optSize d.mtime (fun m => 1 + sizeofLen m.getSize)

/-- `Data::write_message` (unixfs/src/pb/unixfs.rs:83-107). -/
def UnixFs.write (d : UnixFs) : Bytes :=
  varintField 8 d.type.toWire ++
  (optField d.data (lenField 18) ++
  (optField d.filesize (varintField 24) ++
  ((d.blocksizes.map (varintField 32)).flatten ++
  (optField d.hashType (varintField 40) ++
  (optField d.fanout (varintField 48) ++
  (optField d.mode (varintField 56) ++
  optField d.mtime (fun t => msgField 66 t.getSize t.write)))))))

/-- `FlatUnixFs::get_size` (unixfs/src/pb.rs:90-101). -/
def Flat.getSize (f : Flat) : Nat :=
  (f.links.map (fun s => 1 + sizeofLen s.getSize)).sum + (1 + sizeofLen f.data.getSize)

/-- `FlatUnixFs::write_message` (unixfs/src/pb.rs:103-115): links first, then data. -/
def Flat.write (f : Flat) : Bytes :=
  (f.links.map (fun s => msgField 18 s.getSize s.write)).flatten ++
    msgField 10 f.data.getSize f.data.write

/-! ## Reading -/

/-- Tags handled by `PBLink::from_reader` (unixfs/src/pb/merkledag.rs:29-31). -/
def PBLink.known (t : Nat) : Bool := t == 10 || t == 18 || t == 24

/-- One iteration of `PBLink::from_reader` (unixfs/src/pb/merkledag.rs:28-36). -/
def PBLink.step (m : PBLink) (t : Token) : Option PBLink :=
  match t with
  | (10, .len b) => some { m with hash := some b }
  | (18, .len b) => if utf8Ok b then some { m with name := some b } else none
  | (24, .varint n) => some { m with tsize := some n }
  | _ => some m

/-- `PBLink::from_reader` (unixfs/src/pb/merkledag.rs:25-39). -/
def PBLink.parse (bs : Bytes) : Option PBLink :=
  match tokenize PBLink.known bs with
  | none => none
  | some ts => ts.foldlM PBLink.step {}

/-- Tags handled by `PBNode::from_reader` (unixfs/src/pb/merkledag.rs:73-74). -/
def PBNode.known (t : Nat) : Bool := t == 10 || t == 18

/-- One iteration of `PBNode::from_reader` (unixfs/src/pb/merkledag.rs:72-79). -/
def PBNode.step (m : PBNode) (t : Token) : Option PBNode :=
  match t with
  | (18, .len b) =>
    match PBLink.parse b with
    | none => none
    | some l => some { m with links := m.links ++ [l] }
  | (10, .len b) => some { m with data := some b }
  | _ => some m

/-- `PBNode::from_reader` (unixfs/src/pb/merkledag.rs:69-82). -/
def PBNode.parse (bs : Bytes) : Option PBNode :=
  match tokenize PBNode.known bs with
  | none => none
  | some ts => ts.foldlM PBNode.step {}

/-- Tags handled by `UnixTime::from_reader` (unixfs/src/pb/unixfs.rs:173-174). -/
def UnixTime.known (t : Nat) : Bool := t == 8 || t == 21

/-- One iteration of `UnixTime::from_reader` (unixfs/src/pb/unixfs.rs:172-179). -/
def UnixTime.step (m : UnixTime) (t : Token) : Option UnixTime :=
  match t with
  | (8, .varint n) => some { m with seconds := u64ToI64 n }
  | (21, .fixed32 b) => some { m with nanos := some (ofU32le b) }
  | _ => some m

/-- `UnixTime::from_reader` (unixfs/src/pb/unixfs.rs:169-182). -/
def UnixTime.parse (bs : Bytes) : Option UnixTime :=
  match tokenize UnixTime.known bs with
  | none => none
  | some ts => ts.foldlM UnixTime.step {}

/-- Tags handled by `Data::from_reader` (unixfs/src/pb/unixfs.rs:35-42). -/
def UnixFs.known (t : Nat) : Bool :=
  t == 8 || t == 18 || t == 24 || t == 32 || t == 40 || t == 48 || t == 56 || t == 66

/-- One iteration of `Data::from_reader` (unixfs/src/pb/unixfs.rs:34-47). `mode` is
read with `read_uint32`. -/
def UnixFs.step (m : UnixFs) (t : Token) : Option UnixFs :=
  match t with
  | (8, .varint n) => some { m with type := FsType.ofWire n }
  | (18, .len b) => some { m with data := some b }
  | (24, .varint n) => some { m with filesize := some n }
  | (32, .varint n) => some { m with blocksizes := m.blocksizes ++ [n] }
  | (40, .varint n) => some { m with hashType := some n }
  | (48, .varint n) => some { m with fanout := some n }
  | (56, .varint n) => some { m with mode := some (n % 2 ^ 32) }
  | (66, .len b) =>
    match UnixTime.parse b with
    | none => none
    | some t => some { m with mtime := some t }
  | _ => some m

/-- `Data::from_reader` (unixfs/src/pb/unixfs.rs:31-50). -/
def UnixFs.parse (bs : Bytes) : Option UnixFs :=
  match tokenize UnixFs.known bs with
  | none => none
  | some ts => ts.foldlM UnixFs.step {}

/-- `ParsingFailed` (unixfs/src/pb.rs:17-21); the payloads for recovery that are used
elsewhere (`PBNode`) are kept, the library errors are not. -/
inductive ParsingFailed where
  | invalidDagPb
  | noData (n : PBNode)
  | invalidUnixFs (n : PBNode)
deriving DecidableEq, Repr

/-- `TryFrom<&[u8]> for FlatUnixFs` (unixfs/src/pb.rs:124-144). -/
def Flat.parse (bs : Bytes) : Except ParsingFailed Flat :=
  match PBNode.parse bs with
  | none => .error .invalidDagPb
  | some node =>
    match node.data with
    | none => .error (.noData node)
    | some [] => .error (.noData node)
    | some (b :: t) =>
      match UnixFs.parse (b :: t) with
      | none => .error (.invalidUnixFs node)
      | some d => .ok { links := node.links, data := d }

end Verif.Unixfs
