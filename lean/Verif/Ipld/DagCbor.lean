import Verif.Ipld.Ipld

/-!
# dag-cbor

Model of `src/ipld/dag_cbor.rs`. Errors are not told apart (`none`). Reading recurses at most as deep
as the input is long; running out of stack is not represented.
-/

namespace Verif.Ipld

open Verif

/-! ### Numbers -/

/-- `BigEndian::write_u16` and so on: `k` bytes. -/
def beBytes : Nat → Nat → Bytes
  | 0, _ => []
  | k + 1, n => UInt8.ofNat (n / 256 ^ k % 256) :: beBytes k n

/-- `BigEndian::read_u16` and so on. -/
def beVal (bs : Bytes) : Nat := bs.foldl (fun a b => a * 256 + b.toNat) 0

/-- `read_u8` … `read_u64` (src/ipld/dag_cbor.rs:342-368). -/
def readBE (k : Nat) (bs : Bytes) : Option (Nat × Bytes) :=
  (takeExact k bs).map (fun e => (beVal e.1, e.2))

/-- `write_u8` … `write_u64` (src/ipld/dag_cbor.rs:80-125). -/
def head (major n : Nat) : Bytes :=
  if n ≤ 0x17 then [UInt8.ofNat (major * 32 + n)]
  else if n ≤ 0xFF then UInt8.ofNat (major * 32 + 24) :: beBytes 1 n
  else if n ≤ 0xFFFF then UInt8.ofNat (major * 32 + 25) :: beBytes 2 n
  else if n ≤ 0xFFFFFFFF then UInt8.ofNat (major * 32 + 26) :: beBytes 4 n
  else UInt8.ofNat (major * 32 + 27) :: beBytes 8 n

/-! ### Floats

`f64::from(y)` for an `f32` with bits `y`, and the `f32` equal to an `f64`, if there is one: the code
compares `f64::from(x as f32) == x`, which holds exactly for these. -/

def signBit (y : Nat) : Nat := y / 2 ^ 31

/-- `f64::from` on bits. (A NaN is widened without setting the quiet bit.) -/
def widen (y : Nat) : Nat :=
  let s := y / 2 ^ 31
  let e := y / 2 ^ 23 % 256
  let m := y % 2 ^ 23
  if e = 255 then s * 2 ^ 63 + 2047 * 2 ^ 52 + m * 2 ^ 29
  else if e = 0 then
    if m = 0 then s * 2 ^ 63
    else s * 2 ^ 63 + (Nat.log2 m + 874) * 2 ^ 52 + (m - 2 ^ Nat.log2 m) * 2 ^ (52 - Nat.log2 m)
  else s * 2 ^ 63 + (e + 896) * 2 ^ 52 + m * 2 ^ 29

/-- The only `f32` that could equal a finite `f64`. -/
def narrow (x : Nat) : Nat :=
  let s := x / 2 ^ 63
  let e := x / 2 ^ 52 % 2048
  let m := x % 2 ^ 52
  if e < 874 then s * 2 ^ 31
  else if e ≤ 896 then s * 2 ^ 31 + 2 ^ (e - 874) + m / 2 ^ (52 - (e - 874))
  else if e ≤ 1150 then s * 2 ^ 31 + (e - 896) * 2 ^ 23 + m / 2 ^ 29
  else s * 2 ^ 31

/-- `f64::is_finite`. -/
def finite (x : Nat) : Bool := x / 2 ^ 52 % 2048 != 2047

/-- `WriteCbor for f64` and `f32` (src/ipld/dag_cbor.rs:196-231). -/
def encFloat (x : Nat) : Bytes :=
  if finite x then
    if widen (narrow x) = x then 0xFA :: beBytes 4 (narrow x) else 0xFB :: beBytes 8 x
  else if x % 2 ^ 52 = 0 then
    if x / 2 ^ 63 = 0 then [0xF9, 0x7C, 0x00] else [0xF9, 0xFC, 0x00]
  else [0xF9, 0x7E, 0x00]

/-! ### Writing -/

/-- The order of map keys (src/ipld/dag_cbor.rs:311): shorter first, then bytewise. -/
def keyLt (a b : Bytes) : Bool := decide (a.length < b.length) || (decide (a.length = b.length) && blt a b)

/-- Puts an entry in its place. -/
def insertKey {α : Type} (e : Bytes × α) : List (Bytes × α) → List (Bytes × α)
  | [] => [e]
  | f :: l => if keyLt e.1 f.1 then e :: f :: l else f :: insertKey e l

/-- `keys.sort_by` (src/ipld/dag_cbor.rs:311). -/
def sortKeys {α : Type} (l : List (Bytes × α)) : List (Bytes × α) := l.foldr insertKey []

/-- `WriteCbor for Cid` (src/ipld/dag_cbor.rs:274-286). -/
def encLink (c : Cid) : Bytes :=
  head 6 42 ++ head 2 (c.toBytes.length + 1) ++ 0 :: c.toBytes

/-- `WriteCbor for i128` (src/ipld/dag_cbor.rs:256-272). -/
def encInt (i : Int) : Option Bytes :=
  if i < 0 then
    if (-(i + 1)).toNat < 2 ^ 64 then some (head 1 (-(i + 1)).toNat) else none
  else if i.toNat < 2 ^ 64 then some (head 0 i.toNat) else none

/-- `WriteCbor for str` (src/ipld/dag_cbor.rs:242-249). -/
def encStr (s : Bytes) : Bytes := head 3 s.length ++ s

/-- An entry of a map (src/ipld/dag_cbor.rs:313-317). -/
def encEntry (e : Bytes × Bytes) : Bytes := encStr e.1 ++ e.2

mutual
/-- `WriteCbor for Ipld` (src/ipld/dag_cbor.rs:323-337). A map writes its entries in key order
(307-319); here the values are written first and the entries put in order afterwards. -/
def enc : Ipld → Option Bytes
  | .null => some [0xF6]
  | .bool b => some [if b then 0xF5 else 0xF4]
  | .int i => encInt i
  | .float x => some (encFloat x.toNat)
  | .bytes b => some (head 2 b.length ++ b)
  | .str s => some (encStr s)
  | .list l => (encList l).map (fun bs => head 4 l.length ++ bs)
  | .map m => (encMap m).map (fun es => head 5 m.length ++ (sortKeys es).flatMap encEntry)
  | .link c => some (encLink c)

def encList : List Ipld → Option Bytes
  | [] => some []
  | x :: xs => (enc x).bind (fun a => (encList xs).map (fun b => a ++ b))

def encMap : List (Bytes × Ipld) → Option (List (Bytes × Bytes))
  | [] => some []
  | (k, x) :: xs => (enc x).bind (fun a => (encMap xs).map (fun b => (k, a) :: b))
end

/-! ### Reading -/

/-- The number in a head (the repeated matches in src/ipld/dag_cbor.rs:728-849): 0 … 0x17 is the
number itself, 0x18 … 0x1b the number of bytes it takes. -/
def readArg (info : Nat) (bs : Bytes) : Option (Nat × Bytes) :=
  if info ≤ 0x17 then some (info, bs)
  else if info = 0x18 then readBE 1 bs
  else if info = 0x19 then readBE 2 bs
  else if info = 0x1A then readBE 4 bs
  else if info = 0x1B then readBE 8 bs
  else none

/-- `read_bytes` (src/ipld/dag_cbor.rs:384-392). -/
def readBytes (len : Nat) (bs : Bytes) : Option (Bytes × Bytes) :=
  if len > 64 * 1024 then none else takeExact len bs

/-- `read_str` (src/ipld/dag_cbor.rs:394-399). -/
def readStr (len : Nat) (bs : Bytes) : Option (Bytes × Bytes) :=
  match readBytes len bs with
  | some (s, r) => if utf8Ok s then some (s, r) else none
  | none => none

/-- `String::read_cbor` (src/ipld/dag_cbor.rs:608-627). -/
def readKey : Bytes → Option (Bytes × Bytes)
  | [] => none
  | b :: bs =>
    if b.toNat / 32 = 3 then (readArg (b.toNat % 32) bs).bind (fun e => readStr e.1 e.2) else none

/-- `read_link` (src/ipld/dag_cbor.rs:425-449). -/
def readLink : Bytes → Option (Cid × Bytes)
  | tag :: ty :: len :: bs =>
    if tag = 42 ∧ ty = 0x58 ∧ len ≠ 0 then
      match readBytes len.toNat bs with
      | some (z :: c, r) => if z = 0 then (Cid.ofBytes c).map (fun c => (c, r)) else none
      | _ => none
    else none
  | _ => none

/-- `read_list` (src/ipld/dag_cbor.rs:402-411), the elements. -/
def readN (rd : Bytes → Option (Ipld × Bytes)) : Nat → Bytes → Option (List Ipld × Bytes)
  | 0, bs => some ([], bs)
  | n + 1, bs => (rd bs).bind (fun e => (readN rd n e.2).map (fun f => (e.1 :: f.1, f.2)))

/-- `read_map` (src/ipld/dag_cbor.rs:414-422). -/
def readPairs (rd : Bytes → Option (Ipld × Bytes)) :
    Nat → BMap Ipld → Bytes → Option (BMap Ipld × Bytes)
  | 0, m, bs => some (m, bs)
  | n + 1, m, bs =>
    (readKey bs).bind (fun k => (rd k.2).bind (fun e => readPairs rd n (BMap.insert m k.1 e.1) e.2))

/-- `Ipld::read_cbor` (src/ipld/dag_cbor.rs:451-463, 724-870) to a nesting depth. `size` is
`std::mem::size_of::<Ipld>()`. -/
def readCbor (size : Nat) : Nat → Bytes → Option (Ipld × Bytes)
  | 0, _ => none
  | _ + 1, [] => none
  | fuel + 1, b :: bs =>
    match b.toNat / 32 with
    | 0 => (readArg (b.toNat % 32) bs).map (fun e => (.int e.1, e.2))
    | 1 => (readArg (b.toNat % 32) bs).map (fun e => (.int (-1 - e.1), e.2))
    | 2 => (readArg (b.toNat % 32) bs).bind (fun e =>
        (readBytes e.1 e.2).map (fun f => (.bytes f.1, f.2)))
    | 3 => (readArg (b.toNat % 32) bs).bind (fun e =>
        (readStr e.1 e.2).map (fun f => (.str f.1, f.2)))
    | 4 => (readArg (b.toNat % 32) bs).bind (fun e =>
        if e.1 * size > 64 * 1024 then none
        else (readN (readCbor size fuel) e.1 e.2).map (fun f => (.list f.1, f.2)))
    | 5 => (readArg (b.toNat % 32) bs).bind (fun e =>
        (readPairs (readCbor size fuel) e.1 [] e.2).map (fun f => (.map f.1, f.2)))
    | 6 => if b = 0xD8 then (readLink bs).map (fun e => (.link e.1, e.2)) else none
    | _ =>
      if b = 0xF4 then some (.bool false, bs)
      else if b = 0xF5 then some (.bool true, bs)
      else if b = 0xF6 ∨ b = 0xF7 then some (.null, bs)
      else if b = 0xFA then (readBE 4 bs).map (fun e => (.float (UInt64.ofNat (widen e.1)), e.2))
      else if b = 0xFB then (readBE 8 bs).map (fun e => (.float (UInt64.ofNat e.1), e.2))
      else none

/-- `DagCborCodec::decode` (src/ipld/dag_cbor.rs:24-26); bytes after the document are ignored. -/
def dec (size : Nat) (bs : Bytes) : Option Ipld := (readCbor size (bs.length + 1) bs).map Prod.fst

end Verif.Ipld
