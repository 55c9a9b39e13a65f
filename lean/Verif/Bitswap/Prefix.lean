import Verif.Base.Cid
import Verif.Repo.MemBlocks

/-!
# Cid prefixes

Model of `bitswap/src/prefix.rs`. Hash functions are a parameter: for each code `multihash::Code` knows, a
function giving the digest.
-/

namespace Verif.Bitswap

open Verif

/-- `multihash::Code`: the digest function of the codes that are supported. -/
abbrev Hashes := Nat → Option (Bytes → Bytes)

/-- `unsigned_varint::decode::u64`: a varint that is not longer than needed. -/
def readMinVarint (bs : Bytes) : Option (Nat × Bytes) :=
  match readVarint bs with
  | none => none
  | some (v, r) =>
    if 1 < bs.length - r.length ∧ (bs.take (bs.length - r.length)).getLast? = some 0 then none
    else some (v, r)

/-- `Prefix` (bitswap/src/prefix.rs:9-18). -/
structure Prefix where
  version : Version
  codec : Nat
  mhType : Nat
  mhLen : Nat
deriving DecidableEq, Repr

/-- `Version::try_from(u64)`. -/
def versionOf : Nat → Option Version
  | 0 => some .v0
  | 1 => some .v1
  | _ => none

/-- `u64::from(Version)`. -/
def versionNum : Version → Nat
  | .v0 => 0
  | .v1 => 1

/-- `Prefix::new` (bitswap/src/prefix.rs:22-44). -/
def Prefix.new (H : Hashes) (data : Bytes) : Option Prefix :=
  match readMinVarint data with
  | none => none
  | some (rawVersion, r1) =>
    match versionOf rawVersion with
    | none => none
    | some version =>
      match readMinVarint r1 with
      | none => none
      | some (codec, r2) =>
        if knownCodec codec then
          match readMinVarint r2 with
          | none => none
          | some (mhType, r3) =>
            if (H mhType).isSome then
              match readMinVarint r3 with
              | none => none
              | some (mhLen, _) => some ⟨version, codec, mhType, mhLen⟩
            else none
        else none

/-- `Prefix::to_bytes` (bitswap/src/prefix.rs:47-65). -/
def Prefix.toBytes (p : Prefix) : Bytes :=
  writeVarint (versionNum p.version) ++ writeVarint p.codec ++ writeVarint p.mhType ++ writeVarint p.mhLen

/-- `Prefix::to_cid` (bitswap/src/prefix.rs:68-74); the code was checked to be supported before. -/
def Prefix.toCid (H : Hashes) (p : Prefix) (data : Bytes) : Option Cid :=
  match H p.mhType with
  | none => none
  | some h =>
    let hash := h data
    let hash := if p.mhLen < hash.length then hash.take p.mhLen else hash
    Cid.new p.version p.codec p.mhType hash

/-- `From<&Cid> for Prefix` (bitswap/src/prefix.rs:77-86). -/
def Prefix.ofCid (c : Cid) : Prefix := ⟨c.version, c.codec, c.mhCode, c.digest.length⟩

end Verif.Bitswap
