import Verif.Base.Bytes

/-!
# Content identifiers

The `cid` 0.5 and `multihash` 0.11 crates are not part of `/repo`; this is the
byte format they implement, as used by `Cid::to_bytes` and
`Cid::try_from(&[u8])` all over the repository. A multihash is kept as the pair
(code, digest) instead of its raw bytes, i.e. non-minimal varints inside of a
multihash are normalised when parsed.
-/

namespace Verif

/-- `cid::Version`. -/
inductive Version where
  | v0
  | v1
deriving DecidableEq, Repr

/-- `cid::Cid`: version, codec code, multihash code and digest. -/
structure Cid where
  version : Version
  codec : Nat
  mhCode : Nat
  digest : Bytes
deriving DecidableEq, Repr

/-- `Codec::DagProtobuf`. -/
def codecDagPb : Nat := 0x70
/-- `Codec::DagCBOR`. -/
def codecDagCbor : Nat := 0x71
/-- `Codec::Raw`. -/
def codecRaw : Nat := 0x55
/-- `Codec::DagJSON`. -/
def codecDagJson : Nat := 0x0129
/-- `multihash::Code::Sha2_256`. -/
def mhSha256 : Nat := 0x12

/-- `cid::Codec::try_from(u64)`: the codes known to cid 0.5. -/
def knownCodec (c : Nat) : Bool :=
  [0x55, 0x70, 0x71, 0x78, 0x90, 0x91, 0x92, 0x93, 0x94, 0x95, 0x96, 0x97, 0x98,
   0xb0, 0xb1, 0xc0, 0xc1, 0x0129].contains c

/-- `Multihash::as_bytes`: code, length, digest. -/
def mhBytes (code : Nat) (digest : Bytes) : Bytes :=
  writeVarint code ++ writeVarint digest.length ++ digest

/-- `MultihashRef::from_slice`: the digest must fill the input exactly. -/
def mhOfBytes (bs : Bytes) : Option (Nat × Bytes) :=
  match readVarint bs with
  | none => none
  | some (code, r) =>
    match readVarint r with
    | none => none
    | some (len, r') => if r'.length = len then some (code, r') else none

/-- `Cid::to_bytes`: version 0 is the bare multihash. -/
def Cid.toBytes (c : Cid) : Bytes :=
  match c.version with
  | .v0 => mhBytes c.mhCode c.digest
  | .v1 => writeVarint 1 ++ writeVarint c.codec ++ mhBytes c.mhCode c.digest

/-- `Version::is_v0_binary`. -/
def isV0Binary (bs : Bytes) : Bool :=
  bs.length == 34 && bs.take 2 == [0x12, 0x20]

/-- `Cid::new`: version 0 requires dag-pb and sha2-256. -/
def Cid.new (v : Version) (codec mhCode : Nat) (digest : Bytes) : Option Cid :=
  match v with
  | .v0 =>
    if codec = codecDagPb ∧ mhCode = mhSha256 then some ⟨.v0, codec, mhCode, digest⟩ else none
  | .v1 => some ⟨.v1, codec, mhCode, digest⟩

/-- `Cid::try_from(&[u8])`. -/
def Cid.ofBytes (bs : Bytes) : Option Cid :=
  if isV0Binary bs then
    match mhOfBytes bs with
    | none => none
    | some (code, d) => Cid.new .v0 codecDagPb code d
  else
    match readVarint bs with
    | none => none
    | some (v, r) =>
      match readVarint r with
      | none => none
      | some (codec, r') =>
        if knownCodec codec then
          match mhOfBytes r' with
          | none => none
          | some (code, d) =>
            if v = 0 then Cid.new .v0 codec code d
            else if v = 1 then Cid.new .v1 codec code d
            else none
        else none

/-- The cids that can be built through the `cid` crate and written to bytes that
parse back: version 0 is dag-pb with a 32 byte sha2-256 digest, version 1 has a
known codec; codes and lengths fit in 64 bits. -/
def Cid.Valid (c : Cid) : Prop :=
  (c.version = .v0 → c.codec = codecDagPb ∧ c.mhCode = mhSha256 ∧ c.digest.length = 32) ∧
  knownCodec c.codec = true ∧ c.mhCode < 2 ^ 64 ∧ c.digest.length < 2 ^ 64

instance (c : Cid) : Decidable c.Valid := by unfold Cid.Valid; infer_instance

/-- `Cid::new_v0(multihash::wrap(Sha2_256, digest))`. -/
def Cid.v0 (digest : Bytes) : Cid := ⟨.v0, codecDagPb, mhSha256, digest⟩

theorem knownCodec_lt {c : Nat} (h : knownCodec c = true) : c < 2 ^ 64 := by
  simp [knownCodec] at h
  omega

theorem mhOfBytes_mhBytes {code : Nat} {d : Bytes} (hc : code < 2 ^ 64) (hd : d.length < 2 ^ 64) :
    mhOfBytes (mhBytes code d) = some (code, d) := by
  simp only [mhOfBytes, mhBytes, List.append_assoc]
  rw [readVarint_write _ _ hc]
  simp only []
  rw [readVarint_write _ _ hd]
  simp

theorem writeVarint_small {n : Nat} (h : n < 128) : writeVarint n = [UInt8.ofNat n] := by
  rw [writeVarint]; simp [h]

theorem Cid.v0_valid (d : Bytes) (h : d.length = 32) : (Cid.v0 d).Valid := by
  refine ⟨fun _ => ⟨rfl, rfl, h⟩, rfl, by simp [Cid.v0, mhSha256], ?_⟩
  simp only [Cid.v0, h]; decide

/-- Every valid cid survives `to_bytes` / `try_from`. -/
theorem Cid.ofBytes_toBytes (c : Cid) (h : c.Valid) : Cid.ofBytes c.toBytes = some c := by
  obtain ⟨version, codec, code, d⟩ := c
  obtain ⟨h0, hk, hc, hd⟩ := h
  cases version with
  | v0 =>
    obtain ⟨rfl, rfl, hlen⟩ := h0 rfl
    simp only at hlen
    have hb : isV0Binary (mhBytes mhSha256 d) = true := by
      simp [isV0Binary, mhBytes, mhSha256, writeVarint_small, hlen]
    simp only [Cid.toBytes, Cid.ofBytes, hb, if_true]
    rw [mhOfBytes_mhBytes (by decide) hd]
    simp [Cid.new]
  | v1 =>
    simp only at hk hc hd
    have hb : isV0Binary (writeVarint 1 ++ writeVarint codec ++ mhBytes code d) = false := by
      simp only [isV0Binary, writeVarint_small (show 1 < 128 by decide)]
      cases hw : writeVarint codec with
      | nil => exact absurd hw (writeVarint_ne_nil _)
      | cons a t => simp
    simp only [Cid.toBytes, Cid.ofBytes, hb]
    simp only [List.append_assoc]
    rw [readVarint_write _ _ (by decide)]
    simp only []
    rw [readVarint_write _ _ (knownCodec_lt hk)]
    simp only [hk, if_true]
    rw [mhOfBytes_mhBytes hc hd]
    simp [Cid.new]

theorem Cid.toBytes_injective {a b : Cid} (ha : a.Valid) (hb : b.Valid)
    (h : a.toBytes = b.toBytes) : a = b := by
  have h1 := Cid.ofBytes_toBytes a ha
  have h2 := Cid.ofBytes_toBytes b hb
  rw [h, h2] at h1
  simpa using h1.symm

end Verif
