import Verif.Ipld.DagCbor
import Verif.Ipld.DagPb

/-!
# Choosing a codec, validating and storing documents

Model of `validate`, `encode_ipld` and `decode_ipld` of `src/ipld/mod.rs` and of `IpldDag::put`. The
hash functions are a parameter, and so is dag-json, whose text format is serde_json's. `size` is the
limit `dec` takes (see `Verif.Ipld.DagCbor`).
-/

namespace Verif.Ipld

open Verif

/-- What is not modelled. -/
structure Env where
  /-- `Code::digest`, by the code of the hash function -/
  hash : Nat → Bytes → Bytes
  /-- `DagJsonCodec::encode` -/
  jsonEnc : Ipld → Option Bytes
  /-- `DagJsonCodec::decode` -/
  jsonDec : Bytes → Option Ipld

/-- `BlockError` (src/ipld/mod.rs:213-240), as far as it is told apart here. -/
inductive BlockErr where
  | tooLarge (n : Nat)
  | invalidHash (code : Nat) (digest : Bytes)
  | unsupportedCodec (codec : Nat)
  | codec
  | cid
deriving DecidableEq, Repr

/-- `MAX_BLOCK_SIZE` (src/ipld/mod.rs:255). -/
def maxBlockSize : Nat := 1048576

/-- `validate` (src/ipld/mod.rs:258-267). -/
def validate (e : Env) (c : Cid) (data : Bytes) : Except BlockErr Unit :=
  if data.length > maxBlockSize then .error (.tooLarge data.length)
  else
    let hash := e.hash c.mhCode data
    if mhBytes c.mhCode hash ≠ mhBytes c.mhCode c.digest then .error (.invalidHash c.mhCode hash)
    else .ok ()

/-- `encode_ipld` (src/ipld/mod.rs:270-285). -/
def encodeIpld (e : Env) (d : Ipld) (codec : Nat) : Except BlockErr Bytes :=
  if codec = codecDagCbor then
    match enc d with
    | some bs => .ok bs
    | none => .error .codec
  else if codec = codecDagPb then
    match DagPbNode.ofIpld d with
    | .ok n => .ok n.toBytes
    | .error _ => .error .codec
  else if codec = codecDagJson then
    match e.jsonEnc d with
    | some bs => .ok bs
    | none => .error .codec
  else if codec = codecRaw then
    match d with
    | .bytes b => .ok b
    | _ => .error .codec
  else .error (.unsupportedCodec codec)

/-- `decode_ipld` (src/ipld/mod.rs:288-297). -/
def decodeIpld (e : Env) (size : Nat) (c : Cid) (data : Bytes) : Except BlockErr Ipld :=
  if c.codec = codecDagCbor then
    match dec size data with
    | some d => .ok d
    | none => .error .codec
  else if c.codec = codecDagPb then
    match DagPbNode.ofBytes data with
    | some n => .ok n.toIpld
    | none => .error .codec
  else if c.codec = codecDagJson then
    match e.jsonDec data with
    | some d => .ok d
    | none => .error .codec
  else if c.codec = codecRaw then .ok (.bytes data)
  else .error (.unsupportedCodec c.codec)

/-- `IpldDag::put` up to storing the block (src/dag.rs:177-186). -/
def dagPut (e : Env) (d : Ipld) (codec : Nat) : Except BlockErr (Cid × Bytes) :=
  match encodeIpld e d codec with
  | .error x => .error x
  | .ok bytes =>
    let version := if codec = codecDagPb then Version.v0 else .v1
    match Cid.new version codec mhSha256 (e.hash mhSha256 bytes) with
    | some c => .ok (c, bytes)
    | none => .error .cid

end Verif.Ipld
