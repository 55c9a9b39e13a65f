import Verif.Http.Block
import Verif.Props.Cat
import Verif.Props.JsonWrite
import Verif.Props.DagJson
import Verif.Props.OnlyField
import Verif.Props.RemoveBlock
import Verif.Props.RefsOptions

/-!
# C68: blocks that are put over HTTP are returned until they are removed
-/

namespace Verif.Props

open Verif Verif.Http Verif.Repo Verif.Spec

variable {σ ε : Type}

/-! ### Specification -/

/-- The codecs by name. -/
def codecNames : List (Bytes × Nat) :=
  [("dag-cbor".toUTF8.toList, 0x71), ("dag-pb".toUTF8.toList, 0x70), ("dag-json".toUTF8.toList, 0x0129),
    ("raw".toUTF8.toList, 0x55)]

/-- The hash functions of `block/put` and of `dag/put` by name. -/
def blockHashes : List (Bytes × Nat) := [("sha2-256".toUTF8.toList, 0x12), ("sha2-512".toUTF8.toList, 0x13)]
def dagHashes : List (Bytes × Nat) := blockHashes ++ [("sha3-512".toUTF8.toList, 0x14)]

/-- The decoded parameters of a query. -/
def Decoded (q : QueryEnv) (query : Bytes) (ps : List (Bytes × Bytes)) : Prop :=
  ∃ raw, Params query raw ∧ FormParams q.lossy raw ps

/-- What a query to `block/put` asks for: a codec, a hash function and a version. -/
def PutAsked (q : QueryEnv) (query : Bytes) (codec code : Nat) (v : Version) : Prop :=
  ∃ ps format mhtype version, Decoded q query ps ∧ Given some "format".toUTF8.toList ps format ∧
    Given some "mhtype".toUTF8.toList ps mhtype ∧
    Given (fun s => (parseU64 s).filter (fun n => n < 256)) "version".toUTF8.toList ps version ∧
    (format.getD "dag-pb".toUTF8.toList, codec) ∈ codecNames ∧
    (mhtype.getD "sha2-256".toUTF8.toList, code) ∈ blockHashes ∧
    ((version = none ∨ version = some 0) ∧ v = .v0 ∨ version = some 1 ∧ v = .v1)

/-- "raw" or "json". -/
def rawOrJson (s : Bytes) : Option Bool :=
  if s = "raw".toUTF8.toList then some true else if s = "json".toUTF8.toList then some false else none

/-- What a query to `dag/put` for raw input asks for: a codec and a hash function. -/
def DagAsked (q : QueryEnv) (query : Bytes) (codec code : Nat) : Prop :=
  ∃ ps format hash, Decoded q query ps ∧ Given some "format".toUTF8.toList ps format ∧
    Given some "hash".toUTF8.toList ps hash ∧ Given rawOrJson "input-enc".toUTF8.toList ps (some true) ∧
    (format.getD "dag-cbor".toUTF8.toList, codec) ∈ codecNames ∧
    (hash.getD "sha2-256".toUTF8.toList, code) ∈ dagHashes

/-- The form of the request has the data as the last field, named "data" or "file", and is at most a mebibyte. -/
def Sends (u : Upload) (data : Bytes) : Prop :=
  u.contentType = .boundary ∧ ∃ (pre : List FormField) (f : FormField), u.form = pre.map some ++ [some f] ∧
    (∀ g ∈ pre, Skipped ["data".toUTF8.toList, "file".toUTF8.toList] g) ∧
    Wanted ["data".toUTF8.toList, "file".toUTF8.toList] f ∧ HoldsValue f data ∧ data.length ≤ 1048576

/-- The block that a request to `block/put` is about. Version 0 is only for dag-pb and sha2-256. -/
def PutBlock (env : BlockEnv) (query : Option Bytes) (u : Upload) (b : Block) : Prop :=
  ∃ codec code v, PutAsked env.q (query.getD []) codec code v ∧ Sends u b.data ∧
    (v = .v0 → codec = 0x70 ∧ code = 0x12) ∧ b.cid = ⟨v, codec, code, env.hash code b.data⟩

/-- The block that a request to `dag/put` is about. The version is 0 just for dag-pb and sha2-256. -/
def DagBlock (env : BlockEnv) (query : Option Bytes) (u : Upload) (b : Block) : Prop :=
  ∃ codec code, DagAsked env.q (query.getD []) codec code ∧ Sends u b.data ∧
    b.cid = ⟨if codec = 0x70 ∧ code = 0x12 then .v0 else .v1, codec, code, env.hash code b.data⟩

/-- The store has the block afterwards, unless it had one of the same multihash, which then stays; nothing
else changes. -/
structure StoredIn (s s' : RepoState σ) (b : Block) : Prop where
  pins : s'.pins = s.pins
  removing : s'.removing = s.removing
  same : ∀ c, c.mh = b.cid.mh → s'.blocks.getBlock c = some ((s.blocks.getBlock c).getD b)
  others : ∀ c, c.mh ≠ b.cid.mh → s'.blocks.getBlock c = s.blocks.getBlock c

/-- What a query to `block/get` or `block/stat` asks for. -/
def GetAsked (q : QueryEnv) (query : Option Bytes) (arg : Bytes) (timeout : Option Nat) : Prop :=
  ∃ ps, Decoded q (query.getD []) ps ∧ Given some "arg".toUTF8.toList ps (some arg) ∧
    Given q.duration "timeout".toUTF8.toList ps timeout

/-- What a query to `block/rm` asks for. -/
def RmAsked (lossy : Bytes → Bytes) (query : Bytes) (args : List Bytes) (force quiet : Bool) : Prop :=
  ∃ raw ps f qt, Params query raw ∧ FormParams lossy raw ps ∧ args = valuesOf "arg".toUTF8.toList ps ∧
    Given readBool "force".toUTF8.toList ps f ∧ Given readBool "quiet".toUTF8.toList ps qt ∧
    force = f.getD false ∧ quiet = qt.getD false

/-- The query names the cid in an argument. -/
def RmNames (env : BlockEnv) (query : Bytes) (c : Cid) : Prop :=
  ∃ ps value, Decoded env.q query ps ∧ ("arg".toUTF8.toList, value) ∈ ps ∧ Cid.ofText env.q.mb value = some c

/-- No request removes blocks of the multihash. -/
def NotRemoved (env : BlockEnv) (mh : Mh) (reqs : List BlockReq) : Prop :=
  ∀ query, .rm (some query) ∈ reqs → ∀ c, RmNames env query c → c.mh ≠ mh

/-- Blocks that other parts of the node store have the right hash. -/
def ArrivalsFit (env : BlockEnv) (reqs : List BlockReq) : Prop :=
  ∀ b, .arrive b ∈ reqs → env.hash b.cid.mhCode b.data = b.cid.digest

/-- The request is about putting the block. -/
def Puts (env : BlockEnv) (r : BlockReq) (b : Block) : Prop :=
  (∃ query u, r = .put query u ∧ PutBlock env query u b) ∨
  (∃ query u, r = .dagPut query u ∧ DagBlock env query u b)

/-- A node without blocks. -/
def noBlocks (pins : σ) : RepoState σ := ⟨[], pins, []⟩

/-! ### Queries and forms -/

theorem decoded_iff (q : QueryEnv) (query : Bytes) (ps : List (Bytes × Bytes)) :
    Decoded q query ps ↔ formPairs q.lossy query = ps := formPairs_iff.symm

theorem codecNamed_iff (s : Bytes) (c : Nat) : codecNamed s = some c ↔ (s, c) ∈ codecNames := by
  unfold codecNamed
  have e1 : "dag-cbor".toUTF8.toList ≠ "dag-pb".toUTF8.toList := by decide +kernel
  have e2 : "dag-cbor".toUTF8.toList ≠ "dag-json".toUTF8.toList := by decide +kernel
  have e3 : "dag-cbor".toUTF8.toList ≠ "raw".toUTF8.toList := by decide +kernel
  have e4 : "dag-pb".toUTF8.toList ≠ "dag-json".toUTF8.toList := by decide +kernel
  have e5 : "dag-pb".toUTF8.toList ≠ "raw".toUTF8.toList := by decide +kernel
  have e6 : "dag-json".toUTF8.toList ≠ "raw".toUTF8.toList := by decide +kernel
  unfold codecNames
  generalize "dag-cbor".toUTF8.toList = a1 at *
  generalize "dag-pb".toUTF8.toList = a2 at *
  generalize "dag-json".toUTF8.toList = a3 at *
  generalize "raw".toUTF8.toList = a4 at *
  simp only [List.mem_cons, Prod.mk.injEq, List.not_mem_nil, or_false, codecDagCbor, codecDagPb, codecDagJson, codecRaw]
  split
  · rename_i h; subst h; simp [e1, e2, e3, eq_comm]
  · split
    · rename_i _ h; subst h; simp [Ne.symm e1, e4, e5, eq_comm]
    · split
      · rename_i _ _ h; subst h; simp [Ne.symm e2, Ne.symm e4, e6, eq_comm]
      · split
        · rename_i _ _ _ h; subst h; simp [Ne.symm e3, Ne.symm e5, Ne.symm e6, eq_comm]
        · rename_i h1 h2 h3 h4; simp [h1, h2, h3, h4]

theorem hashNamed_iff (s : Bytes) (c : Nat) : hashNamed s = some c ↔ (s, c) ∈ dagHashes := by
  unfold hashNamed
  have e1 : "sha2-256".toUTF8.toList ≠ "sha2-512".toUTF8.toList := by decide +kernel
  have e2 : "sha2-256".toUTF8.toList ≠ "sha3-512".toUTF8.toList := by decide +kernel
  have e3 : "sha2-512".toUTF8.toList ≠ "sha3-512".toUTF8.toList := by decide +kernel
  unfold dagHashes blockHashes
  generalize "sha2-256".toUTF8.toList = a1 at *
  generalize "sha2-512".toUTF8.toList = a2 at *
  generalize "sha3-512".toUTF8.toList = a3 at *
  simp only [List.cons_append, List.nil_append, List.mem_cons, Prod.mk.injEq, List.not_mem_nil, or_false, mhSha256, mhSha512, mhSha3_512]
  split
  · rename_i h; subst h; simp [e1, e2, eq_comm]
  · split
    · rename_i _ h; subst h; simp [Ne.symm e1, e3, eq_comm]
    · split
      · rename_i _ _ h; subst h; simp [Ne.symm e2, Ne.symm e3, eq_comm]
      · rename_i h1 h2 h3; simp [h1, h2, h3]

theorem digest_iff (p : BlockPutQuery) (c : Nat) :
    p.digest = .ok c ↔ (p.mhtype.getD "sha2-256".toUTF8.toList, c) ∈ blockHashes := by
  unfold BlockPutQuery.digest
  have e1 : "sha2-256".toUTF8.toList ≠ "sha2-512".toUTF8.toList := by decide +kernel
  unfold blockHashes
  generalize p.mhtype.getD "sha2-256".toUTF8.toList = s
  generalize "sha2-256".toUTF8.toList = a1 at *
  generalize "sha2-512".toUTF8.toList = a2 at *
  simp only [List.mem_cons, Prod.mk.injEq, List.not_mem_nil, or_false, mhSha256, mhSha512]
  split
  · rename_i h; subst h; simp [e1, eq_comm]
  · split
    · rename_i _ h; subst h; simp [Ne.symm e1, eq_comm]
    · rename_i h1 h2; simp [h1, h2]

theorem codec_iff (p : BlockPutQuery) (c : Nat) :
    p.codec = .ok c ↔ (p.format.getD "dag-pb".toUTF8.toList, c) ∈ codecNames := by
  unfold BlockPutQuery.codec
  rw [← codecNamed_iff]
  cases codecNamed (p.format.getD "dag-pb".toUTF8.toList) <;> simp

theorem cidVersion_iff (p : BlockPutQuery) (v : Version) :
    p.cidVersion = .ok v ↔ ((p.version = none ∨ p.version = some 0) ∧ v = .v0 ∨ p.version = some 1 ∧ v = .v1) := by
  unfold BlockPutQuery.cidVersion
  rcases p with ⟨_, _, _ | _ | _ | n⟩ <;> simp [eq_comm]

theorem value_iff (u : Upload) (data : Bytes) : u.value = .ok data ↔ Sends u data := by
  unfold Upload.value Sends
  have h := C64_accepts formNames (1024 * 1024) u.form data
  cases hc : u.contentType with
  | absent => simp
  | noBoundary => simp
  | boundary =>
    simp only [true_and]
    unfold formNames at h ⊢
    rw [show (1048576 : Nat) = 1024 * 1024 from rfl, ← h]
    cases onlyNamed ["data".toUTF8.toList, "file".toUTF8.toList] (1024 * 1024) u.form <;> simp

theorem cidNew_iff (v : Version) (codec code : Nat) (d : Bytes) (c : Cid) :
    Cid.new v codec code d = some c ↔ (v = .v0 → codec = 0x70 ∧ code = 0x12) ∧ c = ⟨v, codec, code, d⟩ := by
  unfold Cid.new
  cases v with
  | v0 =>
    show (if codec = 0x70 ∧ code = 0x12 then _ else _) = _ ↔ _
    by_cases h : codec = 0x70 ∧ code = 0x12
    · rw [if_pos h]; simp [h, eq_comm]
    · rw [if_neg h]; simp [h]
  | v1 => simp [eq_comm]

/-- The block of a request to `block/put`. -/
def putBlock? (env : BlockEnv) (query : Option Bytes) (u : Upload) : Option Block :=
  match blockPutQuery env.q (query.getD []) with
  | .error _ => none
  | .ok p =>
    match blockToPut env p u with
    | .error _ => none
    | .ok b => some b

theorem blockToPut_iff (env : BlockEnv) (p : BlockPutQuery) (u : Upload) (b : Block) :
    blockToPut env p u = .ok b ↔ ∃ codec code v, p.codec = .ok codec ∧ p.digest = .ok code ∧ p.cidVersion = .ok v ∧
      u.value = .ok b.data ∧ Cid.new v codec code (env.hash code b.data) = some b.cid := by
  unfold blockToPut
  cases hu : u.value with
  | error e => simp
  | ok data =>
    cases hd : p.digest with
    | error e => simp
    | ok code =>
      cases hv : p.cidVersion with
      | error e => simp
      | ok v =>
        cases hc : p.codec with
        | error e => simp
        | ok codec =>
          simp only []
          constructor
          · intro h
            cases hn : Cid.new v codec code (env.hash code data) with
            | none => rw [hn] at h; cases h
            | some cid =>
              rw [hn] at h
              cases h
              exact ⟨codec, code, v, rfl, rfl, rfl, rfl, hn⟩
          · rintro ⟨_, _, _, h1, h2, h3, h4, h5⟩
            cases h1; cases h2; cases h3; cases h4
            rw [h5]

theorem blockPutQuery_iff (q : QueryEnv) (query : Bytes) (p : BlockPutQuery) :
    blockPutQuery q query = .ok p ↔ ∃ ps, Decoded q query ps ∧ Given some "format".toUTF8.toList ps p.format ∧
      Given some "mhtype".toUTF8.toList ps p.mhtype ∧
      Given (fun s => (parseU64 s).filter (fun n => n < 256)) "version".toUTF8.toList ps p.version := by
  simp only [decoded_iff, ← queryField_iff]
  unfold blockPutQuery
  rw [show kFormatField = "format".toUTF8.toList from rfl, show kMhtype = "mhtype".toUTF8.toList from rfl,
    show kVersion = "version".toUTF8.toList from rfl, show parseU8 = (fun s => (parseU64 s).filter (fun n => n < 256)) from rfl]
  simp only []
  constructor
  · intro h
    refine ⟨_, rfl, ?_⟩
    split at h
    · rename_i h1 h2 h3
      cases h
      exact ⟨h1, h2, h3⟩
    · cases h
  · rintro ⟨_, rfl, h1, h2, h3⟩
    rw [h1, h2, h3]

theorem putBlock?_iff (env : BlockEnv) (query : Option Bytes) (u : Upload) (b : Block) :
    putBlock? env query u = some b ↔ PutBlock env query u b := by
  unfold putBlock? PutBlock
  constructor
  · intro h
    cases hp : blockPutQuery env.q (query.getD []) with
    | error e => rw [hp] at h; cases h
    | ok p =>
      rw [hp] at h
      simp only [] at h
      cases hb : blockToPut env p u with
      | error e => rw [hb] at h; cases h
      | ok b' =>
        rw [hb] at h
        cases h
        obtain ⟨codec, code, v, h1, h2, h3, h4, h5⟩ := (blockToPut_iff ..).mp hb
        obtain ⟨ps, g1, g2, g3, g4⟩ := (blockPutQuery_iff ..).mp hp
        obtain ⟨h6, h7⟩ := (cidNew_iff ..).mp h5
        exact ⟨codec, code, v, ⟨ps, p.format, p.mhtype, p.version, g1, g2, g3, g4, (codec_iff ..).mp h1,
          (digest_iff ..).mp h2, (cidVersion_iff ..).mp h3⟩, (value_iff ..).mp h4, h6, h7⟩
  · rintro ⟨codec, code, v, ⟨ps, f, m, n, g1, g2, g3, g4, g5, g6, g7⟩, h4, h6, h7⟩
    have hp := (blockPutQuery_iff env.q (query.getD []) ⟨f, m, n⟩).mpr ⟨ps, g1, g2, g3, g4⟩
    rw [hp]
    have hb := (blockToPut_iff env ⟨f, m, n⟩ u b).mpr ⟨codec, code, v, (codec_iff ..).mpr g5, (digest_iff ..).mpr g6,
      (cidVersion_iff ..).mpr g7, (value_iff ..).mpr h4, (cidNew_iff ..).mpr ⟨h6, h7⟩⟩
    simp only [hb]

/-- The block of a request to `dag/put`. -/
def dagBlock? (env : BlockEnv) (query : Option Bytes) (u : Upload) : Option Block :=
  match dagPutQuery env.q (query.getD []) with
  | .error _ => none
  | .ok (format, hash, raw) =>
    if u.contentType = .absent then none
    else if raw then
      match dagToPut env format hash u with
      | .error _ => none
      | .ok b => some b
    else none

theorem dagPutQuery_iff (q : QueryEnv) (query : Bytes) (f h : Option Bytes) (raw : Bool) :
    dagPutQuery q query = .ok (f, h, raw) ↔ ∃ ps enc, Decoded q query ps ∧ Given some "format".toUTF8.toList ps f ∧
      Given some "hash".toUTF8.toList ps h ∧ Given rawOrJson "input-enc".toUTF8.toList ps enc ∧ raw = enc.getD false := by
  simp only [decoded_iff, ← queryField_iff]
  unfold dagPutQuery
  rw [show kFormatField = "format".toUTF8.toList from rfl, show kHash = "hash".toUTF8.toList from rfl,
    show kInputEnc = "input-enc".toUTF8.toList from rfl, show parseEncoding = rawOrJson from rfl]
  simp only []
  constructor
  · intro h
    split at h
    · rename_i enc h1 h2 h3
      cases h
      exact ⟨_, enc, rfl, h1, h2, h3, rfl⟩
    · cases h
  · rintro ⟨_, enc, rfl, h1, h2, h3, rfl⟩
    rw [h1, h2, h3]

theorem dagToPut_iff (env : BlockEnv) (f h : Option Bytes) (u : Upload) (b : Block) :
    dagToPut env f h u = .ok b ↔ ∃ codec code, (f.getD "dag-cbor".toUTF8.toList, codec) ∈ codecNames ∧
      (h.getD "sha2-256".toUTF8.toList, code) ∈ dagHashes ∧ Sends u b.data ∧
      b.cid = ⟨if codec = 0x70 ∧ code = 0x12 then .v0 else .v1, codec, code, env.hash code b.data⟩ := by
  simp only [← codecNamed_iff, ← hashNamed_iff, ← value_iff]
  unfold dagToPut
  cases hc : codecNamed (f.getD "dag-cbor".toUTF8.toList) with
  | none => simp
  | some codec =>
    cases hh : hashNamed (h.getD "sha2-256".toUTF8.toList) with
    | none => simp
    | some code =>
      cases hu : u.value with
      | error e => simp
      | ok data =>
        simp only []
        have key : (if codec = codecDagPb ∧ code = mhSha256 then Cid.v0 (env.hash code data) else ⟨.v1, codec, code, env.hash code data⟩) =
            (⟨if codec = 0x70 ∧ code = 0x12 then .v0 else .v1, codec, code, env.hash code data⟩ : Cid) := by
          by_cases h : codec = 0x70 ∧ code = 0x12
          · rw [if_pos (show codec = codecDagPb ∧ code = mhSha256 from h), if_pos h]; obtain ⟨rfl, rfl⟩ := h; rfl
          · rw [if_neg (show ¬ (codec = codecDagPb ∧ code = mhSha256) from h), if_neg h]
        constructor
        · intro h
          cases h
          exact ⟨codec, code, rfl, rfl, rfl, key⟩
        · rintro ⟨_, _, h1, h2, h3, h4⟩
          cases h1; cases h2; cases h3
          rw [key]
          cases b
          simp only at h4 ⊢
          rw [h4]

theorem dagBlock?_iff (env : BlockEnv) (query : Option Bytes) (u : Upload) (b : Block) :
    dagBlock? env query u = some b ↔ DagBlock env query u b := by
  unfold dagBlock? DagBlock
  constructor
  · intro h
    cases hp : dagPutQuery env.q (query.getD []) with
    | error e => rw [hp] at h; cases h
    | ok p =>
      obtain ⟨f, hs, raw⟩ := p
      rw [hp] at h
      simp only [] at h
      split at h
      · cases h
      · split at h
        · rename_i hraw
          cases hb : dagToPut env f hs u with
          | error e => rw [hb] at h; cases h
          | ok b' =>
            rw [hb] at h
            cases h
            obtain ⟨codec, code, h1, h2, h3, h4⟩ := (dagToPut_iff ..).mp hb
            obtain ⟨ps, enc, g1, g2, g3, g4, g5⟩ := (dagPutQuery_iff ..).mp hp
            have he : enc = some true := by
              rw [hraw] at g5
              cases enc with
              | none => simp at g5
              | some x => simp at g5; rw [← g5]
            exact ⟨codec, code, ⟨ps, f, hs, g1, g2, g3, he ▸ g4, h1, h2⟩, h3, h4⟩
        · cases h
  · rintro ⟨codec, code, ⟨ps, f, hs, g1, g2, g3, g4, g5, g6⟩, h3, h4⟩
    have hp := (dagPutQuery_iff env.q (query.getD []) f hs true).mpr ⟨ps, some true, g1, g2, g3, g4, rfl⟩
    rw [hp]
    have hb := (dagToPut_iff env f hs u b).mpr ⟨codec, code, g5, g6, h3, h4⟩
    have hc : u.contentType ≠ .absent := by rw [h3.1]; simp
    simp only [hc, if_false, if_true, hb]

/-! ### Putting -/

theorem storedIn_store (s : RepoState σ) (b : Block) (a : Bool) : StoredIn s (storeBlock s b a).1 b := by
  refine ⟨rfl, rfl, fun c hc => ?_, fun c hc => ?_⟩
  · simp only [storeBlock, MemBlocks.put, MemBlocks.getBlock, hc]
    cases hg : AMap.get s.blocks b.cid.mh with
    | some v => simp [hg]
    | none => simp [AMap.get_set_eq]
  · simp only [storeBlock, MemBlocks.put, MemBlocks.getBlock]
    cases hg : AMap.get s.blocks b.cid.mh with
    | some v => rfl
    | none => simp only [AMap.get_set_ne _ _ hc]

theorem store_told (s : RepoState σ) (b : Block) (a : Bool) :
    (storeBlock s b a).2 = true ↔ a = true ∨ s.blocks.getBlock b.cid ≠ none := by
  simp only [storeBlock, MemBlocks.put, MemBlocks.getBlock]
  cases hg : AMap.get s.blocks b.cid.mh <;> simp [announceOk]

theorem blockPut_eq (env : BlockEnv) (s : RepoState σ) (query : Option Bytes) (u : Upload) :
    (∀ b, putBlock? env query u = some b → blockPut env s query u = ((storeBlock s b u.announced).1,
      if (storeBlock s b u.announced).2 then .ok (keySize b.cid.toText b.data.length).write else .failed .announcing)) ∧
    (putBlock? env query u = none → (blockPut env s query u).1 = s ∧
      ∃ e, (blockPut env s query u).2 = .failed e) := by
  unfold putBlock? blockPut
  cases hp : blockPutQuery env.q (query.getD []) with
  | error e => exact ⟨fun b h => (by cases h), fun _ => ⟨rfl, _, rfl⟩⟩
  | ok p =>
    simp only []
    cases hb : blockToPut env p u with
    | ok b => exact ⟨fun b' h => (by cases h; rfl), fun h => (by cases h)⟩
    | error e => exact ⟨fun b h => (by cases h), fun _ => ⟨rfl, _, rfl⟩⟩

theorem dagPut_eq (env : BlockEnv) (s : RepoState σ) (query : Option Bytes) (u : Upload) :
    (∀ b, dagBlock? env query u = some b → dagPut env s query u = ((storeBlock s b u.announced).1,
      if (storeBlock s b u.announced).2 then .ok (cidObject b.cid).write else .failed .announcing)) ∧
    (dagBlock? env query u = none → (dagPut env s query u).1 = s ∧ ∃ e, (dagPut env s query u).2 = .failed e) := by
  unfold dagBlock? dagPut
  cases hp : dagPutQuery env.q (query.getD []) with
  | error e => exact ⟨fun b h => (by cases h), fun _ => ⟨rfl, _, rfl⟩⟩
  | ok p =>
    obtain ⟨f, hs, raw⟩ := p
    simp only []
    split
    · exact ⟨fun b h => (by cases h), fun _ => ⟨rfl, _, rfl⟩⟩
    · split
      · cases hb : dagToPut env f hs u with
        | ok b => exact ⟨fun b' h => (by cases h; rfl), fun h => by cases h⟩
        | error e => exact ⟨fun b h => (by cases h), fun _ => ⟨rfl, _, rfl⟩⟩
      · exact ⟨fun b h => (by cases h), fun _ => ⟨rfl, _, rfl⟩⟩

theorem readJson_write (j : Json) (h : Writable j) (hd : nesting j ≤ 127) (ho : ∀ n, j ≠ .num n) :
    readJson j.write = some (j, []) := by
  have := C65_write j h [] (fun n hn => absurd hn (ho n))
  rw [List.append_nil, if_pos hd] at this
  exact this

theorem readJson_keySize (key : Bytes) (n : Nat) (h : utf8Ok key = true) :
    readJson (keySize key n).write = some (.obj [("Key".toUTF8.toList, .str key), ("Size".toUTF8.toList, .num ⟨false, decimal n, []⟩)], []) := by
  have e : keySize key n = .obj [("Key".toUTF8.toList, .str key), ("Size".toUTF8.toList, .num ⟨false, decimal n, []⟩)] := by
    unfold keySize JNum.ofInt
    have : ¬ ((n : Int) < 0) := by omega
    simp [this]
  rw [e]
  refine readJson_write _ ?_ (by simp [nesting, nestingMap]) (by simp)
  have hn := ofInt_number n
  have : JNum.ofInt n = ⟨false, decimal n, []⟩ := by
    unfold JNum.ofInt
    have : ¬ ((n : Int) < 0) := by omega
    simp [this]
  rw [this] at hn
  exact ⟨by decide +kernel, h, by decide +kernel, hn, trivial⟩

theorem utf8Ok_toText (c : Cid) : utf8Ok c.toText = true := utf8Ok_ascii (toText_ascii c)

theorem readJson_cidObject (c : Cid) :
    readJson (cidObject c).write = some (.obj [("Cid".toUTF8.toList, .obj [("/".toUTF8.toList, .str c.toText)])], []) := by
  refine readJson_write _ ?_ (by simp [cidObject, nesting, nestingMap]) (by simp [cidObject])
  exact ⟨by decide +kernel, ⟨by decide +kernel, utf8Ok_toText c, trivial⟩, trivial⟩

/-- **C68**: a request to `block/put` is accepted just if its query and its form are well-formed, the version
fits the codec and the hash function, and the block was there or it can be announced. The answer then gives
the cid of the data and its size. -/
theorem C68_put (env : BlockEnv) (s : RepoState σ) (query : Option Bytes) (u : Upload) :
    ((∃ body, (blockPut env s query u).2 = .ok body) ↔
      ∃ b, PutBlock env query u b ∧ (u.announced = true ∨ s.blocks.getBlock b.cid ≠ none)) ∧
    ∀ body b, PutBlock env query u b → (blockPut env s query u).2 = .ok body →
      readJson body = some (.obj [("Key".toUTF8.toList, .str b.cid.toText),
        ("Size".toUTF8.toList, .num ⟨false, decimal b.data.length, []⟩)], []) := by
  obtain ⟨h1, h2⟩ := blockPut_eq env s query u
  refine ⟨⟨?_, ?_⟩, ?_⟩
  · rintro ⟨body, hb⟩
    cases hp : putBlock? env query u with
    | none =>
      obtain ⟨-, e, he⟩ := h2 hp
      rw [he] at hb; cases hb
    | some b =>
      refine ⟨b, (putBlock?_iff ..).mp hp, ?_⟩
      rw [h1 b hp] at hb
      rw [← store_told]
      cases ht : (storeBlock s b u.announced).2
      · simp [ht] at hb
      · rfl
  · rintro ⟨b, hb, ht⟩
    rw [h1 b ((putBlock?_iff ..).mpr hb), if_pos ((store_told ..).mpr ht)]
    exact ⟨_, rfl⟩
  · intro body b hb ho
    rw [h1 b ((putBlock?_iff ..).mpr hb)] at ho
    simp only [] at ho
    split at ho
    · cases ho
      exact readJson_keySize _ _ (utf8Ok_toText _)
    · cases ho

/-- **C68**: a request to `block/put` that is about a block stores it, even when announcing it fails and the
answer is an error; any other changes nothing. -/
theorem C68_put_stores (env : BlockEnv) (s : RepoState σ) (query : Option Bytes) (u : Upload) :
    (∀ b, PutBlock env query u b → StoredIn s (blockPut env s query u).1 b) ∧
    ((∀ b, ¬ PutBlock env query u b) → (blockPut env s query u).1 = s) := by
  obtain ⟨h1, h2⟩ := blockPut_eq env s query u
  refine ⟨fun b hb => ?_, fun hn => ?_⟩
  · rw [h1 b ((putBlock?_iff ..).mpr hb)]
    exact storedIn_store s b u.announced
  · cases hp : putBlock? env query u with
    | none => exact (h2 hp).1
    | some b => exact absurd ((putBlock?_iff ..).mp hp) (hn b)

/-- **C68**: the same for `dag/put`, whatever the data are: they are not decoded. -/
theorem C68_dag_put (env : BlockEnv) (s : RepoState σ) (query : Option Bytes) (u : Upload) :
    ((∃ body, (dagPut env s query u).2 = .ok body) ↔
      ∃ b, DagBlock env query u b ∧ (u.announced = true ∨ s.blocks.getBlock b.cid ≠ none)) ∧
    (∀ body b, DagBlock env query u b → (dagPut env s query u).2 = .ok body →
      readJson body = some (.obj [("Cid".toUTF8.toList, .obj [("/".toUTF8.toList, .str b.cid.toText)])], [])) ∧
    (∀ b, DagBlock env query u b → StoredIn s (dagPut env s query u).1 b) ∧
    ((∀ b, ¬ DagBlock env query u b) → (dagPut env s query u).1 = s) := by
  obtain ⟨h1, h2⟩ := dagPut_eq env s query u
  refine ⟨⟨?_, ?_⟩, ?_, fun b hb => ?_, fun hn => ?_⟩
  · rintro ⟨body, hb⟩
    cases hp : dagBlock? env query u with
    | none =>
      obtain ⟨-, e, he⟩ := h2 hp
      rw [he] at hb; cases hb
    | some b =>
      refine ⟨b, (dagBlock?_iff ..).mp hp, ?_⟩
      rw [h1 b hp] at hb
      rw [← store_told]
      cases ht : (storeBlock s b u.announced).2
      · simp [ht] at hb
      · rfl
  · rintro ⟨b, hb, ht⟩
    rw [h1 b ((dagBlock?_iff ..).mpr hb), if_pos ((store_told ..).mpr ht)]
    exact ⟨_, rfl⟩
  · intro body b hb ho
    rw [h1 b ((dagBlock?_iff ..).mpr hb)] at ho
    simp only [] at ho
    split at ho
    · cases ho
      exact readJson_cidObject _
    · cases ho
  · rw [h1 b ((dagBlock?_iff ..).mpr hb)]
    exact storedIn_store s b u.announced
  · cases hp : dagBlock? env query u with
    | none => exact (h2 hp).1
    | some b => exact absurd ((dagBlock?_iff ..).mp hp) (hn b)

/-! ### Getting -/

theorem getStatQuery_iff (q : QueryEnv) (query : Option Bytes) (arg : Bytes) (t : Option Nat) :
    getStatQuery q (query.getD []) = .ok (arg, t) ↔ GetAsked q query arg t := by
  unfold GetAsked
  simp only [decoded_iff, ← queryField_iff, ← kArg_eq, ← kTimeout_eq]
  unfold getStatQuery
  simp only []
  constructor
  · intro h
    refine ⟨_, rfl, ?_⟩
    split at h
    · rename_i h1 h2
      cases h
      exact ⟨h1, h2⟩
    · cases h
  · rintro ⟨_, rfl, h1, h2⟩
    rw [h1, h2]

/-- **C68**: `block/get` answers with the bytes of a block just if the query is well-formed, its argument is a
cid, the timeout does not elapse and there is a block of the same multihash; `block/stat` then gives the
argument and the size. -/
theorem C68_get (env : BlockEnv) (s : RepoState σ) (query : Option Bytes) (elapses : Bool) :
    (∀ body, blockGet env s query elapses = .ok body ↔ ∃ arg timeout c b, GetAsked env.q query arg timeout ∧
      Cid.ofText env.q.mb arg = some c ∧ (elapses = true → timeout = none) ∧ s.blocks.getBlock c = some b ∧ body = b.data) ∧
    ((∀ x, utf8Ok (env.q.lossy x) = true) → ∀ arg timeout body, GetAsked env.q query arg timeout →
      blockGet env s query elapses = .ok body → ∃ text, blockStat env s query elapses = .ok text ∧
        readJson text = some (.obj [("Key".toUTF8.toList, .str arg),
          ("Size".toUTF8.toList, .num ⟨false, decimal body.length, []⟩)], [])) := by
  have key : ∀ arg b, lookup env s query elapses = .ok (arg, b) ↔ ∃ timeout c, GetAsked env.q query arg timeout ∧
      Cid.ofText env.q.mb arg = some c ∧ (elapses = true → timeout = none) ∧ s.blocks.getBlock c = some b := by
    intro arg b
    simp only [← getStatQuery_iff]
    unfold lookup
    cases hq : getStatQuery env.q (query.getD []) with
    | error e => simp
    | ok p =>
      obtain ⟨arg', t⟩ := p
      simp only []
      cases hc : Cid.ofText env.q.mb arg' with
      | none =>
        simp only [reduceCtorEq, false_iff, not_exists]
        rintro t' c ⟨h1, h2, -⟩
        cases h1
        rw [hc] at h2; cases h2
      | some c =>
        simp only []
        split
        · rename_i ht
          simp only [reduceCtorEq, false_iff, not_exists]
          rintro t' c' ⟨h1, h2, h3, -⟩
          cases h1
          simp only [Bool.and_eq_true] at ht
          rw [h3 ht.2] at ht
          simp at ht
        · rename_i ht
          have ht' : elapses = true → t = none := by
            intro he
            cases t with
            | none => rfl
            | some x => simp [he] at ht
          cases hb : s.blocks.getBlock c with
          | none =>
            simp only [reduceCtorEq, false_iff, not_exists]
            rintro t' c' ⟨h1, h2, -, h4⟩
            cases h1
            rw [hc] at h2; cases h2
            rw [hb] at h4; cases h4
          | some b' =>
            simp only [Except.ok.injEq, Prod.mk.injEq]
            constructor
            · rintro ⟨rfl, rfl⟩
              exact ⟨t, c, ⟨rfl, rfl⟩, hc, ht', hb⟩
            · rintro ⟨t', c', ⟨rfl, rfl⟩, h2, -, h4⟩
              rw [hc] at h2; cases h2
              rw [hb] at h4; cases h4
              exact ⟨rfl, rfl⟩
  have hg : ∀ body, blockGet env s query elapses = .ok body ↔ ∃ arg b, lookup env s query elapses = .ok (arg, b) ∧ body = b.data := by
    intro body
    unfold blockGet
    cases hl : lookup env s query elapses with
    | error r =>
      simp only [reduceCtorEq, false_and, exists_false, iff_false]
      rintro rfl
      unfold lookup at hl
      repeat' (split at hl)
      all_goals cases hl
    | ok p =>
      obtain ⟨a, b⟩ := p
      simp only [BlockReply.ok.injEq, Except.ok.injEq, Prod.mk.injEq]
      constructor
      · rintro rfl; exact ⟨a, b, ⟨rfl, rfl⟩, rfl⟩
      · rintro ⟨_, _, ⟨rfl, rfl⟩, rfl⟩; rfl
  refine ⟨fun body => ?_, ?_⟩
  · rw [hg]
    constructor
    · rintro ⟨arg, b, h, rfl⟩
      obtain ⟨t, c, h1, h2, h3, h4⟩ := (key _ _).mp h
      exact ⟨arg, t, c, b, h1, h2, h3, h4, rfl⟩
    · rintro ⟨arg, t, c, b, h1, h2, h3, h4, rfl⟩
      exact ⟨arg, b, (key _ _).mpr ⟨t, c, h1, h2, h3, h4⟩, rfl⟩
  · intro hl arg t body ha hb
    obtain ⟨arg', b, h, rfl⟩ := (hg body).mp hb
    obtain ⟨t', c, h1, -⟩ := (key _ _).mp h
    have e := (getStatQuery_iff ..).mpr h1
    rw [(getStatQuery_iff ..).mpr ha] at e
    cases e
    refine ⟨(keySize arg b.data.length).write, by simp only [blockStat, h], readJson_keySize _ _ ?_⟩
    obtain ⟨ps, ⟨raw, -, hf⟩, ⟨value, ⟨pre, post, rfl, -⟩, hv⟩, -⟩ := ha
    cases hv
    have : ∀ raw ps : List (Bytes × Bytes), FormParams env.q.lossy raw ps → ∀ p ∈ ps, utf8Ok p.2 = true := by
      intro raw ps hf
      induction hf with
      | nil => simp
      | cons h1 h2 _ ih =>
        intro p hp
        rcases List.mem_cons.mp hp with rfl | hp
        · obtain ⟨u, -, rfl⟩ := h2; exact hl u
        · exact ih p hp
    exact this _ _ hf ("arg".toUTF8.toList, arg) (by simp)

/-! ### Removing -/

theorem given_cons_ne {α : Type} {parse : Bytes → Option α} {name k v : Bytes} {ps : List (Bytes × Bytes)} {x : Option α}
    (h : k ≠ name) : Given parse name ((k, v) :: ps) x ↔ Given parse name ps x := by
  rw [← queryField_iff, ← queryField_iff]
  unfold queryField fieldOnce
  rw [List.filter_cons_of_neg (by simpa using h)]

theorem given_cons_eq {α : Type} {parse : Bytes → Option α} {name v : Bytes} {ps : List (Bytes × Bytes)} {x : Option α} :
    Given parse name ((name, v) :: ps) x ↔ ∃ y, parse v = some y ∧ x = some y ∧ ∀ p ∈ ps, p.1 ≠ name := by
  cases x with
  | none => simp [Given]
  | some x =>
    constructor
    · rintro ⟨value, ⟨pre, post, he, hn⟩, hp⟩
      cases pre with
      | nil =>
        simp only [List.nil_append, List.cons.injEq, Prod.mk.injEq, true_and] at he
        obtain ⟨rfl, rfl⟩ := he
        exact ⟨x, hp, rfl, by simpa using hn⟩
      | cons a pre =>
        simp only [List.cons_append, List.cons.injEq] at he
        exact absurd (by rw [← he.1]) (hn a (by simp))
    · rintro ⟨y, hp, hx, hn⟩
      cases hx
      exact ⟨v, ⟨[], ps, rfl, by simpa using hn⟩, hp⟩

/-- What a variable is at the end, if it is `x` now. -/
def Later (name : Bytes) (ps : List (Bytes × Bytes)) : Option Bool → Option Bool → Prop
  | none, y => Given readBool name ps y
  | some x, y => y = some x ∧ ∀ p ∈ ps, p.1 ≠ name

theorem later_cons_ne {name k v : Bytes} {ps : List (Bytes × Bytes)} {x y : Option Bool} (h : k ≠ name) :
    Later name ((k, v) :: ps) x y ↔ Later name ps x y := by
  cases x with
  | none => exact given_cons_ne h
  | some x => simp [Later, h]

theorem later_cons_eq {name v : Bytes} {ps : List (Bytes × Bytes)} {x y : Option Bool} :
    Later name ((name, v) :: ps) x y ↔
      ∃ z, RefsOptions.setOnce name x (RefsOptions.orErr (.boolean name v) (RefsOptions.parseBool v)) = .ok z ∧ Later name ps z y := by
  rw [parseBool_eq]
  cases x with
  | some x =>
    simp only [RefsOptions.setOnce, reduceCtorEq, false_and, exists_false, iff_false]
    rintro ⟨-, h⟩
    exact h (name, v) (by simp) rfl
  | none =>
    simp only [Later, given_cons_eq]
    cases hb : readBool v with
    | none => simp [RefsOptions.setOnce, RefsOptions.orErr]
    | some b => simp [RefsOptions.setOnce, RefsOptions.orErr]

theorem rmLoop_iff (ps : List (Bytes × Bytes)) (args a' : List Bytes) (f q f' q' : Option Bool) :
    rmLoop args f q ps = .ok (a', f', q') ↔ a' = args ++ valuesOf kArg ps ∧ Later kForce ps f f' ∧ Later kQuiet ps q q' := by
  have n1 : kArg ≠ kForce := by decide +kernel
  have n2 : kArg ≠ kQuiet := by decide +kernel
  have n3 : kForce ≠ kQuiet := by decide +kernel
  induction ps generalizing args f q with
  | nil =>
    have h0 : ∀ n x y, Later n [] x y ↔ y = x := by
      intro n x y
      cases x with
      | none => cases y <;> simp [Later, Given, GivenOnce]
      | some x => simp [Later]
    simp only [rmLoop, Except.ok.injEq, Prod.mk.injEq, h0, valuesOf, List.filter_nil, List.map_nil, List.append_nil]
    constructor
    · rintro ⟨rfl, rfl, rfl⟩; exact ⟨rfl, rfl, rfl⟩
    · rintro ⟨rfl, rfl, rfl⟩; exact ⟨rfl, rfl, rfl⟩
  | cons p ps ih =>
    obtain ⟨k, v⟩ := p
    have hv : valuesOf kArg ((k, v) :: ps) = (if k = kArg then [v] else []) ++ valuesOf kArg ps := by
      unfold valuesOf
      by_cases h : k = kArg <;> simp [h]
    rw [hv]
    unfold rmLoop
    by_cases h1 : k = kArg
    · subst h1
      rw [if_pos rfl, if_pos rfl, later_cons_ne n1, later_cons_ne n2, ← List.append_assoc]
      exact ih (args ++ [v]) f q
    · rw [if_neg h1, if_neg h1, List.nil_append]
      by_cases h2 : k = kForce
      · subst h2
        rw [if_pos rfl, later_cons_eq, later_cons_ne n3]
        cases hs : RefsOptions.setOnce kForce f (RefsOptions.orErr (.boolean kForce v) (RefsOptions.parseBool v)) with
        | error e => simp
        | ok z => simp [ih]
      · rw [if_neg h2]
        by_cases h3 : k = kQuiet
        · subst h3
          rw [if_pos rfl, later_cons_eq, later_cons_ne (Ne.symm n3)]
          cases hs : RefsOptions.setOnce kQuiet q (RefsOptions.orErr (.boolean kQuiet v) (RefsOptions.parseBool v)) with
          | error e => simp
          | ok z => simp [ih]
        · rw [if_neg h3, later_cons_ne h2, later_cons_ne h3]; exact ih args f q

/-- **C68**: the options of `block/rm` are accepted just if "force" and "quiet" are given at most once and are
booleans; the arguments are all those given, in order; other parameters do not matter. -/
theorem C68_rm_options (lossy : Bytes → Bytes) (query : Bytes) (o : RmOptions) :
    rmOptions lossy query = .ok o ↔ RmAsked lossy query o.args o.force o.quiet := by
  unfold rmOptions RmAsked
  rw [← kArg_eq, show "force".toUTF8.toList = kForce from rfl, show "quiet".toUTF8.toList = kQuiet from rfl]
  constructor
  · intro h
    cases hl : rmLoop [] none none (formPairs lossy query) with
    | error e => rw [hl] at h; cases h
    | ok p =>
      obtain ⟨a, f, q⟩ := p
      rw [hl] at h
      cases h
      obtain ⟨h1, h2, h3⟩ := (rmLoop_iff ..).mp hl
      obtain ⟨raw, g1, g2⟩ := formPairs_iff.mp (rfl : formPairs lossy query = _)
      exact ⟨raw, _, f, q, g1, g2, by simpa using h1, h2, h3, rfl, rfl⟩
  · rintro ⟨raw, ps, f, q, g1, g2, h1, h2, h3, h4, h5⟩
    rw [formPairs_iff.mpr ⟨raw, g1, g2⟩]
    have := (rmLoop_iff ps [] o.args none none f q).mpr ⟨by simpa using h1, h2, h3⟩
    rw [this]
    cases o
    simp only at h4 h5 ⊢
    rw [h4, h5]

theorem parseCids_ok (mb : UInt8 → Bytes → Option Bytes) (args : List Bytes) (cs : List Cid) :
    parseCids mb args = .ok cs ↔ args.map (Cid.ofText mb) = cs.map some := by
  induction args generalizing cs with
  | nil => cases cs <;> simp [parseCids]
  | cons a args ih =>
    unfold parseCids
    cases hc : Cid.ofText mb a with
    | none => cases cs <;> simp [hc]
    | some c =>
      simp only [List.map_cons, hc]
      cases hr : parseCids mb args with
      | error e =>
        simp only [reduceCtorEq, false_iff]
        intro h
        cases cs with
        | nil => simp at h
        | cons c' cs =>
          simp only [List.map_cons, List.cons.injEq] at h
          rw [(ih cs).mpr h.2] at hr
          cases hr
      | ok cs' =>
        have h := (ih cs').mp hr
        simp only [Except.ok.injEq]
        constructor
        · rintro rfl; simp [h]
        · intro h'
          cases cs with
          | nil => simp at h'
          | cons c' cs =>
            simp only [List.map_cons, List.cons.injEq, Option.some.injEq] at h'
            have := (ih cs).mpr h'.2
            rw [hr] at this
            cases this
            rw [h'.1]

/-- The error for the cid at a place in the list of those to be removed: it is pinned, or there is no block of
its multihash, or an earlier one in the list had the same and was not pinned. -/
inductive RmError (pinned : Cid → Bool) (there : Cid → Prop) (earlier : List Cid) (c : Cid) : Bytes → Prop
  | pinned : pinned c = true → RmError pinned there earlier c "block to remove is pinned".toUTF8.toList
  | missing : pinned c = false → (¬ there c ∨ ∃ d ∈ earlier, d.mh = c.mh ∧ pinned d = false) →
      RmError pinned there earlier c "block not found".toUTF8.toList
  | fine : pinned c = false → there c → (∀ d ∈ earlier, d.mh = c.mh → pinned d = true) → RmError pinned there earlier c []

theorem removeAll_spec (api : PinApi σ ε) (s0 : RepoState σ) (cs pre : List Cid) (s : RepoState σ)
    (hp : s.pins = s0.pins) (hr : s.removing = s0.removing)
    (hb : ∀ d, s.blocks.getBlock d = if ∃ c ∈ pre, c.mh = d.mh ∧ api.isPinned s0.pins c = false then none else s0.blocks.getBlock d) :
    (removeAll api s cs).1.pins = s0.pins ∧ (removeAll api s cs).1.removing = s0.removing ∧
    (∀ d, (removeAll api s cs).1.blocks.getBlock d =
      if ∃ c ∈ pre ++ cs, c.mh = d.mh ∧ api.isPinned s0.pins c = false then none else s0.blocks.getBlock d) ∧
    (removeAll api s cs).2.length = cs.length ∧
    ∀ i c, cs[i]? = some c → ∃ r, (removeAll api s cs).2[i]? = some r ∧
      RmError (api.isPinned s0.pins) (fun c => s0.blocks.getBlock c ≠ none) (pre ++ cs.take i) c (removeError r) := by
  induction cs generalizing pre s with
  | nil =>
    simp only [removeAll, List.append_nil]
    exact ⟨hp, hr, hb, rfl, by simp⟩
  | cons c cs ih =>
    have step : (s.removeBlock api c).1.pins = s0.pins ∧ (s.removeBlock api c).1.removing = s0.removing ∧
        (∀ d, (s.removeBlock api c).1.blocks.getBlock d =
          if ∃ x ∈ pre ++ [c], x.mh = d.mh ∧ api.isPinned s0.pins x = false then none else s0.blocks.getBlock d) ∧
        RmError (api.isPinned s0.pins) (fun c => s0.blocks.getBlock c ≠ none) pre c (removeError (s.removeBlock api c).2) := by
      cases hpin : api.isPinned s.pins c with
      | true =>
        rw [(C29_remove_block api s c).1 hpin]
        rw [hp] at hpin
        refine ⟨hp, hr, fun d => ?_, .pinned hpin⟩
        rw [hb d]
        have : (∃ x ∈ pre ++ [c], x.mh = d.mh ∧ api.isPinned s0.pins x = false) ↔
            ∃ x ∈ pre, x.mh = d.mh ∧ api.isPinned s0.pins x = false := by
          constructor
          · rintro ⟨x, hx, h⟩
            rcases List.mem_append.mp hx with hx | hx
            · exact ⟨x, hx, h⟩
            · simp only [List.mem_singleton] at hx; subst hx
              rw [hpin] at h; simp at h
          · rintro ⟨x, hx, h⟩
            exact ⟨x, by simp [hx], h⟩
        simp only [this]
      | false =>
        obtain ⟨h1, h2, h3, h4⟩ := (C29_remove_block api s c).2 hpin
        rw [hp] at hpin
        refine ⟨h1.trans hp, h2.trans hr, fun d => ?_, ?_⟩
        · rw [h3 d]
          by_cases hd : d.mh = c.mh
          · rw [if_pos hd, if_pos ⟨c, by simp, hd.symm, hpin⟩]
          · rw [if_neg hd, hb d]
            have : (∃ x ∈ pre ++ [c], x.mh = d.mh ∧ api.isPinned s0.pins x = false) ↔
                ∃ x ∈ pre, x.mh = d.mh ∧ api.isPinned s0.pins x = false := by
              constructor
              · rintro ⟨x, hx, h⟩
                rcases List.mem_append.mp hx with hx | hx
                · exact ⟨x, hx, h⟩
                · simp only [List.mem_singleton] at hx; subst hx
                  exact absurd h.1.symm hd
              · rintro ⟨x, hx, h⟩
                exact ⟨x, by simp [hx], h⟩
            simp only [this]
        · rw [h4, hb c]
          by_cases he : ∃ x ∈ pre, x.mh = c.mh ∧ api.isPinned s0.pins x = false
          · rw [if_pos he]
            exact .missing hpin (Or.inr he)
          · rw [if_neg he]
            cases hg : s0.blocks.getBlock c with
            | none => exact .missing hpin (Or.inl (by simpa using hg))
            | some b =>
              refine .fine hpin (by simp [hg]) (fun d hd hm => ?_)
              cases hx : api.isPinned s0.pins d with
              | true => rfl
              | false => exact absurd ⟨d, hd, hm, hx⟩ he
    obtain ⟨s1, s2, s3, s4⟩ := step
    obtain ⟨i1, i2, i3, i4, i5⟩ := ih (pre ++ [c]) _ s1 s2 s3
    simp only [removeAll]
    refine ⟨i1, i2, ?_, by simp [i4], ?_⟩
    · rw [show pre ++ c :: cs = (pre ++ [c]) ++ cs by simp]
      exact i3
    · intro i c' hi
      cases i with
      | zero =>
        simp only [List.getElem?_cons_zero, Option.some.injEq] at hi
        subst hi
        exact ⟨_, rfl, by simpa using s4⟩
      | succ i =>
        obtain ⟨r, h1, h2⟩ := i5 i c' (by simpa using hi)
        exact ⟨r, by simpa using h1, by simpa using h2⟩

/-- A line of the answer to `block/rm`. -/
def RmLine (error : Bytes) (c : Cid) (line : Bytes) : Prop :=
  ∃ text, line = text ++ [10] ∧ readJson text = some (.obj [("Error".toUTF8.toList, .str error), ("Hash".toUTF8.toList, .str c.toText)], [])

theorem readJson_rmResponse (e : Bytes) (c : Cid) (he : utf8Ok e = true) :
    readJson (rmResponse e c.toText).write =
      some (.obj [("Error".toUTF8.toList, .str e), ("Hash".toUTF8.toList, .str c.toText)], []) := by
  refine readJson_write _ ?_ (by simp [rmResponse, nesting, nestingMap]) (by simp [rmResponse])
  exact ⟨by decide +kernel, he, by decide +kernel, utf8Ok_toText c, trivial⟩

/-- **C68**: a request to `block/rm` whose arguments all are cids removes exactly the blocks of the multihashes
of those that are not pinned, and changes nothing else. The answer has one line for each argument, in order,
with the cid and with the error: the cid is pinned, or there was no block for it any more. With `quiet` there
is nothing in the answer, and with `force` no error. -/
theorem C68_rm (env : BlockEnv) (api : PinApi σ ε) (s : RepoState σ) (query : Bytes) (args : List Bytes)
    (force quiet : Bool) (cs : List Cid) (h : RmAsked env.q.lossy query args force quiet)
    (hc : args.map (Cid.ofText env.q.mb) = cs.map some) :
    (blockRm env api s (some query)).1.pins = s.pins ∧
    (∀ d, (blockRm env api s (some query)).1.blocks.getBlock d =
      if ∃ c ∈ cs, c.mh = d.mh ∧ api.isPinned s.pins c = false then none else s.blocks.getBlock d) ∧
    ∃ lines, (blockRm env api s (some query)).2 = .chunks lines ∧ lines.length = cs.length ∧
      ∀ i c, cs[i]? = some c → ∃ line, lines[i]? = some line ∧ (quiet = true → line = []) ∧
        (quiet = false → ∃ e, RmError (api.isPinned s.pins) (fun c => s.blocks.getBlock c ≠ none) (cs.take i) c e ∧
          RmLine (if force then [] else e) c line) := by
  have ho := (C68_rm_options env.q.lossy query ⟨args, force, quiet⟩).mpr h
  have hp := (parseCids_ok env.q.mb args cs).mpr hc
  have he : blockRm env api s (some query) = ((removeAll api s cs).1,
      .chunks ((cs.zip (removeAll api s cs).2).map (fun p => rmChunk force quiet p.1 p.2))) := by
    simp only [blockRm, ho, hp]
  obtain ⟨i1, i2, i3, i4, i5⟩ := removeAll_spec api s cs [] s rfl rfl (by simp)
  rw [he]
  refine ⟨i1, by simpa using i3, _, rfl, by simp [i4], ?_⟩
  intro i c hi
  obtain ⟨r, h1, h2⟩ := i5 i c hi
  refine ⟨rmChunk force quiet c r, ?_, ?_, ?_⟩
  · have hz : (cs.zip (removeAll api s cs).2)[i]? = some (c, r) := List.getElem?_zip_eq_some.mpr ⟨hi, h1⟩
    rw [List.getElem?_map, hz]
    rfl
  · rintro rfl; rfl
  · rintro rfl
    refine ⟨removeError r, by simpa using h2, _, rfl, readJson_rmResponse _ _ ?_⟩
    cases force
    · cases r <;> first | rfl | (simp only [Bool.false_eq_true, if_false, removeError]; decide +kernel)
    · rfl

/-- **C68**: if an argument is not a cid, nothing is removed. -/
theorem C68_rm_refused (env : BlockEnv) (api : PinApi σ ε) (s : RepoState σ) (query : Bytes) (args : List Bytes)
    (force quiet : Bool) (h : RmAsked env.q.lossy query args force quiet) (a : Bytes) (ha : a ∈ args)
    (hn : Cid.ofText env.q.mb a = none) :
    (blockRm env api s (some query)).1 = s ∧ ∃ e, (blockRm env api s (some query)).2 = .failed e := by
  have ho := (C68_rm_options env.q.lossy query ⟨args, force, quiet⟩).mpr h
  have : ∃ e, parseCids env.q.mb args = .error e := by
    cases hp : parseCids env.q.mb args with
    | error e => exact ⟨e, rfl⟩
    | ok cs =>
      have := (parseCids_ok ..).mp hp
      have hm : Cid.ofText env.q.mb a ∈ cs.map some := by rw [← this]; exact List.mem_map_of_mem ha
      rw [hn] at hm
      simp at hm
  obtain ⟨e, he⟩ := this
  have : blockRm env api s (some query) = (s, .failed (.cidText e)) := by simp only [blockRm, ho, he]
  rw [this]
  exact ⟨rfl, _, rfl⟩

/-- **C68** (a finding): with `force`, what is answered for a pinned block, which stays, is what is answered
for one that is removed. -/
theorem C68_force (env : BlockEnv) (api : PinApi σ ε) (s : RepoState σ) (query arg : Bytes) (c : Cid)
    (h : RmAsked env.q.lossy query [arg] true false) (hc : Cid.ofText env.q.mb arg = some c) :
    (blockRm env api s (some query)).2 = .chunks [(rmResponse [] c.toText).write ++ [10]] ∧
    (api.isPinned s.pins c = true → (blockRm env api s (some query)).1 = s) := by
  have ho := (C68_rm_options env.q.lossy query ⟨[arg], true, false⟩).mpr h
  have hp : parseCids env.q.mb [arg] = .ok [c] := by simp [parseCids, hc]
  simp only [blockRm, ho, hp, removeAll]
  refine ⟨by simp [rmChunk], fun hpin => ?_⟩
  rw [(C29_remove_block api s c).1 hpin]

/-! ### Histories -/

theorem fits_store {env : BlockEnv} {s s' : RepoState σ} {b : Block} (h : StoredIn s s' b)
    (hs : ∀ c x, s.blocks.getBlock c = some x → env.hash c.mhCode x.data = c.digest)
    (hb : env.hash b.cid.mhCode b.data = b.cid.digest) :
    ∀ c x, s'.blocks.getBlock c = some x → env.hash c.mhCode x.data = c.digest := by
  intro c x hx
  by_cases hm : c.mh = b.cid.mh
  · rw [h.same c hm] at hx
    cases hg : s.blocks.getBlock c with
    | some y =>
      rw [hg] at hx
      cases hx
      exact hs c y hg
    | none =>
      rw [hg] at hx
      cases hx
      simp only [Cid.mh, Prod.mk.injEq] at hm
      rw [hm.1, hm.2]
      exact hb
  · rw [h.others c hm] at hx
    exact hs c x hx

theorem putBlock_fits {env : BlockEnv} {query : Option Bytes} {u : Upload} {b : Block} (h : PutBlock env query u b) :
    env.hash b.cid.mhCode b.data = b.cid.digest := by
  obtain ⟨codec, code, v, -, -, -, h⟩ := h
  rw [h]

theorem dagBlock_fits {env : BlockEnv} {query : Option Bytes} {u : Upload} {b : Block} (h : DagBlock env query u b) :
    env.hash b.cid.mhCode b.data = b.cid.digest := by
  obtain ⟨codec, code, -, -, h⟩ := h
  rw [h]

theorem rm_cases (env : BlockEnv) (api : PinApi σ ε) (s : RepoState σ) (query : Option Bytes) :
    (blockRm env api s query).1 = s ∨ ∃ (q : Bytes) (cs : List Cid), query = some q ∧ (∀ c ∈ cs, RmNames env q c) ∧
      ∀ d, (blockRm env api s query).1.blocks.getBlock d =
        if ∃ c ∈ cs, c.mh = d.mh ∧ api.isPinned s.pins c = false then none else s.blocks.getBlock d := by
  cases query with
  | none => left; rfl
  | some q =>
    cases ho : rmOptions env.q.lossy q with
    | error e => left; simp only [blockRm, ho]
    | ok o =>
      cases hp : parseCids env.q.mb o.args with
      | error e => left; simp only [blockRm, ho, hp]
      | ok cs =>
        right
        have hr := (C68_rm_options ..).mp ho
        have hm := (parseCids_ok ..).mp hp
        refine ⟨q, cs, rfl, ?_, (C68_rm env api s q o.args o.force o.quiet cs hr hm).2.1⟩
        intro c hc
        have : some c ∈ o.args.map (Cid.ofText env.q.mb) := by rw [hm]; exact List.mem_map_of_mem hc
        obtain ⟨value, hv, hx⟩ := List.mem_map.mp this
        obtain ⟨raw, ps, f, qt, g1, g2, g3, -⟩ := hr
        refine ⟨ps, value, ⟨raw, g1, g2⟩, ?_, hx⟩
        rw [g3] at hv
        unfold valuesOf at hv
        obtain ⟨p, hp, rfl⟩ := List.mem_map.mp hv
        obtain ⟨hp, hk⟩ := List.mem_filter.mp hp
        have hk : p.1 = "arg".toUTF8.toList := by simpa using hk
        rw [← hk]
        exact hp

theorem serve_fits (env : BlockEnv) (api : PinApi σ ε) (s : RepoState σ) (r : BlockReq)
    (hs : ∀ c x, s.blocks.getBlock c = some x → env.hash c.mhCode x.data = c.digest)
    (ha : ∀ b, r = .arrive b → env.hash b.cid.mhCode b.data = b.cid.digest) :
    ∀ c x, (serveBlock env api s r).1.blocks.getBlock c = some x → env.hash c.mhCode x.data = c.digest := by
  cases r with
  | put query u =>
    simp only [serveBlock]
    cases hp : putBlock? env query u with
    | none => rw [((blockPut_eq env s query u).2 hp).1]; exact hs
    | some b =>
      have hb := (putBlock?_iff ..).mp hp
      exact fits_store ((C68_put_stores env s query u).1 b hb) hs (putBlock_fits hb)
  | dagPut query u =>
    simp only [serveBlock]
    cases hp : dagBlock? env query u with
    | none => rw [((dagPut_eq env s query u).2 hp).1]; exact hs
    | some b =>
      have hb := (dagBlock?_iff ..).mp hp
      exact fits_store ((C68_dag_put env s query u).2.2.1 b hb) hs (dagBlock_fits hb)
  | get query e => exact hs
  | stat query e => exact hs
  | pin op => exact hs
  | arrive b => exact fits_store (storedIn_store s b true) hs (ha b rfl)
  | rm query =>
    simp only [serveBlock]
    rcases rm_cases env api s query with h | ⟨q, cs, -, -, h⟩
    · rw [h]; exact hs
    · intro c x hx
      rw [h c] at hx
      split at hx
      · cases hx
      · exact hs c x hx

theorem serves_fits (env : BlockEnv) (api : PinApi σ ε) (reqs : List BlockReq) (s : RepoState σ)
    (hs : ∀ c x, s.blocks.getBlock c = some x → env.hash c.mhCode x.data = c.digest) (ha : ArrivalsFit env reqs) :
    ∀ c x, (serveBlocks env api s reqs).blocks.getBlock c = some x → env.hash c.mhCode x.data = c.digest := by
  induction reqs generalizing s with
  | nil => exact hs
  | cons r reqs ih =>
    refine ih _ (serve_fits env api s r hs (fun b hb => ha b (by simp [hb]))) (fun b hb => ha b (by simp [hb]))

theorem noBlocks_fits (env : BlockEnv) (pins : σ) : ∀ c x, (noBlocks pins).blocks.getBlock c = some x →
    env.hash c.mhCode x.data = c.digest := by
  intro c x h
  simp [noBlocks, MemBlocks.getBlock, AMap.get] at h

/-- **C68**: after any history of requests, what `block/get` answers with has the hash that was asked for. -/
theorem C68_integrity (env : BlockEnv) (api : PinApi σ ε) (pins : σ) (reqs : List BlockReq) (ha : ArrivalsFit env reqs)
    (query : Option Bytes) (elapses : Bool) (arg : Bytes) (timeout : Option Nat) (c : Cid) (body : Bytes)
    (hq : GetAsked env.q query arg timeout) (hc : Cid.ofText env.q.mb arg = some c)
    (hb : blockGet env (serveBlocks env api (noBlocks pins) reqs) query elapses = .ok body) :
    env.hash c.mhCode body = c.digest := by
  obtain ⟨arg', t', c', b, h1, h2, -, h4, rfl⟩ := ((C68_get ..).1 body).mp hb
  have e := (getStatQuery_iff ..).mpr h1
  rw [(getStatQuery_iff ..).mpr hq] at e
  cases e
  rw [hc] at h2
  cases h2
  exact serves_fits env api reqs _ (noBlocks_fits env pins) ha c b h4

theorem stays (env : BlockEnv) (api : PinApi σ ε) (c : Cid) (x : Block) (reqs : List BlockReq) (s : RepoState σ)
    (h : s.blocks.getBlock c = some x) (hn : NotRemoved env c.mh reqs) :
    (serveBlocks env api s reqs).blocks.getBlock c = some x := by
  have keep : ∀ {s' : RepoState σ} {b : Block}, StoredIn s s' b → s'.blocks.getBlock c = some x := by
    intro s' b hst
    by_cases hm : c.mh = b.cid.mh
    · rw [hst.same c hm, h]; rfl
    · rw [hst.others c hm, h]
  induction reqs generalizing s with
  | nil => exact h
  | cons r reqs ih =>
    have hx : (serveBlock env api s r).1.blocks.getBlock c = some x := by
      cases r with
      | put query u =>
        simp only [serveBlock]
        cases hp : putBlock? env query u with
        | none => rw [((blockPut_eq env s query u).2 hp).1]; exact h
        | some b => exact keep ((C68_put_stores env s query u).1 b ((putBlock?_iff ..).mp hp))
      | dagPut query u =>
        simp only [serveBlock]
        cases hp : dagBlock? env query u with
        | none => rw [((dagPut_eq env s query u).2 hp).1]; exact h
        | some b => exact keep ((C68_dag_put env s query u).2.2.1 b ((dagBlock?_iff ..).mp hp))
      | get query e => exact h
      | stat query e => exact h
      | pin op => exact h
      | arrive b => exact keep (storedIn_store s b true)
      | rm query =>
        simp only [serveBlock]
        rcases rm_cases env api s query with h' | ⟨q, cs, rfl, hm, h'⟩
        · rw [h']; exact h
        · rw [h' c, if_neg]
          · exact h
          · rintro ⟨d, hd, he, -⟩
            exact hn q (by simp) d (hm d hd) he
    refine ih _ hx (fun q hq => hn q (by simp [hq])) ?_
    intro s' b hst
    by_cases hm : c.mh = b.cid.mh
    · rw [hst.same c hm, hx]; rfl
    · rw [hst.others c hm, hx]

/-- **C68**: once a block was put, `block/get` answers with its bytes for every cid of its multihash, as long as no
request to remove it comes and no other data have the same hash: whatever else happens. It does not matter
that announcing the block may have failed. -/
theorem C68_returned (env : BlockEnv) (api : PinApi σ ε) (pins : σ) (before after : List BlockReq) (r : BlockReq)
    (b : Block) (hr : Puts env r b) (ha : ArrivalsFit env before) (hn : NotRemoved env b.cid.mh after)
    (hcoll : ∀ x, env.hash b.cid.mhCode x = env.hash b.cid.mhCode b.data → x = b.data)
    (query : Option Bytes) (elapses : Bool) (arg : Bytes) (timeout : Option Nat) (c : Cid)
    (hq : GetAsked env.q query arg timeout) (hc : Cid.ofText env.q.mb arg = some c) (hm : c.mh = b.cid.mh)
    (ht : elapses = true → timeout = none) :
    blockGet env (serveBlocks env api (noBlocks pins) (before ++ r :: after)) query elapses = .ok b.data := by
  have hfit : env.hash b.cid.mhCode b.data = b.cid.digest := by
    rcases hr with ⟨q, u, -, h⟩ | ⟨q, u, -, h⟩
    · exact putBlock_fits h
    · exact dagBlock_fits h
  have h0 := serves_fits env api before _ (noBlocks_fits env pins) ha
  have hrun : serveBlocks env api (noBlocks pins) (before ++ r :: after) =
      serveBlocks env api (serveBlock env api (serveBlocks env api (noBlocks pins) before) r).1 after := by
    simp [serveBlocks, List.foldl_append]
  generalize serveBlocks env api (noBlocks pins) before = s at *
  have hst : StoredIn s (serveBlock env api s r).1 b := by
    rcases hr with ⟨q, u, rfl, h⟩ | ⟨q, u, rfl, h⟩
    · exact (C68_put_stores env s q u).1 b h
    · exact (C68_dag_put env s q u).2.2.1 b h
  have hx : ∃ x, (serveBlock env api s r).1.blocks.getBlock c = some x ∧ x.data = b.data := by
    rw [hst.same c hm]
    refine ⟨_, rfl, ?_⟩
    cases hg : s.blocks.getBlock c with
    | none => rfl
    | some y =>
      have := h0 c y hg
      simp only [Cid.mh, Prod.mk.injEq] at hm
      apply hcoll
      rw [hfit, ← hm.1, ← hm.2]
      exact this
  obtain ⟨x, hx, hd⟩ := hx
  have := stays env api c x after _ hx (hm ▸ hn)
  rw [hrun]
  exact ((C68_get ..).1 _).mpr ⟨arg, timeout, c, x, hq, hc, ht, this, hd.symm⟩

/-- **C68**: a client that asks with the key it was given, escaping what must be, makes a well-formed request. -/
theorem C68_url (q : QueryEnv) (hl : ∀ s, utf8Ok s = true → q.lossy s = s) (esc : UInt8 → Bool) (h1 : esc 37 = true)
    (h2 : esc 38 = true) (h3 : esc 43 = true) (text : Bytes) (hu : utf8Ok text = true) :
    GetAsked q (some (catUrl esc text none)) text none := by
  have hh : ∀ n < 16, percentEncode.hexDigit n ≠ 38 := by decide +kernel
  have ha : 38 ∉ percentEncode esc text := percentEncode_avoids esc 38 h2 (by decide) hh text
  have e1 : "arg=".toUTF8.toList = "arg".toUTF8.toList ++ [61] := by decide +kernel
  have n1 : 38 ∉ "arg".toUTF8.toList := by decide +kernel
  have n2 : 61 ∉ "arg".toUTF8.toList := by decide +kernel
  have f1 : FormText q.lossy "arg".toUTF8.toList "arg".toUTF8.toList :=
    formText_plain hl (by decide +kernel) (by decide +kernel) (by decide +kernel)
  have f2 := formText_encoded hl h1 h3 hu
  have k3 : "arg".toUTF8.toList ≠ "timeout".toUTF8.toList := by decide +kernel
  refine ⟨[("arg".toUTF8.toList, text)], ⟨[("arg".toUTF8.toList, percentEncode esc text)], ?_, .cons f1 f2 .nil⟩,
    ⟨text, ⟨[], [], rfl, by simp⟩, rfl⟩, ?_⟩
  · have := Params.pair (s := []) n1 n2 ha (Or.inl rfl) .nil
    simp only [Option.getD_some]
    unfold catUrl
    rw [e1]
    simpa using this
  · intro p hpm
    simp only [List.mem_singleton] at hpm
    subst hpm
    exact k3

/-- The hash functions have the lengths they should have. -/
def HashLengths (hash : Nat → Bytes → Bytes) : Prop :=
  ∀ x, (hash 0x12 x).length = 32 ∧ (hash 0x13 x).length = 64 ∧ (hash 0x14 x).length = 64

theorem codecNames_known {s : Bytes} {c : Nat} (h : (s, c) ∈ codecNames) : knownCodec c = true := by
  unfold codecNames at h
  simp only [List.mem_cons, Prod.mk.injEq, List.not_mem_nil, or_false] at h
  rcases h with ⟨-, rfl⟩ | ⟨-, rfl⟩ | ⟨-, rfl⟩ | ⟨-, rfl⟩ <;> decide

theorem dagHashes_codes {s : Bytes} {c : Nat} (h : (s, c) ∈ dagHashes) : c = 0x12 ∨ c = 0x13 ∨ c = 0x14 := by
  unfold dagHashes blockHashes at h
  simp only [List.cons_append, List.nil_append, List.mem_cons, Prod.mk.injEq, List.not_mem_nil, or_false] at h
  rcases h with ⟨-, rfl⟩ | ⟨-, rfl⟩ | ⟨-, rfl⟩ <;> simp

theorem cid_valid {hash : Nat → Bytes → Bytes} (hl : HashLengths hash) {v : Version} {codec code : Nat} {data : Bytes}
    (hk : knownCodec codec = true) (hc : code = 0x12 ∨ code = 0x13 ∨ code = 0x14)
    (hv : v = .v0 → codec = 0x70 ∧ code = 0x12) : (⟨v, codec, code, hash code data⟩ : Cid).Valid := by
  have hcl : code < 2 ^ 64 := by rcases hc with rfl | rfl | rfl <;> decide
  have hdl : (hash code data).length < 2 ^ 64 := by
    have h64 : (64 : Nat) < 2 ^ 64 := by decide
    obtain ⟨h1, h2, h3⟩ := hl data
    rcases hc with rfl | rfl | rfl
    · rw [h1]; exact Nat.lt_trans (by decide) h64
    · rw [h2]; exact h64
    · rw [h3]; exact h64
  refine ⟨fun hv' => ?_, hk, hcl, hdl⟩
  obtain ⟨rfl, rfl⟩ := hv hv'
  exact ⟨rfl, rfl, (hl data).1⟩

theorem puts_valid {env : BlockEnv} (hl : HashLengths env.hash) {r : BlockReq} {b : Block} (h : Puts env r b) : b.cid.Valid := by
  rcases h with ⟨q, u, -, codec, code, v, ⟨_, _, _, _, -, -, -, -, h1, h2, -⟩, -, h3, h4⟩ |
    ⟨q, u, -, codec, code, ⟨_, _, _, -, -, -, -, h1, h2⟩, -, h4⟩
  · rw [h4]
    exact cid_valid hl (codecNames_known h1) (dagHashes_codes (List.mem_append.mpr (Or.inl h2))) h3
  · rw [h4]
    refine cid_valid hl (codecNames_known h1) (dagHashes_codes h2) (fun hv => ?_)
    split at hv
    · assumption
    · cases hv

/-- **C68**: whoever puts a block gets a key that gives the bytes back, byte by byte, whatever happens in between
short of removing it. -/
theorem C68_round_trip (env : BlockEnv) (hlossy : ∀ s, utf8Ok s = true → env.q.lossy s = s) (hl : HashLengths env.hash)
    (api : PinApi σ ε) (pins : σ) (before after : List BlockReq) (query : Option Bytes) (u : Upload) (body : Bytes)
    (ha : ArrivalsFit env before)
    (hb : (blockPut env (serveBlocks env api (noBlocks pins) before) query u).2 = .ok body)
    (esc : UInt8 → Bool) (h1 : esc 37 = true) (h2 : esc 38 = true) (h3 : esc 43 = true) :
    ∃ key data, Sends u data ∧
      readJson body = some (.obj [("Key".toUTF8.toList, .str key), ("Size".toUTF8.toList, .num ⟨false, decimal data.length, []⟩)], []) ∧
      ∃ c, Cid.ofText env.q.mb key = some c ∧ c.toText = key ∧
        ((∀ x, env.hash c.mhCode x = env.hash c.mhCode data → x = data) → NotRemoved env c.mh after → ∀ elapses,
          blockGet env (serveBlocks env api (noBlocks pins) (before ++ .put query u :: after)) (some (catUrl esc key none)) elapses =
            .ok data) := by
  obtain ⟨b, hp, -⟩ := (C68_put ..).1.mp ⟨body, hb⟩
  have hj := (C68_put ..).2 body b hp hb
  have hputs : Puts env (.put query u) b := Or.inl ⟨query, u, rfl, hp⟩
  have hv := puts_valid hl hputs
  have ht := Cid.ofText_toText env.q.mb b.cid hv
  have hsend : Sends u b.data := by obtain ⟨_, _, _, -, h, -⟩ := hp; exact h
  refine ⟨b.cid.toText, b.data, hsend, hj, b.cid, ht, rfl, fun hc hn elapses => ?_⟩
  exact C68_returned env api pins before after (.put query u) b hputs ha hn hc _ elapses b.cid.toText none b.cid
    (C68_url env.q hlossy esc h1 h2 h3 _ (utf8Ok_toText _)) ht rfl (fun _ => rfl)

/-- **C68**: what is removed and was not pinned is not returned any more, until it is stored again. -/
theorem C68_removed (env : BlockEnv) (api : PinApi σ ε) (s : RepoState σ) (query : Bytes) (args : List Bytes)
    (force quiet : Bool) (cs : List Cid) (h : RmAsked env.q.lossy query args force quiet)
    (hc : args.map (Cid.ofText env.q.mb) = cs.map some) (c : Cid) (hm : c ∈ cs) (hp : api.isPinned s.pins c = false)
    (get : Option Bytes) (elapses : Bool) (arg : Bytes) (timeout : Option Nat) (d : Cid) (hq : GetAsked env.q get arg timeout)
    (hd : Cid.ofText env.q.mb arg = some d) (he : d.mh = c.mh) :
    ∀ body, blockGet env (blockRm env api s (some query)).1 get elapses ≠ .ok body := by
  intro body hb
  obtain ⟨arg', t', c', b, h1, h2, -, h4, rfl⟩ := ((C68_get ..).1 body).mp hb
  have e := (getStatQuery_iff ..).mpr h1
  rw [(getStatQuery_iff ..).mpr hq] at e
  cases e
  rw [hd] at h2
  cases h2
  rw [(C68_rm env api s query args force quiet cs h hc).2.1 d, if_pos ⟨c, hm, he.symm, hp⟩] at h4
  cases h4

/-- **C68**: every answer that is an error is a JSON object with a message, and has the status 400 for a query
that is not well-formed, 501 for input in JSON, and 500 otherwise. -/
theorem C68_errors (libText : BlockFail → Bytes) (hl : ∀ e, utf8Ok (libText e) = true) (e : BlockFail) :
    ∃ status body message, httpAnswer libText (.failed e) = some (status, body) ∧
      (status = 400 ↔ e = .badQuery) ∧ (status = 501 ↔ e = .notImplemented) ∧ (status = 400 ∨ status = 501 ∨ status = 500) ∧
      readJson body = some (.obj [("Message".toUTF8.toList, .str message), ("Code".toUTF8.toList, .num ⟨false, [48], []⟩),
        ("Type".toUTF8.toList, .str "error".toUTF8.toList)], []) := by
  refine ⟨_, _, failText libText e, rfl, ?_, ?_, ?_, ?_⟩
  · cases e <;> simp [failStatus]
  · cases e <;> simp [failStatus]
  · cases e <;> simp [failStatus]
  · have e0 : JNum.ofInt 0 = ⟨false, [48], []⟩ := by decide +kernel
    have hn := ofInt_number 0
    rw [e0] at hn
    have : messageResponse (failText libText e) = .obj [("Message".toUTF8.toList, .str (failText libText e)),
        ("Code".toUTF8.toList, .num ⟨false, [48], []⟩), ("Type".toUTF8.toList, .str "error".toUTF8.toList)] := by
      simp only [messageResponse, e0]
    rw [this]
    refine readJson_write _ ?_ (by simp [nesting, nestingMap]) (by simp)
    refine ⟨by decide +kernel, ?_, by decide +kernel, hn, by decide +kernel, ?_, trivial⟩
    rotate_left
    · show utf8Ok "error".toUTF8.toList = true
      decide +kernel
    show utf8Ok (failText libText e) = true
    unfold failText
    split <;> first | exact hl _ | decide +kernel

/-! ### Examples -/

/-- A toy hash: the first bytes, padded. -/
def exHashOf (code : Nat) (x : Bytes) : Bytes := (x ++ List.replicate 64 0).take (if code = 0x12 then 32 else 64)

def exBlockEnv : BlockEnv := ⟨exQueryEnv, exHashOf⟩

example : HashLengths exBlockEnv.hash := by
  intro x
  simp [exBlockEnv, exHashOf]

/-- A pin store that is a list. -/
def exPinApi : PinApi (List Cid) Unit := ⟨fun l c => l.contains c, fun l _ => (.ok (), l)⟩

/-- A form with a field that is passed over and the data in two chunks. -/
def exUpload (data : Bytes) : Upload :=
  ⟨.boundary, [some ⟨some "x".toUTF8.toList, [some [9]]⟩, some ⟨some "file".toUTF8.toList, [some (data.take 2), some (data.drop 2)]⟩], true⟩

def exRaw (data : Bytes) : Cid := ⟨.v1, 0x55, 0x12, exHashOf 0x12 data⟩

/-- `C68_put`: a raw block needs version 1; with the default version it is refused. -/
example : (blockPut exBlockEnv (noBlocks ([] : List Cid)) (some "format=raw&version=1".toUTF8.toList) (exUpload [1, 2, 3])).2 =
    .ok ("{\"Key\":\"".toUTF8.toList ++ (exRaw [1, 2, 3]).toText ++ "\",\"Size\":3}".toUTF8.toList) := by decide +kernel

example : (blockPut exBlockEnv (noBlocks ([] : List Cid)) (some "format=raw".toUTF8.toList) (exUpload [1, 2, 3])).2 =
    .failed .cidNew := by decide +kernel

example : PutBlock exBlockEnv (some "format=raw&version=1".toUTF8.toList) (exUpload [1, 2, 3]) ⟨exRaw [1, 2, 3], [1, 2, 3]⟩ :=
  (putBlock?_iff ..).mp (by decide +kernel)

/-- The requests of `C68_round_trip`: another block comes, something else is removed, and the key is asked for. -/
def exHistory : List BlockReq :=
  [.arrive ⟨exRaw [7], [7]⟩, .put (some "format=raw&version=1".toUTF8.toList) (exUpload [1, 2, 3]),
    .rm (some ("arg=".toUTF8.toList ++ (exRaw [7]).toText))]

example : blockGet exBlockEnv (serveBlocks exBlockEnv exPinApi (noBlocks []) exHistory)
    (some (catUrl exEsc (exRaw [1, 2, 3]).toText none)) true = .ok [1, 2, 3] := by decide +kernel

example : ArrivalsFit exBlockEnv exHistory := by
  intro b hb
  simp only [exHistory, List.mem_cons, BlockReq.arrive.injEq, reduceCtorEq, List.not_mem_nil, or_false] at hb
  subst hb
  decide +kernel

/-- `C68_removed`: then it has to be waited for. -/
example : blockGet exBlockEnv (serveBlocks exBlockEnv exPinApi (noBlocks [])
      (exHistory ++ [.rm (some ("arg=".toUTF8.toList ++ (exRaw [1, 2, 3]).toText))]))
    (some (catUrl exEsc (exRaw [1, 2, 3]).toText none)) true = .waits := by decide +kernel

/-- `C68_rm`: a cid given twice is not found the second time; one that is pinned stays, which `C68_force` hides. -/
example : (blockRm exBlockEnv exPinApi (serveBlocks exBlockEnv exPinApi (noBlocks [exRaw [7]]) (exHistory.take 2))
      (some ("arg=".toUTF8.toList ++ (exRaw [1, 2, 3]).toText ++ "&arg=".toUTF8.toList ++ (exRaw [1, 2, 3]).toText ++
        "&arg=".toUTF8.toList ++ (exRaw [7]).toText))).2 =
    .chunks ["{\"Error\":\"\",\"Hash\":\"".toUTF8.toList ++ (exRaw [1, 2, 3]).toText ++ "\"}\n".toUTF8.toList,
      "{\"Error\":\"block not found\",\"Hash\":\"".toUTF8.toList ++ (exRaw [1, 2, 3]).toText ++ "\"}\n".toUTF8.toList,
      "{\"Error\":\"block to remove is pinned\",\"Hash\":\"".toUTF8.toList ++ (exRaw [7]).toText ++ "\"}\n".toUTF8.toList] := by
  decide +kernel

example : (blockRm exBlockEnv exPinApi (serveBlocks exBlockEnv exPinApi (noBlocks [exRaw [7]]) (exHistory.take 2))
      (some ("force=true&arg=".toUTF8.toList ++ (exRaw [7]).toText))).2 =
    .chunks ["{\"Error\":\"\",\"Hash\":\"".toUTF8.toList ++ (exRaw [7]).toText ++ "\"}\n".toUTF8.toList] := by
  decide +kernel

/-- `C68_rm_refused`: the second argument is not a cid. -/
example : blockGet exBlockEnv (blockRm exBlockEnv exPinApi (serveBlocks exBlockEnv exPinApi (noBlocks []) exHistory)
      (some ("arg=".toUTF8.toList ++ (exRaw [1, 2, 3]).toText ++ "&arg=x".toUTF8.toList))).1
    (some (catUrl exEsc (exRaw [1, 2, 3]).toText none)) true = .ok [1, 2, 3] := by decide +kernel

/-- `C68_dag_put`: a byte that is no CBOR is stored as CBOR. Input in JSON, which is the default, is refused. -/
example : (dagPut exBlockEnv (noBlocks ([] : List Cid)) (some "input-enc=raw".toUTF8.toList) (exUpload [0xFF])).2 =
    .ok ("{\"Cid\":{\"/\":\"".toUTF8.toList ++ (⟨.v1, 0x71, 0x12, exHashOf 0x12 [0xFF]⟩ : Cid).toText ++ "\"}}".toUTF8.toList) := by
  decide +kernel

example : (dagPut exBlockEnv (noBlocks ([] : List Cid)) none (exUpload [0xFF])).2 = .failed .notImplemented := by decide +kernel

end Verif.Props
