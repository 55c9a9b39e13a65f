import Verif.Repo.FsPaths

/-!
# C28: a file name determines the cid
-/

namespace Verif.Props

open Verif Verif.Repo.FsPaths

/-- A plain name: not empty and without '/' and '.'. -/
def Plain (s : Bytes) : Prop := s ≠ [] ∧ ∀ c ∈ s, c ≠ 47 ∧ c ≠ 46

theorem push_plain (p : List Bytes) {s : Bytes} (h : Plain s) : push p s = p ++ [s] := by
  unfold push
  rw [splitSlash_single (fun c hc => (h.2 c hc).1)]
  have h1 : s.head? ≠ some 47 := by
    cases s with
    | nil => simp
    | cons c s => simpa using (h.2 c (by simp)).1
  have h2 : s ≠ [46] := by
    rintro rfl
    exact (h.2 46 (by simp)).2 rfl
  simp [h1, h2, h.1]

theorem lastDot_none {s : Bytes} (h : ∀ c ∈ s, c ≠ 46) : lastDot s = none := by
  induction s with
  | nil => rfl
  | cons c s ih =>
    simp only [lastDot, ih (fun x hx => h x (by simp [hx])), if_neg (h c (by simp))]

theorem lastDot_append (a : Bytes) {b : Bytes} (h : ∀ c ∈ b, c ≠ 46) :
    lastDot (a ++ 46 :: b) = some (a, b) := by
  induction a with
  | nil => simp [lastDot, lastDot_none h]
  | cons c a ih => simp only [List.cons_append, lastDot, ih]

theorem stemExt_dot {a b : Bytes} (ha : a ≠ []) (hb : b ≠ []) (h : ∀ c ∈ b, c ≠ 46) :
    stemExt (a ++ 46 :: b) = (a, some b) := by
  unfold stemExt
  rw [if_neg, lastDot_append a h]
  · simp [ha]
  · intro he
    have := congrArg List.length he
    cases a with
    | nil => exact ha rfl
    | cons x a =>
      cases b with
      | nil => exact hb rfl
      | cons y b => simp at this; omega

theorem stemExt_plain {s : Bytes} (h : Plain s) : stemExt s = (s, none) := by
  unfold stemExt
  rw [if_neg, lastDot_none (fun c hc => (h.2 c hc).2)]
  rintro rfl
  exact (h.2 46 (by simp)).2 rfl

theorem setExtension_plain (p : List Bytes) {s : Bytes} (h : Plain s) (ext : Bytes) :
    setExtension (p ++ [s]) ext = p ++ [s ++ 46 :: ext] := by
  simp [setExtension, stemExt_plain h]

theorem utf8Ok_ascii {s : Bytes} (h : ∀ c ∈ s, c < 0x80) : utf8Ok s = true := by
  induction s with
  | nil => rfl
  | cons c s ih =>
    rw [utf8Ok.eq_def]
    simp only [h c (by simp), if_true]
    exact ih (fun x hx => h x (by simp [hx]))

theorem base32_ascii (bs : Bytes) : ∀ c ∈ base32 bs, c < 0x80 := by
  intro c hc
  have := base32_chars bs c hc
  rw [UInt8.lt_iff_toNat_lt]
  have : c.toNat < 128 := by omega
  exact this

/-- The directory of a key. -/
def shardOf (key : Bytes) : Bytes := (key.drop (key.length - 3)).take 2

theorem shard_plain (base : List Bytes) {key : Bytes} (h : Plain key) (hl : 3 ≤ key.length) :
    shard base key = some (base ++ [shardOf key, key]) := by
  have hs : Plain (shardOf key) := by
    constructor
    · intro he
      have := congrArg List.length he
      simp only [shardOf, List.length_take, List.length_drop, List.length_nil] at this
      omega
    · intro c hc
      exact h.2 c (List.mem_of_mem_drop (List.mem_of_mem_take hc))
  unfold shard
  rw [if_neg (by omega)]
  change some (push (push base (shardOf key)) key) = _
  rw [push_plain _ hs, push_plain _ h, List.append_assoc]
  rfl

theorem toV1_valid {c : Cid} (h : c.Valid) : (toV1 c).Valid :=
  ⟨by simp [toV1], h.2.1, h.2.2.1, h.2.2.2⟩

theorem toBytes_length (c : Cid) : 2 ≤ c.toBytes.length := by
  have h1 := writeVarint_length_pos c.mhCode
  have h2 := writeVarint_length_pos c.digest.length
  unfold Cid.toBytes
  split <;> simp only [mhBytes, List.length_append] <;> omega

theorem key_eq (c : Cid) : (if c.version = .v1 then c.toText else (toV1 c).toText) = (toV1 c).toText := by
  obtain ⟨v, x, y, z⟩ := c
  cases v <;> rfl

theorem v1_plain (c : Cid) : Plain (toV1 c).toText ∧ 3 ≤ (toV1 c).toText.length ∧
    ∀ x ∈ (toV1 c).toText, x < 0x80 := by
  have ht : (toV1 c).toText = 98 :: base32 (toV1 c).toBytes := rfl
  have h1 := base32_length (toV1 c).toBytes
  have h2 := toBytes_length (toV1 c)
  rw [ht]
  refine ⟨⟨by simp, ?_⟩, by simp only [List.length_cons]; omega, ?_⟩
  · intro x hx
    rcases List.mem_cons.mp hx with rfl | hx
    · decide
    · exact base32_no_slash _ x hx
  · intro x hx
    rcases List.mem_cons.mp hx with rfl | hx
    · decide
    · exact base32_ascii _ x hx

theorem pin_plain (c : Cid) : Plain (base32 c.toBytes) ∧ 3 ≤ (base32 c.toBytes).length := by
  have h1 := base32_length c.toBytes
  have h2 := toBytes_length c
  refine ⟨⟨?_, base32_no_slash _⟩, by omega⟩
  intro he
  rw [he] at h1
  simp only [List.length_nil] at h1
  omega

/-! ### Blocks -/

/-- **C28**: `block_path` never panics; a block file lies in a directory that is a function of its
name alone, and the name parses back to the cid (as version 1). -/
theorem C28_block_file : ∃ dir : Bytes → Bytes, ∀ (mb : UInt8 → Bytes → Option Bytes)
    (base : List Bytes) (c : Cid), c.Valid →
    ∃ name, blockPath base c = some (base ++ [dir name, name]) ∧ listBlock mb name = some (toV1 c) := by
  refine ⟨fun name => shardOf (stemExt name).1, fun mb base c hc => ?_⟩
  obtain ⟨h1, h2, h3⟩ := v1_plain c
  refine ⟨(toV1 c).toText ++ 46 :: extData, ?_, ?_⟩
  · unfold blockPath
    simp only [key_eq]
    rw [shard_plain base h1 h2]
    simp only [Option.map_some]
    rw [show base ++ [shardOf (toV1 c).toText, (toV1 c).toText] =
        (base ++ [shardOf (toV1 c).toText]) ++ [(toV1 c).toText] by simp,
      setExtension_plain _ h1, stemExt_dot h1.1 (by decide) (by decide), List.append_assoc]
    rfl
  · unfold listBlock
    rw [stemExt_dot h1.1 (by decide) (by decide)]
    simp only [if_true, stemToBlockCid, utf8Ok_ascii h3]
    exact Cid.ofText_toText mb _ (toV1_valid hc)

theorem blockPath_eq (base : List Bytes) (c : Cid) : blockPath base c =
    some (base ++ [shardOf (toV1 c).toText, (toV1 c).toText ++ 46 :: extData]) := by
  obtain ⟨h1, h2, _⟩ := v1_plain c
  unfold blockPath
  simp only [key_eq]
  rw [shard_plain base h1 h2]
  simp only [Option.map_some]
  rw [show base ++ [shardOf (toV1 c).toText, (toV1 c).toText] =
      (base ++ [shardOf (toV1 c).toText]) ++ [(toV1 c).toText] by simp,
    setExtension_plain _ h1, List.append_assoc]
  rfl

/-- **C28**: two cids have the same file exactly if they have the same codec and multihash. -/
theorem C28_block_files_differ (base : List Bytes) (a b : Cid) (ha : a.Valid) (hb : b.Valid) :
    blockPath base a = blockPath base b ↔
      a.codec = b.codec ∧ a.mhCode = b.mhCode ∧ a.digest = b.digest := by
  rw [blockPath_eq, blockPath_eq]
  constructor
  · intro h
    simp only [Option.some.injEq, List.append_cancel_left_eq, List.cons.injEq, and_true] at h
    have h1 : (toV1 a).toText = (toV1 b).toText := List.append_cancel_right h.2
    have h2 := Cid.toText_injective (toV1_valid ha) (toV1_valid hb) h1
    obtain ⟨va, xa, ya, za⟩ := a
    obtain ⟨vb, xb, yb, zb⟩ := b
    simpa [toV1] using h2
  · rintro ⟨h1, h2, h3⟩
    have : toV1 a = toV1 b := by
      obtain ⟨va, xa, ya, za⟩ := a
      obtain ⟨vb, xb, yb, zb⟩ := b
      simp only at h1 h2 h3
      simp [toV1, h1, h2, h3]
    rw [this]

/-- The last component. -/
def fileName (p : List Bytes) : Bytes := p.getLast?.getD []

/-- **C28**: listing a directory tree with the files of these cids, and any temporary files of these
others, gives exactly these cids (as version 1), in the order of the directory. -/
theorem C28_block_list (mb : UInt8 → Bytes → Option Bytes) (base : List Bytes)
    (files : List (Cid × Bool)) (hv : ∀ f ∈ files, f.1.Valid) :
    (files.filterMap fun f => (blockPath base f.1).bind fun p =>
      listBlock mb (fileName (if f.2 then setExtension p extTmp else p))) =
    (files.filter fun f => !f.2).map fun f => toV1 f.1 := by
  induction files with
  | nil => rfl
  | cons f files ih =>
    obtain ⟨c, tmp⟩ := f
    have hc := hv (c, tmp) (by simp)
    obtain ⟨h1, h2, h3⟩ := v1_plain c
    have ih' := ih (fun f hf => hv f (by simp [hf]))
    rw [List.filterMap_cons]
    simp only [blockPath_eq, Option.bind_some]
    cases tmp with
    | false =>
      have : listBlock mb (fileName (base ++ [shardOf (toV1 c).toText, (toV1 c).toText ++ 46 :: extData]))
          = some (toV1 c) := by
        simp only [fileName, List.getLast?_append, List.getLast?_cons_cons, List.getLast?_singleton,
          Option.some_or, Option.getD_some]
        unfold listBlock
        rw [stemExt_dot h1.1 (by decide) (by decide)]
        simp only [if_true, stemToBlockCid, utf8Ok_ascii h3]
        exact Cid.ofText_toText mb _ (toV1_valid hc)
      simp only [Bool.false_eq_true, if_false, this, Bool.not_false, List.filter_cons_of_pos,
        List.map_cons]
      rw [← ih']
      simp only [blockPath_eq, Option.bind_some]
    | true =>
      have : listBlock mb (fileName (setExtension
          (base ++ [shardOf (toV1 c).toText, (toV1 c).toText ++ 46 :: extData]) extTmp)) = none := by
        simp only [setExtension, List.getLast?_append, List.getLast?_cons_cons, List.getLast?_singleton,
          Option.some_or, fileName, Option.getD_some, stemExt_dot h1.1 (show extData ≠ [] by decide)
          (show ∀ c ∈ extData, c ≠ 46 by decide)]
        unfold listBlock
        rw [stemExt_dot h1.1 (by decide) (by decide)]
        simp [extTmp, extData]
      simp only [if_true, this, Bool.not_true, Bool.false_eq_true, not_false_eq_true,
        List.filter_cons_of_neg]
      rw [← ih']
      simp only [blockPath_eq, Option.bind_some]

/-! ### Pins -/

/-- The file of a pin: `recursive`, or `direct`. -/
def pinFile (base : List Bytes) (c : Cid) (recursive : Bool) : Option (List Bytes) :=
  (pinPath base c).map fun p => setExtension p (if recursive then extRecursive else extDirect)

theorem pinPath_eq (base : List Bytes) (c : Cid) :
    pinPath base c = some (base ++ [shardOf (base32 c.toBytes), base32 c.toBytes]) :=
  shard_plain base (pin_plain c).1 (pin_plain c).2

theorem setExtension_two (base : List Bytes) (d : Bytes) {s : Bytes} (h : Plain s) (ext : Bytes) :
    setExtension (base ++ [d, s]) ext = base ++ [d, s ++ 46 :: ext] := by
  rw [show base ++ [d, s] = (base ++ [d]) ++ [s] by simp, setExtension_plain _ h, List.append_assoc]
  rfl

/-- **C28**: `pin_path` never panics; a pin file lies in a directory that is a function of its name
alone, and the name parses back to the cid and the kind of pin. -/
theorem C28_pin_file : ∃ dir : Bytes → Bytes, ∀ (base : List Bytes) (c : Cid) (recursive : Bool),
    c.Valid → ∃ name, pinFile base c recursive = some (base ++ [dir name, name]) ∧
      listPin name = some (c, recursive) := by
  refine ⟨fun name => shardOf (stemExt name).1, fun base c recursive hc => ?_⟩
  obtain ⟨h1, h2⟩ := pin_plain c
  have hb : (unbase32 (base32 c.toBytes)).bind Cid.ofBytes = some c := by
    rw [unbase32_base32]; exact Cid.ofBytes_toBytes c hc
  have hu := utf8Ok_ascii (base32_ascii c.toBytes)
  cases recursive with
  | true =>
    refine ⟨base32 c.toBytes ++ 46 :: extRecursive, ?_, ?_⟩
    · simp only [pinFile, pinPath_eq, Option.map_some, if_true]
      rw [setExtension_two _ _ h1, stemExt_dot h1.1 (by decide) (by decide)]
    · unfold listPin
      rw [stemExt_dot h1.1 (by decide) (by decide)]
      simp [stemToPinCid, hu, hb]
  | false =>
    refine ⟨base32 c.toBytes ++ 46 :: extDirect, ?_, ?_⟩
    · simp only [pinFile, pinPath_eq, Option.map_some, Bool.false_eq_true, if_false]
      rw [setExtension_two _ _ h1, stemExt_dot h1.1 (by decide) (by decide)]
    · unfold listPin
      rw [stemExt_dot h1.1 (by decide) (by decide)]
      have : ¬ extDirect = extRecursive := by decide
      simp [stemToPinCid, hu, hb, this]

/-- **C28**: different pins, by cid or kind, have different files. -/
theorem C28_pin_files_differ (base : List Bytes) (a b : Cid) (ra rb : Bool) (ha : a.Valid)
    (hb : b.Valid) (h : pinFile base a ra = pinFile base b rb) : a = b ∧ ra = rb := by
  obtain ⟨dir, hd⟩ := C28_pin_file
  obtain ⟨na, a1, a2⟩ := hd base a ra ha
  obtain ⟨nb, b1, b2⟩ := hd base b rb hb
  rw [a1, b1] at h
  simp only [Option.some.injEq, List.append_cancel_left_eq, List.cons.injEq, and_true] at h
  rw [h.2, b2] at a2
  simpa using a2.symm

/-- **C28**: the temporary file of a recursive pin is never listed. -/
theorem C28_pin_temp_not_listed (base : List Bytes) (c : Cid) :
    (pinPath base c).bind (fun p => listPin (fileName (setExtension p extRecursiveTemp))) = none := by
  obtain ⟨h1, h2⟩ := pin_plain c
  simp only [pinPath_eq, Option.bind_some]
  rw [setExtension_two _ _ h1]
  simp only [fileName, List.getLast?_append, List.getLast?_cons_cons, List.getLast?_singleton,
    Option.some_or, Option.getD_some]
  unfold listPin
  rw [stemExt_dot h1.1 (by decide) (by decide)]
  simp [extRecursiveTemp, extRecursive, extDirect]

/-- The examples of the tests in paths.rs:86-139. -/
example : let d : Bytes := [0x48, 0xc9, 0x59, 0x80, 0x3a, 0xaa, 0xb7, 0x1e, 0xd8, 0xd9, 0xe0, 0xe2,
      0x84, 0x88, 0xe4, 0x15, 0x20, 0x03, 0x8b, 0x72, 0xb2, 0x45, 0xe7, 0xce, 0xb2, 0x31, 0x3c, 0x75,
      0x76, 0x68, 0x7d, 0x5b]
    (Cid.v0 d).Valid ∧ pinPath [[1]] (Cid.v0 d) = some [[1], "2w".toUTF8.toList,
      "ciqerskzqa5kvny63dm6byuerdsbkiadrnzlerphz2zdcpdvozuh2wy".toUTF8.toList] ∧
    blockPath [[1]] (Cid.v0 d) = some [[1], "5l".toUTF8.toList,
      "bafybeicizfmyaovkw4pnrwpa4kcirzaveabyw4vsixt45mrrhr2xm2d5lm.data".toUTF8.toList] := by
  decide +kernel

end Verif.Props
