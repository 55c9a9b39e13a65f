import Verif.Base.Bytes

/-!
# Protobuf wire format, as read and written by `quick_protobuf`

`BytesReader::next_tag` / `read_*` / `read_unknown` loops are modelled as a
tokenizer followed by a fold over the tokens. This is the same function as the
generated `from_reader` loops because every tag they match on is read with the
wire type in its low three bits, and because all failures are the single outcome
"error". A nested message is parsed from exactly its own bytes: the library keeps
absolute offsets and tests `start == end`, so a field overrunning its message
runs on until the buffer ends and then fails, which is the same outcome.
-/

namespace Verif

/-- The payload of a field, by wire type. -/
inductive WireVal where
  | varint (n : Nat)
  | fixed64 (b : Bytes)
  | len (b : Bytes)
  | fixed32 (b : Bytes)
deriving DecidableEq, Repr

/-- A tag (field number and wire type) with its payload. -/
abbrev Token := Nat × WireVal

/-- `next_tag` followed by the matching `read_*` (for tags in `known`) or
`read_unknown`. Tags and the lengths of known fields are 32-bit varints, lengths
of unknown fields 64-bit ones; groups and unknown wire types are errors. -/
def readToken (known : Nat → Bool) (bs : Bytes) : Option (Token × Bytes) :=
  match readVarint bs with
  | none => none
  | some (tag64, r) =>
    let tag := tag64 % 2 ^ 32
    match tag % 8 with
    | 0 =>
      match readVarint r with
      | none => none
      | some (v, r') => some ((tag, .varint v), r')
    | 1 =>
      match takeExact 8 r with
      | none => none
      | some (x, r') => some ((tag, .fixed64 x), r')
    | 2 =>
      match readVarint r with
      | none => none
      | some (len64, r') =>
        let len := if known tag then len64 % 2 ^ 32 else len64
        match takeExact len r' with
        | none => none
        | some (x, r'') => some ((tag, .len x), r'')
    | 5 =>
      match takeExact 4 r with
      | none => none
      | some (x, r') => some ((tag, .fixed32 x), r')
    | _ => none

theorem readToken_shorter {known : Nat → Bool} {bs : Bytes} {t : Token} {r : Bytes}
    (h : readToken known bs = some (t, r)) : r.length < bs.length := by
  unfold readToken at h
  split at h
  · simp at h
  · rename_i tag64 r0 heq
    have h0 := readVarint_shorter heq
    simp only at h
    split at h
    · split at h
      · simp at h
      · rename_i h1
        have := readVarint_shorter h1
        simp at h; obtain ⟨_, rfl⟩ := h; omega
    · split at h
      · simp at h
      · rename_i h1
        have := (takeExact_length h1).2
        simp at h; obtain ⟨_, rfl⟩ := h
        rw [this] at h0; simp at h0; omega
    · split at h
      · simp at h
      · rename_i h1
        have h2 := readVarint_shorter h1
        split at h
        · simp at h
        · rename_i h3
          have := (takeExact_length h3).2
          simp at h; obtain ⟨_, rfl⟩ := h
          rw [this] at h2; simp at h2; omega
    · split at h
      · simp at h
      · rename_i h1
        have := (takeExact_length h1).2
        simp at h; obtain ⟨_, rfl⟩ := h
        rw [this] at h0; simp at h0; omega
    · simp at h

/-- `while !r.is_eof() { match r.next_tag(bytes) { .. } }`. -/
def tokenize (known : Nat → Bool) (bs : Bytes) : Option (List Token) :=
  if bs = [] then some []
  else
    match _h : readToken known bs with
    | none => none
    | some (t, r) =>
      match tokenize known r with
      | none => none
      | some ts => some (t :: ts)
termination_by bs.length
decreasing_by exact readToken_shorter _h

/-- `Writer::write_with_tag(tag, |w| w.write_uint64(v))` (also `write_enum`,
`write_uint32`, `write_int64`, which all write the value as a 64-bit varint). -/
def varintField (tag v : Nat) : Bytes := writeVarint tag ++ writeVarint v

/-- `Writer::write_with_tag(tag, |w| w.write_bytes(b))` (also `write_string`). -/
def lenField (tag : Nat) (b : Bytes) : Bytes :=
  writeVarint tag ++ (writeVarint b.length ++ b)

/-- `Writer::write_with_tag(tag, |w| w.write_message(m))`: the length written is
the one *computed* by `get_size`, not the length of the body. -/
def msgField (tag size : Nat) (body : Bytes) : Bytes :=
  writeVarint tag ++ (writeVarint size ++ body)

/-- `Writer::write_with_tag(tag, |w| w.write_fixed32(v))` with the four bytes given. -/
def fixed32Field (tag : Nat) (b : Bytes) : Bytes := writeVarint tag ++ b

/-! ## Lemmas: reading back one written field -/

theorem tokenize_nil (known : Nat → Bool) : tokenize known [] = some [] := by
  rw [tokenize]; simp

theorem tokenize_of_readToken {known : Nat → Bool} {bs : Bytes} {t : Token} {r : Bytes}
    (h : readToken known bs = some (t, r)) :
    tokenize known bs = (tokenize known r).map (t :: ·) := by
  have hne : bs ≠ [] := by
    intro hb; have := readToken_shorter h; simp [hb] at this
  rw [tokenize]
  simp only [hne, if_false]
  split
  · rename_i h1; rw [h1] at h; simp at h
  · rename_i t' r' h1
    rw [h1] at h
    simp at h
    obtain ⟨rfl, rfl⟩ := h
    cases tokenize known r' <;> rfl

theorem readToken_varintField {known : Nat → Bool} {tag v : Nat} {r : Bytes}
    (ht : tag < 2 ^ 32) (hw : tag % 8 = 0) (hv : v < 2 ^ 64) :
    readToken known (varintField tag v ++ r) = some ((tag, .varint v), r) := by
  simp only [readToken, varintField, List.append_assoc]
  rw [readVarint_write _ _ (by omega)]
  simp only [Nat.mod_eq_of_lt ht, hw]
  rw [readVarint_write _ _ hv]

theorem readToken_lenField {known : Nat → Bool} {tag : Nat} {b r : Bytes}
    (ht : tag < 2 ^ 32) (hw : tag % 8 = 2) (hb : b.length < 2 ^ 32) :
    readToken known (lenField tag b ++ r) = some ((tag, .len b), r) := by
  simp only [readToken, lenField, List.append_assoc]
  rw [readVarint_write _ _ (by omega)]
  simp only [Nat.mod_eq_of_lt ht, hw]
  rw [readVarint_write _ _ (by omega)]
  simp only [Nat.mod_eq_of_lt hb, ite_self]
  rw [takeExact_append]

theorem readToken_fixed32Field {known : Nat → Bool} {tag : Nat} {b r : Bytes}
    (ht : tag < 2 ^ 32) (hw : tag % 8 = 5) (hb : b.length = 4) :
    readToken known (fixed32Field tag b ++ r) = some ((tag, .fixed32 b), r) := by
  simp only [readToken, fixed32Field, List.append_assoc]
  rw [readVarint_write _ _ (by omega)]
  simp only [Nat.mod_eq_of_lt ht, hw]
  rw [takeExact_append' hb]

theorem msgField_eq_lenField {tag size : Nat} {body : Bytes} (h : size = body.length) :
    msgField tag size body = lenField tag body := by
  subst h; rfl

theorem tokenize_varintField {known : Nat → Bool} {tag v : Nat} {r : Bytes}
    (ht : tag < 2 ^ 32) (hw : tag % 8 = 0) (hv : v < 2 ^ 64) :
    tokenize known (varintField tag v ++ r) = (tokenize known r).map ((tag, .varint v) :: ·) :=
  tokenize_of_readToken (readToken_varintField ht hw hv)

theorem tokenize_lenField {known : Nat → Bool} {tag : Nat} {b r : Bytes}
    (ht : tag < 2 ^ 32) (hw : tag % 8 = 2) (hb : b.length < 2 ^ 32) :
    tokenize known (lenField tag b ++ r) = (tokenize known r).map ((tag, .len b) :: ·) :=
  tokenize_of_readToken (readToken_lenField ht hw hb)

theorem tokenize_fixed32Field {known : Nat → Bool} {tag : Nat} {b r : Bytes}
    (ht : tag < 2 ^ 32) (hw : tag % 8 = 5) (hb : b.length = 4) :
    tokenize known (fixed32Field tag b ++ r) = (tokenize known r).map ((tag, .fixed32 b) :: ·) :=
  tokenize_of_readToken (readToken_fixed32Field ht hw hb)

/-- A written message is a list of fields; `Tok f t` says field bytes `f` read as token `t`. -/
def Tok (known : Nat → Bool) (f : Bytes) (t : Token) : Prop :=
  ∀ r, tokenize known (f ++ r) = (tokenize known r).map (t :: ·)

theorem tokenize_flatten {known : Nat → Bool} {fs : List (Bytes × Token)}
    (h : ∀ p ∈ fs, Tok known p.1 p.2) (r : Bytes) :
    tokenize known ((fs.map (·.1)).flatten ++ r) =
      (tokenize known r).map ((fs.map (·.2)) ++ ·) := by
  induction fs with
  | nil => simp
  | cons p ps ih =>
    simp only [List.map_cons, List.flatten_cons, List.append_assoc]
    rw [h p (by simp), ih (fun q hq => h q (by simp [hq]))]
    cases tokenize known r <;> simp

end Verif
