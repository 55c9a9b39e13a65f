/-!
# Bytes, varints and UTF-8

Shared byte-level primitives. None of these live in `/repo`; they are the
library routines the repository calls (`quick_protobuf`, `prost`,
`unsigned-varint`, `core::str::from_utf8`), modelled from their documented
behaviour and listed in the trusted base.
-/

namespace Verif

/-- Results can be compared (used only to evaluate examples). -/
instance {ε α : Type} [DecidableEq ε] [DecidableEq α] : DecidableEq (Except ε α)
  | .error a, .error b => if h : a = b then isTrue (by rw [h]) else isFalse (by simp [h])
  | .ok a, .ok b => if h : a = b then isTrue (by rw [h]) else isFalse (by simp [h])
  | .ok _, .error _ => isFalse (by simp)
  | .error _, .ok _ => isFalse (by simp)

/-- `Vec<u8>` / `&[u8]`. -/
abbrev Bytes := List UInt8

/-- Unsigned LEB128 as written by `quick_protobuf::Writer::write_varint`,
`prost` and `unsigned_varint::encode::u64`: seven bits per byte, least
significant first, high bit set on every byte but the last. -/
def writeVarint (n : Nat) : Bytes :=
  if h : n < 128 then [UInt8.ofNat n]
  else UInt8.ofNat (n % 128 + 128) :: writeVarint (n / 128)
termination_by n
decreasing_by omega

/-- Reads at most `fuel` bytes of a varint, not yet reduced to 64 bits. -/
def readVarintAux : Nat → Bytes → Option (Nat × Bytes)
  | 0, _ => none
  | _ + 1, [] => none
  | n + 1, b :: bs =>
    if b.toNat < 128 then some (b.toNat, bs)
    else
      match readVarintAux n bs with
      | none => none
      | some (v, r) => some (b.toNat - 128 + 128 * v, r)

/-- `BytesReader::read_varint64`, `unsigned_varint::decode::u64`: at most ten
bytes, bits above the 64th dropped, error on truncated or overlong input. -/
def readVarint (bs : Bytes) : Option (Nat × Bytes) :=
  match readVarintAux 10 bs with
  | none => none
  | some (v, r) => some (v % 2 ^ 64, r)

/-- `quick_protobuf::sizeofs::sizeof_varint`: the number of bytes a varint takes. -/
def sizeofVarint (n : Nat) : Nat :=
  if n ≤ 0x7F then 1
  else if n ≤ 0x3FFF then 2
  else if n ≤ 0x1FFFFF then 3
  else if n ≤ 0xFFFFFFF then 4
  else if n ≤ 0x7FFFFFFFF then 5
  else if n ≤ 0x3FFFFFFFFFF then 6
  else if n ≤ 0x1FFFFFFFFFFFF then 7
  else if n ≤ 0xFFFFFFFFFFFFFF then 8
  else if n ≤ 0x7FFFFFFFFFFFFFFF then 9
  else 10

/-- `quick_protobuf::sizeofs::sizeof_len`: a length prefix and the payload. -/
def sizeofLen (n : Nat) : Nat := sizeofVarint n + n

/-- Splits off exactly `n` bytes, failing when there are fewer
(`bytes.get(start..start+n)`). -/
def takeExact (n : Nat) (bs : Bytes) : Option (Bytes × Bytes) :=
  if n ≤ bs.length then some (bs.take n, bs.drop n) else none

/-- A UTF-8 continuation byte. -/
def isCont (b : UInt8) : Bool := 0x80 ≤ b && b ≤ 0xBF

/-- `core::str::from_utf8(..).is_ok()`: well-formed UTF-8 (Unicode table 3-7). -/
def utf8Ok : Bytes → Bool
  | [] => true
  | b :: rest =>
    if b < 0x80 then utf8Ok rest
    else
      match rest with
      | [] => false
      | c1 :: rest1 =>
        if 0xC2 ≤ b && b ≤ 0xDF then isCont c1 && utf8Ok rest1
        else
          match rest1 with
          | [] => false
          | c2 :: rest2 =>
            if b == 0xE0 then (0xA0 ≤ c1 && c1 ≤ 0xBF) && isCont c2 && utf8Ok rest2
            else if b == 0xED then (0x80 ≤ c1 && c1 ≤ 0x9F) && isCont c2 && utf8Ok rest2
            else if 0xE1 ≤ b && b ≤ 0xEF then isCont c1 && isCont c2 && utf8Ok rest2
            else
              match rest2 with
              | [] => false
              | c3 :: rest3 =>
                if b == 0xF0 then
                  (0x90 ≤ c1 && c1 ≤ 0xBF) && isCont c2 && isCont c3 && utf8Ok rest3
                else if b == 0xF4 then
                  (0x80 ≤ c1 && c1 ≤ 0x8F) && isCont c2 && isCont c3 && utf8Ok rest3
                else if 0xF1 ≤ b && b ≤ 0xF3 then
                  isCont c1 && isCont c2 && isCont c3 && utf8Ok rest3
                else false

/-! ## Lemmas -/

theorem readVarintAux_write (fuel n : Nat) (r : Bytes) (h : n < 128 ^ fuel) (hf : 0 < fuel) :
    readVarintAux fuel (writeVarint n ++ r) = some (n, r) := by
  induction fuel generalizing n with
  | zero => omega
  | succ k ih =>
    rw [writeVarint]
    split
    · rename_i hn
      have : (UInt8.ofNat n).toNat = n := by
        simp [UInt8.toNat_ofNat']; omega
      simp [readVarintAux, this, hn]
    · rename_i hn
      have hb : (UInt8.ofNat (n % 128 + 128)).toNat = n % 128 + 128 := by
        simp [UInt8.toNat_ofNat']; omega
      have hk : 0 < k := by
        rcases k with _ | k
        · simp at h; omega
        · omega
      have hlt : n / 128 < 128 ^ k := by
        rw [Nat.pow_succ] at h
        exact Nat.div_lt_of_lt_mul (by omega)
      simp only [List.cons_append, readVarintAux, hb]
      rw [ih _ hlt hk, if_neg (by omega)]
      simp only [Option.some.injEq, Prod.mk.injEq, and_true]
      omega

/-- Every 64-bit number survives writing and reading back, leaving the rest of the
input untouched. -/
theorem readVarint_write (n : Nat) (r : Bytes) (h : n < 2 ^ 64) :
    readVarint (writeVarint n ++ r) = some (n, r) := by
  have h1 : n < 128 ^ 10 := by
    have : (2 : Nat) ^ 64 ≤ 128 ^ 10 := by decide
    omega
  simp only [readVarint, readVarintAux_write 10 n r h1 (by omega)]
  rw [Nat.mod_eq_of_lt h]

theorem readVarintAux_shorter {fuel : Nat} {bs : Bytes} {v : Nat} {r : Bytes}
    (h : readVarintAux fuel bs = some (v, r)) : r.length < bs.length := by
  induction fuel generalizing bs v r with
  | zero => simp [readVarintAux] at h
  | succ k ih =>
    cases bs with
    | nil => simp [readVarintAux] at h
    | cons b bs =>
      simp only [readVarintAux] at h
      split at h
      · simp at h; simp [← h.2]
      · split at h
        · simp at h
        · rename_i heq
          have := ih heq
          simp at h
          obtain ⟨_, rfl⟩ := h
          simp; omega

theorem readVarint_shorter {bs : Bytes} {v : Nat} {r : Bytes}
    (h : readVarint bs = some (v, r)) : r.length < bs.length := by
  simp only [readVarint] at h
  split at h
  · simp at h
  · rename_i heq
    have := readVarintAux_shorter heq
    simp at h
    obtain ⟨_, rfl⟩ := h
    exact this

theorem readVarint_lt {bs : Bytes} {v : Nat} {r : Bytes}
    (h : readVarint bs = some (v, r)) : v < 2 ^ 64 := by
  simp only [readVarint] at h
  split at h
  · simp at h
  · simp at h
    omega

theorem writeVarint_ne_nil (n : Nat) : writeVarint n ≠ [] := by
  rw [writeVarint]; split <;> simp

theorem writeVarint_length_pos (n : Nat) : 0 < (writeVarint n).length :=
  List.length_pos_iff.mpr (writeVarint_ne_nil n)

theorem writeVarint_length (n : Nat) (h : n < 2 ^ 64) :
    (writeVarint n).length = sizeofVarint n := by
  have step : ∀ m, ¬ m < 128 → (writeVarint m).length = 1 + (writeVarint (m / 128)).length := by
    intro m hm
    rw [writeVarint]
    simp [hm]; omega
  have base : ∀ m, m < 128 → (writeVarint m).length = 1 := by
    intro m hm
    rw [writeVarint]; simp [hm]
  unfold sizeofVarint
  repeat' split
  all_goals
    repeat rw [step _ (by omega)]
    rw [base _ (by omega)]

theorem writeVarint_injective {m n : Nat} (hm : m < 2 ^ 64) (hn : n < 2 ^ 64)
    (h : writeVarint m = writeVarint n) : m = n := by
  have h1 := readVarint_write m [] hm
  have h2 := readVarint_write n [] hn
  rw [h] at h1
  rw [h1] at h2
  simpa using h2

theorem takeExact_append (a b : Bytes) : takeExact a.length (a ++ b) = some (a, b) := by
  simp [takeExact]

theorem takeExact_append' {n : Nat} {a b : Bytes} (h : a.length = n) :
    takeExact n (a ++ b) = some (a, b) := by
  subst h; exact takeExact_append a b

theorem takeExact_length {n : Nat} {bs x r : Bytes} (h : takeExact n bs = some (x, r)) :
    x.length = n ∧ bs = x ++ r := by
  simp only [takeExact] at h
  split at h
  · simp at h
    obtain ⟨rfl, rfl⟩ := h
    simp; omega
  · simp at h

end Verif
