import Verif.Base.Bytes

/-!
# Base64

`base64::encode` and `base64::decode` of the crate `base64` 0.13 with its standard configuration, and
`Base64Pad.encode` of `multibase`, which writes the same text. When reading, the padding may be left away,
wholly or in part; bits that belong to no byte must be zero.
-/

namespace Verif

/-- The digit with the value `n`. -/
def char64 (n : Nat) : UInt8 :=
  if n < 26 then UInt8.ofNat (65 + n)
  else if n < 52 then UInt8.ofNat (97 + (n - 26))
  else if n < 62 then UInt8.ofNat (48 + (n - 52))
  else if n = 62 then 43 else 47

/-- The value of a digit. -/
def value64 (c : UInt8) : Option Nat :=
  let n := c.toNat
  if 65 ≤ n ∧ n ≤ 90 then some (n - 65)
  else if 97 ≤ n ∧ n ≤ 122 then some (n - 97 + 26)
  else if 48 ≤ n ∧ n ≤ 57 then some (n - 48 + 52)
  else if n = 43 then some 62
  else if n = 47 then some 63
  else none

/-- `base64::encode`. -/
def base64 : Bytes → Bytes
  | [] => []
  | [a] => [char64 (a.toNat / 4), char64 (a.toNat % 4 * 16), 61, 61]
  | [a, b] => [char64 (a.toNat / 4), char64 (a.toNat % 4 * 16 + b.toNat / 16), char64 (b.toNat % 16 * 4), 61]
  | a :: b :: c :: r =>
    char64 (a.toNat / 4) :: char64 (a.toNat % 4 * 16 + b.toNat / 16) :: char64 (b.toNat % 16 * 4 + c.toNat / 64) ::
      char64 (c.toNat % 64) :: base64 r

/-- The byte in two digits. -/
def tail2 (a b : UInt8) : Option Bytes :=
  match value64 a, value64 b with
  | some x, some y => if y % 16 = 0 then some [UInt8.ofNat (x * 4 + y / 16)] else none
  | _, _ => none

/-- The bytes in three digits. -/
def tail3 (a b c : UInt8) : Option Bytes :=
  match value64 a, value64 b, value64 c with
  | some x, some y, some z =>
    if z % 4 = 0 then some [UInt8.ofNat (x * 4 + y / 16), UInt8.ofNat (y % 16 * 16 + z / 4)] else none
  | _, _, _ => none

/-- The bytes in four digits. -/
def quad (a b c d : UInt8) : Option Bytes :=
  match value64 a, value64 b, value64 c, value64 d with
  | some x, some y, some z, some w =>
    some [UInt8.ofNat (x * 4 + y / 16), UInt8.ofNat (y % 16 * 16 + z / 4), UInt8.ofNat (z % 4 * 64 + w)]
  | _, _, _, _ => none

/-- `base64::decode`. -/
def unbase64 : Bytes → Option Bytes
  | [] => some []
  | [_] => none
  | [a, b] => tail2 a b
  | [a, b, c] => if c = 61 then tail2 a b else tail3 a b c
  | a :: b :: c :: d :: r =>
    if c = 61 then (if d = 61 ∧ r = [] then tail2 a b else none)
    else if d = 61 then (if r = [] then tail3 a b c else none)
    else
      match quad a b c d, unbase64 r with
      | some x, some y => some (x ++ y)
      | _, _ => none

theorem value64_char64 : ∀ n < 64, value64 (char64 n) = some n := by decide +kernel

theorem char64_ne : ∀ n < 64, char64 n ≠ 61 := by decide +kernel

/-- What was written is read. -/
theorem unbase64_base64 (bs : Bytes) : unbase64 (base64 bs) = some bs := by
  fun_induction base64 bs with
  | case1 => rfl
  | case2 a =>
    have ha := a.toNat_lt
    have v1 := value64_char64 (a.toNat / 4) (by omega)
    have v2 := value64_char64 (a.toNat % 4 * 16) (by omega)
    simp only [unbase64, if_true, and_self, tail2, v1, v2]
    rw [if_pos (by omega)]
    congr 2
    rw [← UInt8.toNat_inj]; simp [UInt8.toNat_ofNat']; omega
  | case3 a b =>
    have ha := a.toNat_lt
    have hb := b.toNat_lt
    have v1 := value64_char64 (a.toNat / 4) (by omega)
    have v2 := value64_char64 (a.toNat % 4 * 16 + b.toNat / 16) (by omega)
    have v3 := value64_char64 (b.toNat % 16 * 4) (by omega)
    have n3 := char64_ne (b.toNat % 16 * 4) (by omega)
    simp only [unbase64, if_neg n3, if_true, tail3, v1, v2, v3]
    rw [if_pos (by omega)]
    congr 1
    simp only [List.cons.injEq, and_true, ← UInt8.toNat_inj, UInt8.toNat_ofNat']
    omega
  | case4 a b c r ih =>
    have ha := a.toNat_lt
    have hb := b.toNat_lt
    have hc := c.toNat_lt
    have v1 := value64_char64 (a.toNat / 4) (by omega)
    have v2 := value64_char64 (a.toNat % 4 * 16 + b.toNat / 16) (by omega)
    have v3 := value64_char64 (b.toNat % 16 * 4 + c.toNat / 64) (by omega)
    have v4 := value64_char64 (c.toNat % 64) (by omega)
    have n3 := char64_ne (b.toNat % 16 * 4 + c.toNat / 64) (by omega)
    have n4 := char64_ne (c.toNat % 64) (by omega)
    rw [unbase64, if_neg n3, if_neg n4, quad, v1, v2, v3, v4, ih]
    simp only [List.cons_append, List.nil_append, Option.some.injEq, List.cons.injEq, and_true]
    simp only [← UInt8.toNat_inj, UInt8.toNat_ofNat']
    omega

theorem base64_injective {a b : Bytes} (h : base64 a = base64 b) : a = b := by
  have := congrArg unbase64 h
  rw [unbase64_base64, unbase64_base64] at this
  exact Option.some.inj this

/-- The text has only digits and padding. -/
theorem base64_chars (bs : Bytes) : ∀ c ∈ base64 bs, c = 61 ∨ ∃ n < 64, c = char64 n := by
  fun_induction base64 bs with
  | case1 => simp
  | case2 a =>
    have ha := a.toNat_lt
    intro c hc
    simp only [List.mem_cons, List.not_mem_nil, or_false] at hc
    rcases hc with rfl | rfl | rfl | rfl
    · exact Or.inr ⟨_, by omega, rfl⟩
    · exact Or.inr ⟨_, by omega, rfl⟩
    · exact Or.inl rfl
    · exact Or.inl rfl
  | case3 a b =>
    have ha := a.toNat_lt
    have hb := b.toNat_lt
    intro c hc
    simp only [List.mem_cons, List.not_mem_nil, or_false] at hc
    rcases hc with rfl | rfl | rfl | rfl
    · exact Or.inr ⟨_, by omega, rfl⟩
    · exact Or.inr ⟨_, by omega, rfl⟩
    · exact Or.inr ⟨_, by omega, rfl⟩
    · exact Or.inl rfl
  | case4 a b c r ih =>
    have ha := a.toNat_lt
    have hb := b.toNat_lt
    have hc := c.toNat_lt
    intro x hx
    simp only [List.mem_cons] at hx
    rcases hx with rfl | rfl | rfl | rfl | hx
    · exact Or.inr ⟨_, by omega, rfl⟩
    · exact Or.inr ⟨_, by omega, rfl⟩
    · exact Or.inr ⟨_, by omega, rfl⟩
    · exact Or.inr ⟨_, by omega, rfl⟩
    · exact ih x hx

theorem char64_plain : ∀ n < 64, (32 ≤ (char64 n).toNat ∧ (char64 n).toNat < 128) ∧ char64 n ≠ 34 ∧ char64 n ≠ 92 := by
  decide +kernel

/-- Nothing in the text needs escaping. -/
theorem base64_plain (bs : Bytes) : ∀ c ∈ base64 bs, (32 ≤ c.toNat ∧ c.toNat < 128) ∧ c ≠ 34 ∧ c ≠ 92 := by
  intro c hc
  rcases base64_chars bs c hc with rfl | ⟨n, hn, rfl⟩
  · decide
  · exact char64_plain n hn

example : base64 "hello".toUTF8.toList = "aGVsbG8=".toUTF8.toList ∧
    unbase64 "aGVsbG8".toUTF8.toList = some "hello".toUTF8.toList ∧ unbase64 "aGVsbG9=".toUTF8.toList = none := by
  decide +kernel

end Verif
