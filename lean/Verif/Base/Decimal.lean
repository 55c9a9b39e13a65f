import Verif.Base.Bytes
import Verif.Base.Radix

/-!
# Decimal numbers

`<usize as FromStr>::from_str` and `Display` of unsigned integers, of the standard library.
-/

namespace Verif

/-- The value of an ASCII digit. -/
def digitVal (b : UInt8) : Option Nat := if 48 ≤ b.toNat ∧ b.toNat ≤ 57 then some (b.toNat - 48) else none

/-- All bytes as digits. -/
def digitVals : Bytes → Option (List Nat)
  | [] => some []
  | b :: bs =>
    match digitVal b, digitVals bs with
    | some d, some ds => some (d :: ds)
    | _, _ => none

/-- Without the plus sign it may start with. -/
def stripPlus : Bytes → Bytes
  | 43 :: t => t
  | s => s

/-- `s.parse::<u64>()` (and of `usize` on 64-bit machines): digits, after an optional plus sign. -/
def parseU64 (s : Bytes) : Option Nat :=
  if stripPlus s = [] then none
  else match digitVals (stripPlus s) with
    | none => none
    | some ds => if ofDigits 10 ds < 2 ^ 64 then some (ofDigits 10 ds) else none

/-- `n.to_string()`. -/
def decimal (n : Nat) : Bytes := if n = 0 then [48] else (digits 10 n).map (fun d => UInt8.ofNat (d + 48))

theorem digitVals_map (ds : List Nat) (h : ∀ d ∈ ds, d < 10) :
    digitVals (ds.map (fun d => UInt8.ofNat (d + 48))) = some ds := by
  induction ds with
  | nil => rfl
  | cons d ds ih =>
    have hd : d < 10 := h d (by simp)
    have h1 : (UInt8.ofNat (d + 48)).toNat = d + 48 := by
      simp [UInt8.toNat_ofNat']; omega
    simp only [List.map_cons, digitVals, digitVal, h1, ih (fun x hx => h x (by simp [hx]))]
    rw [if_pos (by omega)]
    simp

/-- The text of a number is parsed to that number. -/
theorem parseU64_decimal (n : Nat) (h : n < 2 ^ 64) : parseU64 (decimal n) = some n := by
  unfold decimal
  split
  · rename_i h0; subst h0; decide
  · rename_i h0
    have hlt := digits_lt (b := 10) n
    have hne : digits 10 n ≠ [] := by
      intro hd
      have := ofDigits_digits (b := 10) (by decide) n
      rw [hd] at this
      exact h0 this.symm
    have hval := ofDigits_digits (b := 10) (by decide) n
    cases hd : digits 10 n with
    | nil => exact absurd hd hne
    | cons d ds =>
      have hvals := digitVals_map (d :: ds) (by rw [← hd]; exact hlt)
      have hd10 : d < 10 := hlt d (by rw [hd]; simp)
      have hbody : stripPlus ((d :: ds).map (fun d => UInt8.ofNat (d + 48))) =
          (d :: ds).map (fun d => UInt8.ofNat (d + 48)) := by
        unfold stripPlus
        split
        · rename_i t heq
          simp only [List.map_cons, List.cons.injEq] at heq
          have := congrArg UInt8.toNat heq.1
          simp [UInt8.toNat_ofNat'] at this
          omega
        · rfl
      simp only [parseU64, hbody]
      rw [if_neg (by simp), hvals]
      simp only []
      rw [← hd, hval, if_pos h]

end Verif
