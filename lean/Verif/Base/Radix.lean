import Verif.Base.Bytes

/-!
# Change of radix, base58 and base32

`bs58` and `multibase` (over `data-encoding`) are not part of `/repo`; these are the encodings they
implement: base58btc as used for version 0 cids and peer ids, and unpadded lower case base32 as used
for version 1 cids and pin file names. Text is ASCII and kept as bytes.
-/

namespace Verif

/-! ### Positional notation -/

/-- The number written with these digits, most significant first. -/
def ofDigits (b : Nat) (ds : List Nat) : Nat := ds.foldl (fun a d => a * b + d) 0

/-- The digits of a number, most significant first, none for zero. -/
def digits (b : Nat) (n : Nat) : List Nat :=
  if _h : n = 0 ∨ b < 2 then [] else digits b (n / b) ++ [n % b]
termination_by n
decreasing_by exact Nat.div_lt_self (by omega) (by omega)

theorem ofDigits_snoc (b : Nat) (ds : List Nat) (d : Nat) :
    ofDigits b (ds ++ [d]) = ofDigits b ds * b + d := by simp [ofDigits]

theorem ofDigits_digits {b : Nat} (hb : 2 ≤ b) (n : Nat) : ofDigits b (digits b n) = n := by
  induction n using Nat.strongRecOn with
  | ind n ih =>
    rw [digits]
    split
    · rename_i h
      have : n = 0 := by omega
      subst this; rfl
    · rename_i h
      rw [ofDigits_snoc, ih (n / b) (Nat.div_lt_self (by omega) (by omega))]
      exact Nat.div_add_mod' n b

theorem digits_lt {b : Nat} (n : Nat) : ∀ d ∈ digits b n, d < b := by
  induction n using Nat.strongRecOn with
  | ind n ih =>
    rw [digits]
    split
    · simp
    · rename_i h
      intro d hd
      rcases List.mem_append.mp hd with hd | hd
      · exact ih (n / b) (Nat.div_lt_self (by omega) (by omega)) d hd
      · simp only [List.mem_singleton] at hd
        subst hd
        exact Nat.mod_lt _ (by omega)

theorem digits_zero (b : Nat) : digits b 0 = [] := by rw [digits]; simp

theorem digits_step {b : Nat} (hb : 2 ≤ b) {q d : Nat} (hd : d < b) (hn : q * b + d ≠ 0) :
    digits b (q * b + d) = digits b q ++ [d] := by
  rw [digits, dif_neg (by omega)]
  have h1 : (q * b + d) / b = q := by
    rw [Nat.add_comm, Nat.add_mul_div_right _ _ (by omega), Nat.div_eq_of_lt hd, Nat.zero_add]
  have h2 : (q * b + d) % b = d := by
    rw [Nat.add_comm, Nat.add_mul_mod_self_right, Nat.mod_eq_of_lt hd]
  rw [h1, h2]

/-- The leading digit is not zero. -/
theorem digits_head {b : Nat} (hb : 2 ≤ b) (n : Nat) : ∀ d ds, digits b n = d :: ds → d ≠ 0 := by
  induction n using Nat.strongRecOn with
  | ind n ih =>
    intro d ds h
    rw [digits] at h
    split at h
    · cases h
    · rename_i hn
      cases hq : digits b (n / b) with
      | nil =>
        rw [hq] at h
        simp only [List.nil_append, List.cons.injEq] at h
        have := ofDigits_digits hb (n / b)
        rw [hq] at this
        have h0 : n / b = 0 := by rw [← this]; rfl
        have := Nat.div_add_mod n b
        rw [h0] at this
        intro hd
        rw [hd] at h
        omega
      | cons d' ds' =>
        rw [hq] at h
        simp only [List.cons_append, List.cons.injEq] at h
        have := ih (n / b) (Nat.div_lt_self (by omega) (by omega)) d' ds' hq
        rw [← h.1]
        exact this

theorem ofDigits_zero_cons (b : Nat) (ds : List Nat) : ofDigits b (0 :: ds) = ofDigits b ds := by
  simp [ofDigits]

theorem ofDigits_zeros (b z : Nat) (ds : List Nat) :
    ofDigits b (List.replicate z 0 ++ ds) = ofDigits b ds := by
  induction z with
  | zero => rfl
  | succ z ih => rw [List.replicate_succ, List.cons_append, ofDigits_zero_cons, ih]

/-- The number of leading zeros. -/
def leadingZeros : List Nat → Nat
  | 0 :: ds => leadingZeros ds + 1
  | _ => 0

theorem leadingZeros_zeros {z : Nat} {ds : List Nat} (h : ∀ d r, ds = d :: r → d ≠ 0) :
    leadingZeros (List.replicate z 0 ++ ds) = z := by
  induction z with
  | zero =>
    cases ds with
    | nil => rfl
    | cons d r =>
      have := h d r rfl
      cases d with
      | zero => exact absurd rfl this
      | succ d => rfl
  | succ z ih => rw [List.replicate_succ, List.cons_append]; simp only [leadingZeros]; rw [ih]

/-- A digit string is its leading zeros and the digits of its number. -/
theorem digits_ofDigits {b : Nat} (hb : 2 ≤ b) (ds : List Nat) (h : ∀ d ∈ ds, d < b) :
    List.replicate (leadingZeros ds) 0 ++ digits b (ofDigits b ds) = ds := by
  have key : ∀ r : List Nat, ∀ d, d ≠ 0 → (∀ x ∈ d :: r, x < b) →
      digits b (ofDigits b (d :: r)) = d :: r := by
    intro r
    suffices H : ∀ n, ∀ r : List Nat, r.length = n → ∀ d, d ≠ 0 → (∀ x ∈ d :: r, x < b) →
      digits b (ofDigits b (d :: r)) = d :: r ∧ ofDigits b (d :: r) ≠ 0 by
      intro d h1 h2; exact (H r.length r rfl d h1 h2).1
    intro n
    induction n with
    | zero =>
      intro r hr d hd hx
      have : r = [] := List.length_eq_zero_iff.mp hr
      subst this
      have h1 : ofDigits b [d] = 0 * b + d := by simp [ofDigits]
      rw [h1, digits_step hb (hx d (by simp)) (by omega), digits_zero]
      exact ⟨rfl, by omega⟩
    | succ n ih =>
      intro r hr d hd hx
      have hne : r ≠ [] := by intro h; subst h; simp at hr
      obtain ⟨r', e, rfl⟩ : ∃ r' e, r = r' ++ [e] := ⟨r.dropLast, r.getLast hne, (List.dropLast_concat_getLast hne).symm⟩
      have hr' : r'.length = n := by simpa using hr
      obtain ⟨i1, i2⟩ := ih r' hr' d hd (fun x hxx => hx x (by
        rcases List.mem_cons.mp hxx with rfl | hxx
        · simp
        · simp [hxx]))
      rw [show d :: (r' ++ [e]) = (d :: r') ++ [e] from rfl, ofDigits_snoc]
      have hpos : 0 < ofDigits b (d :: r') * b := Nat.mul_pos (by omega) (by omega)
      rw [digits_step hb (hx e (by simp)) (by omega), i1]
      exact ⟨rfl, by omega⟩
  induction ds with
  | nil => simp [leadingZeros, ofDigits, digits_zero]
  | cons d ds ih =>
    cases d with
    | zero =>
      simp only [leadingZeros, ofDigits_zero_cons, List.replicate_succ, List.cons_append]
      rw [ih (fun x hx => h x (by simp [hx]))]
    | succ d =>
      simp only [leadingZeros, List.replicate_zero, List.nil_append]
      exact key ds (d + 1) (by omega) h

/-- Change of radix keeping leading zeros. -/
def convert (b c : Nat) (ds : List Nat) : List Nat :=
  List.replicate (leadingZeros ds) 0 ++ digits c (ofDigits b ds)

theorem convert_lt {b c : Nat} (hc : 2 ≤ c) (ds : List Nat) : ∀ d ∈ convert b c ds, d < c := by
  intro d hd
  rcases List.mem_append.mp hd with hd | hd
  · rw [List.mem_replicate] at hd; omega
  · exact digits_lt _ d hd

theorem convert_convert {b c : Nat} (hb : 2 ≤ b) (hc : 2 ≤ c) (ds : List Nat) (h : ∀ d ∈ ds, d < b) :
    convert c b (convert b c ds) = ds := by
  have h1 : leadingZeros (convert b c ds) = leadingZeros ds :=
    leadingZeros_zeros (digits_head hc _)
  have h2 : ofDigits c (convert b c ds) = ofDigits b ds := by
    unfold convert
    rw [ofDigits_zeros, ofDigits_digits hc]
  rw [convert, h1, h2]
  exact digits_ofDigits hb ds h

/-! ### Base58 -/

/-- The base58btc alphabet. -/
def alphabet58 : Bytes :=
  [49, 50, 51, 52, 53, 54, 55, 56, 57, 65, 66, 67, 68, 69, 70, 71, 72, 74, 75, 76, 77, 78, 80, 81, 82,
   83, 84, 85, 86, 87, 88, 89, 90, 97, 98, 99, 100, 101, 102, 103, 104, 105, 106, 107, 109, 110, 111,
   112, 113, 114, 115, 116, 117, 118, 119, 120, 121, 122]

/-- The character of a digit. -/
def char58 (d : Nat) : UInt8 := alphabet58.getD d 0

/-- The digit of a character. -/
def value58 (c : UInt8) : Option Nat := alphabet58.idxOf? c

/-- `Base58Btc.encode`, `PeerId::to_base58`. -/
def base58 (bs : Bytes) : Bytes := (convert 256 58 (bs.map UInt8.toNat)).map char58

/-- `Base58Btc.decode`. -/
def unbase58 (s : Bytes) : Option Bytes :=
  match s.mapM value58 with
  | none => none
  | some ds => some ((convert 58 256 ds).map UInt8.ofNat)

theorem value58_char58 : ∀ d < 58, value58 (char58 d) = some d := by decide +kernel

theorem char58_value58 (c : UInt8) (d : Nat) (h : value58 c = some d) : d < 58 ∧ char58 d = c := by
  unfold value58 at h
  obtain ⟨h1, h2, _⟩ := List.idxOf?_eq_some_iff.mp h
  refine ⟨h1, ?_⟩
  simp only [char58, List.getD_eq_getElem?_getD, List.getElem?_eq_getElem h1, Option.getD_some]
  simpa using h2

theorem mapM_map_some {α β : Type} {f : α → Option β} {g : β → α} (l : List β)
    (h : ∀ b ∈ l, f (g b) = some b) : (l.map g).mapM f = some l := by
  induction l with
  | nil => rfl
  | cons b l ih =>
    simp only [List.map_cons, List.mapM_cons, h b (by simp), ih (fun x hx => h x (by simp [hx]))]
    rfl

theorem mapM_inverse {α β : Type} {f : α → Option β} {g : β → α} {P : β → Prop}
    (hf : ∀ a b, f a = some b → P b ∧ g b = a) {l : List α} {r : List β}
    (h : l.mapM f = some r) : (∀ b ∈ r, P b) ∧ r.map g = l := by
  induction l generalizing r with
  | nil => cases h; simp
  | cons a l ih =>
    rw [List.mapM_cons] at h
    cases ha : f a with
    | none => rw [ha] at h; cases h
    | some b =>
      rw [ha] at h
      cases hl : l.mapM f with
      | none => rw [hl] at h; cases h
      | some r' =>
        rw [hl] at h
        cases h
        obtain ⟨h1, h2⟩ := ih hl
        obtain ⟨h3, h4⟩ := hf a b ha
        refine ⟨fun x hx => ?_, by rw [List.map_cons, h2, h4]⟩
        rcases List.mem_cons.mp hx with rfl | hx
        · exact h3
        · exact h1 x hx

theorem map_toNat_lt (bs : Bytes) : ∀ d ∈ bs.map UInt8.toNat, d < 256 := by
  intro d hd
  obtain ⟨b, _, rfl⟩ := List.mem_map.mp hd
  exact b.toNat_lt

theorem map_ofNat_toNat (bs : Bytes) : (bs.map UInt8.toNat).map UInt8.ofNat = bs := by
  rw [List.map_map]
  conv => rhs; rw [← List.map_id bs]
  exact List.map_congr_left fun b _ => by simp

theorem map_toNat_ofNat (ds : List Nat) (h : ∀ d ∈ ds, d < 256) :
    (ds.map UInt8.ofNat).map UInt8.toNat = ds := by
  rw [List.map_map]
  conv => rhs; rw [← List.map_id ds]
  exact List.map_congr_left fun d hd => by
    simp [UInt8.toNat_ofNat', Nat.mod_eq_of_lt (h d hd)]

theorem unbase58_base58 (bs : Bytes) : unbase58 (base58 bs) = some bs := by
  unfold unbase58 base58
  rw [mapM_map_some _ (fun d hd => value58_char58 d (convert_lt (by decide) _ d hd))]
  simp only
  rw [convert_convert (by decide) (by decide) _ (map_toNat_lt bs), map_ofNat_toNat]

theorem base58_unbase58 {s bs : Bytes} (h : unbase58 s = some bs) : base58 bs = s := by
  unfold unbase58 at h
  split at h
  · cases h
  · rename_i ds hds
    cases h
    obtain ⟨hlt, hs⟩ := mapM_inverse char58_value58 hds
    unfold base58
    rw [map_toNat_ofNat _ (convert_lt (by decide) _), convert_convert (by decide) (by decide) _ hlt, hs]

theorem base58_injective {a b : Bytes} (h : base58 a = base58 b) : a = b := by
  have := unbase58_base58 a
  rw [h, unbase58_base58] at this
  exact (Option.some.inj this).symm

/-! ### Base32 -/

/-- The lowest `w` bits of a number, most significant first. -/
def bitsOf : Nat → Nat → List Bool
  | 0, _ => []
  | w + 1, n => n.testBit w :: bitsOf w n

/-- The number with these bits. -/
def ofBits (l : List Bool) : Nat := l.foldl (fun a b => 2 * a + b.toNat) 0

/-- Groups of five bits, the last filled up with zeros. -/
def groups5 : List Bool → List (List Bool)
  | a :: b :: c :: d :: e :: r => [a, b, c, d, e] :: groups5 r
  | [] => []
  | l => [l ++ List.replicate (5 - l.length) false]

/-- Whole bytes; the rest is dropped. -/
def groups8 : List Bool → List (List Bool)
  | a :: b :: c :: d :: e :: f :: g :: h :: r => [a, b, c, d, e, f, g, h] :: groups8 r
  | _ => []

/-- The character of a digit: `a` to `z`, `2` to `7`. -/
def char32 (d : Nat) : UInt8 := if d < 26 then UInt8.ofNat (97 + d) else UInt8.ofNat (50 + (d - 26))

/-- The digit of a character. -/
def value32 (c : UInt8) : Option Nat :=
  if 97 ≤ c.toNat ∧ c.toNat ≤ 122 then some (c.toNat - 97)
  else if 50 ≤ c.toNat ∧ c.toNat ≤ 55 then some (c.toNat - 50 + 26)
  else none

/-- `Base32Lower.encode`, without the multibase prefix. -/
def base32 (bs : Bytes) : Bytes :=
  (groups5 (bs.flatMap (fun b => bitsOf 8 b.toNat))).map (fun g => char32 (ofBits g))

/-- `Base32Lower.decode`: fewer than five bits may be left over and they must be zero. -/
def unbase32 (s : Bytes) : Option Bytes :=
  match s.mapM value32 with
  | none => none
  | some ds =>
    let bits := ds.flatMap (bitsOf 5)
    let rest := bits.drop (bits.length / 8 * 8)
    if rest.length < 5 ∧ rest.all (fun b => !b) then
      some ((groups8 bits).map (fun g => UInt8.ofNat (ofBits g)))
    else none

theorem bitsOf_length (w n : Nat) : (bitsOf w n).length = w := by
  induction w with
  | zero => rfl
  | succ w ih => simp [bitsOf, ih]

theorem value32_char32 : ∀ d < 32, value32 (char32 d) = some d := by decide +kernel

theorem bits8_byte : ∀ b : UInt8, UInt8.ofNat (ofBits (bitsOf 8 b.toNat)) = b := by
  intro b
  have : ∀ n < 256, ofBits (bitsOf 8 n) = n := by decide +kernel
  rw [this _ b.toNat_lt]
  simp

theorem ofBits5_lt : ∀ a b c d e : Bool, ofBits [a, b, c, d, e] < 32 := by decide

theorem bitsOf5_ofBits : ∀ a b c d e : Bool, bitsOf 5 (ofBits [a, b, c, d, e]) = [a, b, c, d, e] := by
  decide

theorem len5 {g : List Bool} (h : g.length = 5) : ∃ a b c d e, g = [a, b, c, d, e] := by
  match g, h with
  | [a, b, c, d, e], _ => exact ⟨a, b, c, d, e, rfl⟩

theorem groups5_len (l : List Bool) : ∀ g ∈ groups5 l, g.length = 5 := by
  fun_induction groups5 l with
  | case1 a b c d e r ih =>
    intro g hg
    rcases List.mem_cons.mp hg with rfl | hg
    · rfl
    · exact ih g hg
  | case2 => simp
  | case3 l h1 h2 =>
    intro g hg
    simp only [List.mem_singleton] at hg
    subst hg
    have : l.length ≤ 5 := by
      match l, h1, h2 with
      | [a], _, _ => simp
      | [a, b], _, _ => simp
      | [a, b, c], _, _ => simp
      | [a, b, c, d], _, _ => simp
      | a :: b :: c :: d :: e :: r, h1, _ => exact absurd rfl (h1 a b c d e r)
    simp; omega

theorem groups5_flatten (l : List Bool) :
    ∃ z, z < 5 ∧ (groups5 l).flatten = l ++ List.replicate z false := by
  fun_induction groups5 l with
  | case1 a b c d e r ih =>
    obtain ⟨z, h1, h2⟩ := ih
    exact ⟨z, h1, by simp [h2]⟩
  | case2 => exact ⟨0, by omega, rfl⟩
  | case3 l h1 h2 =>
    refine ⟨5 - l.length, ?_, by simp⟩
    cases l with
    | nil => exact absurd rfl h2
    | cons a l => simp; omega

theorem groups8_bits (bs : Bytes) (r : List Bool) (h : r.length < 8) :
    (groups8 (bs.flatMap (fun b => bitsOf 8 b.toNat) ++ r)).map (fun g => UInt8.ofNat (ofBits g)) = bs := by
  induction bs with
  | nil =>
    simp only [List.flatMap_nil, List.nil_append]
    have : groups8 r = [] := by
      match r, h with
      | [], _ | [_], _ | [_, _], _ | [_, _, _], _ | [_, _, _, _], _ | [_, _, _, _, _], _
      | [_, _, _, _, _, _], _ | [_, _, _, _, _, _, _], _ => rfl
    rw [this]; rfl
  | cons b bs ih =>
    have h8 := bits8_byte b
    simp only [List.flatMap_cons, List.append_assoc]
    simp only [bitsOf, List.cons_append, List.nil_append, groups8, List.map_cons] at ih h8 ⊢
    rw [ih, h8]

theorem unbase32_base32 (bs : Bytes) : unbase32 (base32 bs) = some bs := by
  unfold unbase32 base32
  have hlen := groups5_len (bs.flatMap (fun b => bitsOf 8 b.toNat))
  obtain ⟨z, hz, hfl⟩ := groups5_flatten (bs.flatMap (fun b => bitsOf 8 b.toNat))
  generalize groups5 (bs.flatMap (fun b => bitsOf 8 b.toNat)) = gs at hlen hfl
  have hm : (gs.map (fun g => char32 (ofBits g))).mapM value32 = some (gs.map ofBits) := by
    have : gs.map (fun g => char32 (ofBits g)) = (gs.map ofBits).map char32 := by simp
    rw [this]
    refine mapM_map_some _ (fun d hd => value32_char32 d ?_)
    obtain ⟨g, hg, rfl⟩ := List.mem_map.mp hd
    obtain ⟨a, b, c, d, e, rfl⟩ := len5 (hlen g hg)
    exact ofBits5_lt a b c d e
  have hb : (gs.map ofBits).flatMap (bitsOf 5) = gs.flatten := by
    clear hm hfl
    induction gs with
    | nil => rfl
    | cons g gs ih =>
      obtain ⟨a, b, c, d, e, rfl⟩ := len5 (hlen g (by simp))
      rw [List.map_cons, List.flatMap_cons, List.flatten_cons, bitsOf5_ofBits,
        ih (fun g hg => hlen g (by simp [hg]))]
  rw [hm]
  simp only [hb, hfl]
  have hl8 : (bs.flatMap (fun b => bitsOf 8 b.toNat)).length = 8 * bs.length := by
    clear hfl hb hm
    induction bs with
    | nil => rfl
    | cons b bs ih => simp only [List.flatMap_cons, List.length_append, ih, bitsOf_length, List.length_cons]; omega
  have hdiv : (8 * bs.length + z) / 8 * 8 = (bs.flatMap (fun b => bitsOf 8 b.toNat)).length := by
    rw [hl8]; omega
  simp only [List.length_append, List.length_replicate, hl8, hdiv]
  rw [← hl8, List.drop_left]
  rw [if_pos ⟨by simpa using hz, by simp⟩, groups8_bits _ _ (by simp; omega)]

theorem base32_injective {a b : Bytes} (h : base32 a = base32 b) : a = b := by
  have := unbase32_base32 a
  rw [h, unbase32_base32] at this
  exact (Option.some.inj this).symm

/-- Only lower case letters and digits occur. -/
theorem base32_chars (bs : Bytes) : ∀ c ∈ base32 bs,
    (97 ≤ c.toNat ∧ c.toNat ≤ 122) ∨ (50 ≤ c.toNat ∧ c.toNat ≤ 55) := by
  intro c hc
  unfold base32 at hc
  obtain ⟨g, hg, rfl⟩ := List.mem_map.mp hc
  obtain ⟨a, b, c, d, e, rfl⟩ := len5 (groups5_len _ g hg)
  have : ∀ a b c d e : Bool,
    (97 ≤ (char32 (ofBits [a, b, c, d, e])).toNat ∧ (char32 (ofBits [a, b, c, d, e])).toNat ≤ 122) ∨
    (50 ≤ (char32 (ofBits [a, b, c, d, e])).toNat ∧ (char32 (ofBits [a, b, c, d, e])).toNat ≤ 55) := by
    decide
  exact this a b c d e

theorem base32_length (bs : Bytes) : 8 * bs.length ≤ 5 * (base32 bs).length := by
  unfold base32
  rw [List.length_map]
  obtain ⟨z, _, hfl⟩ := groups5_flatten (bs.flatMap (fun b => bitsOf 8 b.toNat))
  have hlen := groups5_len (bs.flatMap (fun b => bitsOf 8 b.toNat))
  generalize groups5 (bs.flatMap (fun b => bitsOf 8 b.toNat)) = gs at hlen hfl
  have h1 : gs.flatten.length = 5 * gs.length := by
    clear hfl
    induction gs with
    | nil => rfl
    | cons g gs ih =>
      rw [List.flatten_cons, List.length_append, hlen g (by simp), ih (fun g hg => hlen g (by simp [hg]))]
      simp; omega
  have hl8 : (bs.flatMap (fun b => bitsOf 8 b.toNat)).length = 8 * bs.length := by
    clear hfl h1
    induction bs with
    | nil => rfl
    | cons b bs ih => simp only [List.flatMap_cons, List.length_append, ih, bitsOf_length, List.length_cons]; omega
  rw [hfl, List.length_append, hl8] at h1
  omega

end Verif
