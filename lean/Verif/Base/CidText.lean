import Verif.Base.Cid
import Verif.Base.Radix

/-!
# Cids and peer ids as text

`Cid::to_string`, `Cid::try_from(&str)` of cid 0.5 and `PeerId::to_base58`, `PeerId::from_str` of
libp2p-core 0.28. The multibase alphabets other than base32 lower case and base58btc, which only
matter when parsing foreign text, are the parameter `mb`.
-/

namespace Verif

/-- `Cid::to_string`: base58btc for version 0, base32 with the multibase prefix `b` for version 1. -/
def Cid.toText (c : Cid) : Bytes :=
  match c.version with
  | .v0 => base58 c.toBytes
  | .v1 => 98 :: base32 c.toBytes

/-- The text after the first "/ipfs/". -/
def afterIpfs : Bytes → Option Bytes
  | [] => none
  | c :: s => if (c :: s).take 6 = [47, 105, 112, 102, 115, 47] then some (s.drop 5) else afterIpfs s

/-- `Version::is_v0_str`. -/
def isV0Text (s : Bytes) : Bool := s.length == 46 && s.take 2 == [81, 109]

/-- `multibase::decode`. -/
def multibase (mb : UInt8 → Bytes → Option Bytes) : Bytes → Option Bytes
  | [] => none
  | c :: s => if c = 98 then unbase32 s else if c = 122 then unbase58 s else mb c s

/-- `Cid::try_from(&str)`. -/
def Cid.ofText (mb : UInt8 → Bytes → Option Bytes) (s : Bytes) : Option Cid :=
  let hash := (afterIpfs s).getD s
  if hash.length < 2 then none
  else if isV0Text hash then (unbase58 hash).bind Cid.ofBytes
  else (multibase mb hash).bind Cid.ofBytes

/-- A peer id is a multihash, here of code identity (at most 42 bytes) or sha2-256
(`PeerId::from_multihash`). -/
structure PeerId where
  mhCode : Nat
  digest : Bytes
deriving DecidableEq, Repr

/-- `PeerId::to_bytes`. -/
def PeerId.toBytes (p : PeerId) : Bytes := mhBytes p.mhCode p.digest

/-- `PeerId::from_multihash` after `Multihash::from_bytes`: unknown codes do not parse. -/
def PeerId.ofBytes (bs : Bytes) : Option PeerId :=
  match mhOfBytes bs with
  | none => none
  | some (code, d) =>
    if code = mhSha256 ∨ (code = 0 ∧ d.length ≤ 42) then some ⟨code, d⟩ else none

/-- `PeerId::to_string`. -/
def PeerId.toText (p : PeerId) : Bytes := base58 p.toBytes

/-- `PeerId::from_str`. -/
def PeerId.ofText (s : Bytes) : Option PeerId := (unbase58 s).bind PeerId.ofBytes

/-- The peer ids that can exist. -/
def PeerId.Valid (p : PeerId) : Prop :=
  (p.mhCode = mhSha256 ∨ (p.mhCode = 0 ∧ p.digest.length ≤ 42)) ∧ p.digest.length < 2 ^ 64

theorem PeerId.ofText_toText (p : PeerId) (h : p.Valid) : PeerId.ofText p.toText = some p := by
  obtain ⟨code, d⟩ := p
  obtain ⟨h1, h2⟩ := h
  unfold PeerId.ofText PeerId.toText
  rw [unbase58_base58]
  simp only [Option.bind_some, PeerId.ofBytes, PeerId.toBytes]
  have hc : code < 2 ^ 64 := by
    rcases h1 with h | ⟨h, _⟩
    · simp only at h; subst h; decide
    · simp only at h; subst h; decide
  rw [mhOfBytes_mhBytes hc h2]
  simp only
  rw [if_pos h1]

theorem afterIpfs_none {s : Bytes} (h : ∀ c ∈ s, c ≠ 47) : afterIpfs s = none := by
  induction s with
  | nil => rfl
  | cons c s ih =>
    have hc := h c (by simp)
    simp only [afterIpfs]
    rw [if_neg, ih (fun x hx => h x (by simp [hx]))]
    intro he
    rw [List.take_succ_cons] at he
    exact hc (List.cons.inj he).1

theorem base32_no_slash (bs : Bytes) : ∀ c ∈ base32 bs, c ≠ 47 ∧ c ≠ 46 := by
  intro c hc
  have := base32_chars bs c hc
  refine ⟨?_, ?_⟩ <;> (rintro rfl; revert this; decide)

theorem char58_ok : ∀ d < 58, char58 d ≠ 47 ∧ char58 d ≠ 46 ∧ char58 d ≠ 48 := by decide +kernel

theorem base58_no_slash (bs : Bytes) : ∀ c ∈ base58 bs, c ≠ 47 ∧ c ≠ 46 := by
  intro c hc
  unfold base58 at hc
  obtain ⟨d, hd, rfl⟩ := List.mem_map.mp hc
  have := char58_ok d (convert_lt (by decide) _ d hd)
  exact ⟨this.1, this.2.1⟩

/-- The digits of a number that is a few leading digits followed by `k` more. -/
theorem digits_split {b : Nat} (hb : 2 ≤ b) (k n : Nat) (h : n / b ^ k ≠ 0) :
    ∃ tl, tl.length = k ∧ digits b n = digits b (n / b ^ k) ++ tl := by
  induction k generalizing n with
  | zero => exact ⟨[], rfl, by simp⟩
  | succ k ih =>
    have hdiv : n / b ^ (k + 1) = n / b / b ^ k := by
      rw [Nat.pow_succ, Nat.mul_comm, Nat.div_div_eq_div_mul]
    rw [hdiv] at h ⊢
    obtain ⟨tl, h1, h2⟩ := ih (n / b) h
    refine ⟨tl ++ [n % b], by simp [h1], ?_⟩
    have hn : n ≠ 0 := by rintro rfl; simp at h
    rw [digits, dif_neg (by omega), h2, List.append_assoc]

theorem ofDigits_lt {b : Nat} (ds : List Nat) (h : ∀ d ∈ ds, d < b) :
    ofDigits b ds < b ^ ds.length := by
  have key : ∀ (ds : List Nat), (∀ d ∈ ds, d < b) → ∀ a,
      ds.foldl (fun a d => a * b + d) a < (a + 1) * b ^ ds.length := by
    intro ds
    induction ds with
    | nil => intro _ a; simp
    | cons d ds ih =>
      intro h a
      simp only [List.foldl_cons, List.length_cons]
      have h1 := ih (fun x hx => h x (by simp [hx])) (a * b + d)
      have hd := h d (by simp)
      refine Nat.lt_of_lt_of_le h1 ?_
      rw [Nat.pow_succ, Nat.mul_comm (b ^ ds.length) b, ← Nat.mul_assoc]
      refine Nat.mul_le_mul_right _ ?_
      rw [Nat.add_mul]; omega
  simpa [ofDigits] using key ds h 0

theorem ofDigits_append (b : Nat) (xs ys : List Nat) :
    ofDigits b (xs ++ ys) = ofDigits b xs * b ^ ys.length + ofDigits b ys := by
  induction ys generalizing xs with
  | nil => simp [ofDigits]
  | cons y ys ih =>
    rw [show xs ++ y :: ys = (xs ++ [y]) ++ ys by simp, ih, ofDigits_snoc,
      show y :: ys = [y] ++ ys by simp, ih [y]]
    simp only [ofDigits, List.foldl_cons, List.foldl_nil, List.length_append, List.length_cons,
      List.length_nil, Nat.zero_mul, Nat.zero_add, Nat.add_mul]
    rw [Nat.add_comm 1, Nat.pow_succ, Nat.mul_assoc, Nat.mul_comm b]
    omega

/-- Every version 0 cid is written with 46 characters beginning with "Qm". -/
theorem v0_text (d : Bytes) (h : d.length = 32) : isV0Text (base58 (mhBytes mhSha256 d)) = true := by
  have hb : mhBytes mhSha256 d = 0x12 :: 0x20 :: d := by
    simp [mhBytes, mhSha256, writeVarint_small, h]
  rw [hb]
  have hlz : leadingZeros ((0x12 :: 0x20 :: d : Bytes).map UInt8.toNat) = 0 := rfl
  have hlt := ofDigits_lt (b := 256) _ (map_toNat_lt d)
  rw [List.length_map, h] at hlt
  have hn : ofDigits 256 ((0x12 :: 0x20 :: d : Bytes).map UInt8.toNat) =
      0x1220 * 256 ^ 32 + ofDigits 256 (d.map UInt8.toNat) := by
    rw [show (0x12 :: 0x20 :: d : Bytes).map UInt8.toNat = [0x12, 0x20] ++ d.map UInt8.toNat from rfl,
      ofDigits_append, List.length_map, h]
    rfl
  have hq : ofDigits 256 ((0x12 :: 0x20 :: d : Bytes).map UInt8.toNat) / 58 ^ 44 = 23 * 58 + 44 := by
    rw [hn]
    generalize ofDigits 256 (d.map UInt8.toNat) = x at hlt
    rw [Nat.div_eq_iff (by decide)]
    constructor
    · have : (23 * 58 + 44) * 58 ^ 44 ≤ 0x1220 * 256 ^ 32 := by decide
      omega
    · have : 0x1220 * 256 ^ 32 + 256 ^ 32 ≤ (23 * 58 + 44) * 58 ^ 44 + 58 ^ 44 - 1 := by decide
      omega
  obtain ⟨tl, h1, h2⟩ := digits_split (b := 58) (by decide) 44 _ (by rw [hq]; decide)
  unfold base58 convert
  rw [hlz, h2, hq]
  have hd2 : digits 58 (23 * 58 + 44) = [23, 44] := by
    rw [digits_step (by decide) (by decide) (by decide)]
    rw [show 23 = 0 * 58 + 23 by rfl, digits_step (by decide) (by decide) (by decide), digits_zero]
    rfl
  rw [hd2]
  simp [isV0Text, h1]
  decide +kernel

/-- Every valid cid survives `to_string` / `try_from`. -/
theorem Cid.ofText_toText (mb : UInt8 → Bytes → Option Bytes) (c : Cid) (h : c.Valid) :
    Cid.ofText mb c.toText = some c := by
  have hb := Cid.ofBytes_toBytes c h
  cases hv : c.version with
  | v0 =>
    obtain ⟨_, h2, h3⟩ := h.1 hv
    have ht : c.toText = base58 (mhBytes mhSha256 c.digest) := by
      simp [Cid.toText, hv, Cid.toBytes, h2]
    have hbytes : c.toBytes = mhBytes mhSha256 c.digest := by simp [hv, Cid.toBytes, h2]
    have h0 := v0_text c.digest h3
    unfold Cid.ofText
    rw [ht, afterIpfs_none (fun x hx => (base58_no_slash _ x hx).1)]
    simp only [Option.getD_none, h0, if_true]
    rw [if_neg, unbase58_base58, ← hbytes]
    · exact hb
    · simp only [isV0Text, Bool.and_eq_true, beq_iff_eq] at h0
      omega
  | v1 =>
    have ht : c.toText = 98 :: base32 c.toBytes := by simp [Cid.toText, hv]
    unfold Cid.ofText
    rw [ht, afterIpfs_none]
    · simp only [Option.getD_none]
      rw [if_neg, if_neg]
      · simp only [multibase, if_true]
        rw [unbase32_base32]
        exact hb
      · simp [isV0Text]
      · have := base32_length c.toBytes
        have : 0 < c.toBytes.length := by
          simp only [Cid.toBytes, hv, List.length_append]
          have := writeVarint_length_pos 1
          omega
        simp only [List.length_cons]
        omega
    · intro x hx
      rcases List.mem_cons.mp hx with rfl | hx
      · decide
      · exact (base32_no_slash _ x hx).1

theorem Cid.toText_injective {a b : Cid} (ha : a.Valid) (hb : b.Valid) (h : a.toText = b.toText) :
    a = b := by
  have h1 := Cid.ofText_toText (fun _ _ => none) a ha
  have h2 := Cid.ofText_toText (fun _ _ => none) b hb
  rw [h, h2] at h1
  simpa using h1.symm

theorem mhOfBytes_lt {bs : Bytes} {code : Nat} {d : Bytes} (h : mhOfBytes bs = some (code, d)) :
    code < 2 ^ 64 ∧ d.length < 2 ^ 64 := by
  unfold mhOfBytes at h
  split at h
  · cases h
  · rename_i h1
    split at h
    · cases h
    · rename_i h2
      split at h
      · rename_i h3
        cases h
        exact ⟨readVarint_lt h1, by rw [h3]; exact readVarint_lt h2⟩
      · cases h

/-- A parsed cid is valid, unless it is of version 0 with a digest not of 32 bytes (which needs the
version to be spelt out in the bytes). -/
theorem Cid.ofBytes_valid {bs : Bytes} {c : Cid} (h : Cid.ofBytes bs = some c)
    (h32 : c.version = .v0 → c.digest.length = 32) : c.Valid := by
  have hnew : ∀ v codec code d, knownCodec codec = true → code < 2 ^ 64 → d.length < 2 ^ 64 →
      Cid.new v codec code d = some c → c.Valid := by
    intro v codec code d hk hc hd hn
    cases v with
    | v0 =>
      simp only [Cid.new] at hn
      split at hn
      · rename_i hh
        cases hn
        exact ⟨fun _ => ⟨hh.1, hh.2, h32 rfl⟩, hk, hc, hd⟩
      · cases hn
    | v1 => cases hn; exact ⟨fun hv => (by cases hv), hk, hc, hd⟩
  unfold Cid.ofBytes at h
  split at h
  · split at h
    · cases h
    · rename_i h1
      have := mhOfBytes_lt h1
      exact hnew _ _ _ _ rfl this.1 this.2 h
  · split at h
    · cases h
    · split at h
      · cases h
      · split at h
        · rename_i hk
          split at h
          · cases h
          · rename_i h1
            have := mhOfBytes_lt h1
            split at h
            · exact hnew _ _ _ _ hk this.1 this.2 h
            · split at h
              · exact hnew _ _ _ _ hk this.1 this.2 h
              · cases h
        · cases h

theorem Cid.ofText_bytes {mb : UInt8 → Bytes → Option Bytes} {s : Bytes} {c : Cid}
    (h : Cid.ofText mb s = some c) : ∃ bs, Cid.ofBytes bs = some c := by
  unfold Cid.ofText at h
  simp only at h
  split at h
  · cases h
  · split at h <;>
    · obtain ⟨bs, _, hb⟩ := Option.bind_eq_some_iff.mp h
      exact ⟨bs, hb⟩

theorem Cid.toText_no_slash (c : Cid) : ∀ x ∈ c.toText, x ≠ 47 := by
  intro x hx
  unfold Cid.toText at hx
  split at hx
  · exact (base58_no_slash _ x hx).1
  · rcases List.mem_cons.mp hx with rfl | hx
    · decide
    · exact (base32_no_slash _ x hx).1

theorem PeerId.ofBytes_valid {bs : Bytes} {p : PeerId} (h : PeerId.ofBytes bs = some p) : p.Valid := by
  unfold PeerId.ofBytes at h
  split at h
  · cases h
  · rename_i h1
    split at h
    · rename_i h2
      cases h
      exact ⟨h2, (mhOfBytes_lt h1).2⟩
    · cases h

end Verif
