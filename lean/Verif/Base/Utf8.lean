import Verif.Base.Bytes
import Verif.Base.Split

/-!
# UTF-8

`utf8Ok` accepts exactly the encodings of sequences of Unicode scalar values.
-/

namespace Verif

/-- A Unicode scalar value. -/
def IsScalar (n : Nat) : Prop := n < 0xD800 ∨ (0xE000 ≤ n ∧ n < 0x110000)

/-- The bytes of a scalar value. -/
def encodeScalar (n : Nat) : Bytes :=
  if n < 0x80 then [UInt8.ofNat n]
  else if n < 0x800 then [UInt8.ofNat (0xC0 + n / 64), UInt8.ofNat (0x80 + n % 64)]
  else if n < 0x10000 then
    [UInt8.ofNat (0xE0 + n / 4096), UInt8.ofNat (0x80 + n / 64 % 64), UInt8.ofNat (0x80 + n % 64)]
  else
    [UInt8.ofNat (0xF0 + n / 262144), UInt8.ofNat (0x80 + n / 4096 % 64), UInt8.ofNat (0x80 + n / 64 % 64),
      UInt8.ofNat (0x80 + n % 64)]

theorem isCont_iff (b : UInt8) : isCont b = true ↔ 128 ≤ b.toNat ∧ b.toNat ≤ 191 := by
  simp [isCont, UInt8.le_iff_toNat_le]

/-- The first bytes of well-formed text are a scalar value. -/
theorem utf8Ok_cons {b : UInt8} {s : Bytes} (h : utf8Ok (b :: s) = true) :
    ∃ n r, IsScalar n ∧ b :: s = encodeScalar n ++ r ∧ utf8Ok r = true := by
  rw [utf8Ok.eq_def] at h
  simp only at h
  split at h
  · rename_i hb
    rw [UInt8.lt_iff_toNat_lt] at hb
    have hb : b.toNat < 128 := hb
    refine ⟨b.toNat, s, Or.inl (by omega), ?_, h⟩
    simp [encodeScalar, hb]
  · rename_i hb
    rw [UInt8.lt_iff_toNat_lt] at hb
    have hb : ¬ b.toNat < 128 := hb
    split at h
    · cases h
    · rename_i c1 r1
      split at h
      · rename_i hb2
        simp only [Bool.and_eq_true, decide_eq_true_eq, UInt8.le_iff_toNat_le, isCont_iff] at hb2 h
        obtain ⟨h1, h2⟩ := hb2
        have h1 : 194 ≤ b.toNat := h1
        have h2 : b.toNat ≤ 223 := h2
        obtain ⟨⟨h3, h4⟩, h⟩ := h
        refine ⟨(b.toNat - 192) * 64 + (c1.toNat - 128), r1, Or.inl (by omega), ?_, h⟩
        unfold encodeScalar
        rw [if_neg (by omega), if_pos (by omega)]
        simp only [List.cons_append, List.nil_append, List.cons.injEq, and_true, ← UInt8.toNat_inj,
          UInt8.toNat_ofNat']
        omega
      · rename_i hb2
        simp only [Bool.and_eq_true, decide_eq_true_eq, UInt8.le_iff_toNat_le] at hb2
        have hb2 : ¬ (194 ≤ b.toNat ∧ b.toNat ≤ 223) := hb2
        split at h
        · cases h
        · rename_i c2 r2
          have three : ∀ (_ : 224 ≤ b.toNat) (_ : b.toNat ≤ 239) (_ : 128 ≤ c1.toNat) (_ : c1.toNat ≤ 191)
              (_ : 128 ≤ c2.toNat) (_ : c2.toNat ≤ 191) (_ : b.toNat = 224 → 160 ≤ c1.toNat)
              (_ : b.toNat = 237 → c1.toNat ≤ 159) (_ : utf8Ok r2 = true),
              ∃ n r, IsScalar n ∧ b :: c1 :: c2 :: r2 = encodeScalar n ++ r ∧ utf8Ok r = true := by
            intro g1 g2 g3 g4 g5 g6 g7 g8 g9
            refine ⟨(b.toNat - 224) * 4096 + (c1.toNat - 128) * 64 + (c2.toNat - 128), r2, ?_, ?_, g9⟩
            · unfold IsScalar; omega
            · unfold encodeScalar
              rw [if_neg (by omega), if_neg (by omega), if_pos (by omega)]
              simp only [List.cons_append, List.nil_append, List.cons.injEq, and_true, ← UInt8.toNat_inj,
                UInt8.toNat_ofNat']
              omega
          split at h
          · rename_i hb3
            have hb3 := eq_of_beq hb3
            have hb3 : b.toNat = 224 := by rw [hb3]; rfl
            simp only [Bool.and_eq_true, decide_eq_true_eq, UInt8.le_iff_toNat_le, isCont_iff] at h
            obtain ⟨⟨⟨h1, h2⟩, h3, h4⟩, h⟩ := h
            have h1 : 160 ≤ c1.toNat := h1
            have h2 : c1.toNat ≤ 191 := h2
            exact three (by omega) (by omega) (by omega) (by omega) h3 h4 (by omega) (by omega) h
          · rename_i hb3
            split at h
            · rename_i hb4
              have hb4 := eq_of_beq hb4
              have hb4 : b.toNat = 237 := by rw [hb4]; rfl
              simp only [Bool.and_eq_true, decide_eq_true_eq, UInt8.le_iff_toNat_le, isCont_iff] at h
              obtain ⟨⟨⟨h1, h2⟩, h3, h4⟩, h⟩ := h
              have h1 : 128 ≤ c1.toNat := h1
              have h2 : c1.toNat ≤ 159 := h2
              exact three (by omega) (by omega) (by omega) (by omega) h3 h4 (by omega) (by omega) h
            · rename_i hb4
              split at h
              · rename_i hb5
                simp only [Bool.and_eq_true, decide_eq_true_eq, UInt8.le_iff_toNat_le, isCont_iff] at h hb5
                obtain ⟨g1, g2⟩ := hb5
                have g1 : 225 ≤ b.toNat := g1
                have g2 : b.toNat ≤ 239 := g2
                obtain ⟨⟨⟨h1, h2⟩, h3, h4⟩, h⟩ := h
                refine three (by omega) (by omega) h1 h2 h3 h4 (by omega) ?_ h
                intro he
                exfalso
                apply hb4
                rw [beq_iff_eq, ← UInt8.toNat_inj]
                exact he
              · rename_i hb5
                split at h
                · cases h
                · rename_i c3 r3
                  have four : ∀ (_ : 240 ≤ b.toNat) (_ : b.toNat ≤ 244) (_ : 128 ≤ c1.toNat) (_ : c1.toNat ≤ 191)
                      (_ : 128 ≤ c2.toNat) (_ : c2.toNat ≤ 191) (_ : 128 ≤ c3.toNat) (_ : c3.toNat ≤ 191)
                      (_ : b.toNat = 240 → 144 ≤ c1.toNat)
                      (_ : b.toNat = 244 → c1.toNat ≤ 143) (_ : utf8Ok r3 = true),
                      ∃ n r, IsScalar n ∧ b :: c1 :: c2 :: c3 :: r3 = encodeScalar n ++ r ∧ utf8Ok r = true := by
                    intro g1 g2 g3 g4 g5 g6 g7 g8 g9 g10 g11
                    refine ⟨(b.toNat - 240) * 262144 + (c1.toNat - 128) * 4096 + (c2.toNat - 128) * 64 +
                      (c3.toNat - 128), r3, ?_, ?_, g11⟩
                    · unfold IsScalar; omega
                    · unfold encodeScalar
                      rw [if_neg (by omega), if_neg (by omega), if_neg (by omega)]
                      simp only [List.cons_append, List.nil_append, List.cons.injEq, and_true, ← UInt8.toNat_inj,
                        UInt8.toNat_ofNat']
                      omega
                  split at h
                  · rename_i hb6
                    have hb6 := eq_of_beq hb6
                    have hb6 : b.toNat = 240 := by rw [hb6]; rfl
                    simp only [Bool.and_eq_true, decide_eq_true_eq, UInt8.le_iff_toNat_le, isCont_iff] at h
                    obtain ⟨⟨⟨⟨h1, h2⟩, h3, h4⟩, h5, h6⟩, h⟩ := h
                    have h1 : 144 ≤ c1.toNat := h1
                    have h2 : c1.toNat ≤ 191 := h2
                    exact four (by omega) (by omega) (by omega) (by omega) h3 h4 h5 h6 (by omega) (by omega) h
                  · split at h
                    · rename_i hb6
                      have hb6 := eq_of_beq hb6
                      have hb6 : b.toNat = 244 := by rw [hb6]; rfl
                      simp only [Bool.and_eq_true, decide_eq_true_eq, UInt8.le_iff_toNat_le, isCont_iff] at h
                      obtain ⟨⟨⟨⟨h1, h2⟩, h3, h4⟩, h5, h6⟩, h⟩ := h
                      have h1 : 128 ≤ c1.toNat := h1
                      have h2 : c1.toNat ≤ 143 := h2
                      exact four (by omega) (by omega) (by omega) (by omega) h3 h4 h5 h6 (by omega) (by omega) h
                    · split at h
                      · rename_i hb7
                        simp only [Bool.and_eq_true, decide_eq_true_eq, UInt8.le_iff_toNat_le, isCont_iff] at h hb7
                        obtain ⟨g1, g2⟩ := hb7
                        have g1 : 241 ≤ b.toNat := g1
                        have g2 : b.toNat ≤ 243 := g2
                        obtain ⟨⟨⟨⟨h1, h2⟩, h3, h4⟩, h5, h6⟩, h⟩ := h
                        exact four (by omega) (by omega) h1 h2 h3 h4 h5 h6 (by omega) (by omega) h
                      · cases h

/-- A scalar value in front does not matter. -/
theorem utf8Ok_encode {n : Nat} (h : IsScalar n) (r : Bytes) : utf8Ok (encodeScalar n ++ r) = utf8Ok r := by
  have hmod : ∀ k, (UInt8.ofNat k).toNat = k % 256 := by intro k; simp [UInt8.toNat_ofNat']
  have lt : ∀ (k : Nat) (c : UInt8), k < 256 → (UInt8.ofNat k < c ↔ k < c.toNat) := by
    intro k c hk; rw [UInt8.lt_iff_toNat_lt, hmod]; omega
  have le1 : ∀ (k : Nat) (c : UInt8), k < 256 → (UInt8.ofNat k ≤ c ↔ k ≤ c.toNat) := by
    intro k c hk; rw [UInt8.le_iff_toNat_le, hmod]; omega
  have le2 : ∀ (k : Nat) (c : UInt8), k < 256 → (c ≤ UInt8.ofNat k ↔ c.toNat ≤ k) := by
    intro k c hk; rw [UInt8.le_iff_toNat_le, hmod]; omega
  have beq : ∀ (k : Nat) (c : UInt8), k < 256 → ((UInt8.ofNat k == c) = decide (k = c.toNat)) := by
    intro k c hk
    rw [Bool.eq_iff_iff, beq_iff_eq, decide_eq_true_eq, ← UInt8.toNat_inj, hmod]
    omega
  have cont : ∀ k, 128 ≤ k → k ≤ 191 → isCont (UInt8.ofNat k) = true := by
    intro k h1 h2; rw [isCont_iff, hmod]; omega
  have v80 : (0x80 : UInt8).toNat = 128 := rfl
  have vC2 : (0xC2 : UInt8).toNat = 194 := rfl
  have vDF : (0xDF : UInt8).toNat = 223 := rfl
  have vE0 : (0xE0 : UInt8).toNat = 224 := rfl
  have vE1 : (0xE1 : UInt8).toNat = 225 := rfl
  have vED : (0xED : UInt8).toNat = 237 := rfl
  have vEF : (0xEF : UInt8).toNat = 239 := rfl
  have vF0 : (0xF0 : UInt8).toNat = 240 := rfl
  have vF1 : (0xF1 : UInt8).toNat = 241 := rfl
  have vF3 : (0xF3 : UInt8).toNat = 243 := rfl
  have vF4 : (0xF4 : UInt8).toNat = 244 := rfl
  have vA0 : (0xA0 : UInt8).toNat = 160 := rfl
  have vBF : (0xBF : UInt8).toNat = 191 := rfl
  have v9F : (0x9F : UInt8).toNat = 159 := rfl
  have v90 : (0x90 : UInt8).toNat = 144 := rfl
  have v8F : (0x8F : UInt8).toNat = 143 := rfl
  unfold IsScalar at h
  unfold encodeScalar
  split
  · rename_i h1
    rw [List.cons_append, List.nil_append, utf8Ok.eq_def]
    simp only
    rw [if_pos ((lt _ _ (by omega)).mpr (by rw [v80]; omega))]
  · rename_i h1
    split
    · rename_i h2
      simp only [List.cons_append, List.nil_append]
      rw [utf8Ok.eq_def]
      simp only [lt (0xC0 + n / 64) _ (by omega), le1 (0xC0 + n / 64) _ (by omega), le2 (0xC0 + n / 64) _ (by omega), v80, vC2, vDF,
        cont (0x80 + n % 64) (by omega) (by omega)]
      rw [if_neg (by omega), if_pos (by simp only [Bool.and_eq_true, decide_eq_true_eq]; omega)]
      simp
    · rename_i h2
      split
      · rename_i h3
        simp only [List.cons_append, List.nil_append]
        rw [utf8Ok.eq_def]
        simp only [lt (0xE0 + n / 4096) _ (by omega), le1 (0xE0 + n / 4096) _ (by omega), le2 (0xE0 + n / 4096) _ (by omega), beq (0xE0 + n / 4096) _ (by omega), le1 (0x80 + n / 64 % 64) _ (by omega), le2 (0x80 + n / 64 % 64) _ (by omega),
          v80, vC2, vDF, vE0, vED, vE1, vEF, vA0, vBF, v9F,
          cont (0x80 + n % 64) (by omega) (by omega), cont (0x80 + n / 64 % 64) (by omega) (by omega)]
        rw [if_neg (by omega), if_neg (by simp only [Bool.and_eq_true, decide_eq_true_eq]; omega)]
        split
        · rename_i h4
          simp only [decide_eq_true_eq] at h4
          rw [decide_eq_true (by omega), decide_eq_true (by omega)]; simp
        · rename_i h4
          simp only [decide_eq_true_eq] at h4
          split
          · rename_i h5
            simp only [decide_eq_true_eq] at h5
            rw [decide_eq_true (by omega), decide_eq_true (by omega)]; simp
          · rename_i h5
            simp only [decide_eq_true_eq] at h5
            rw [if_pos (by simp only [Bool.and_eq_true, decide_eq_true_eq]; omega)]
            simp
      · rename_i h3
        simp only [List.cons_append, List.nil_append]
        rw [utf8Ok.eq_def]
        simp only [lt (0xF0 + n / 262144) _ (by omega), le1 (0xF0 + n / 262144) _ (by omega), le2 (0xF0 + n / 262144) _ (by omega), beq (0xF0 + n / 262144) _ (by omega), le1 (0x80 + n / 4096 % 64) _ (by omega), le2 (0x80 + n / 4096 % 64) _ (by omega),
          v80, vC2, vDF, vE0, vED, vE1, vEF, vA0, vBF, v9F, vF0, vF1, vF3, vF4, v90, v8F,
          cont (0x80 + n % 64) (by omega) (by omega), cont (0x80 + n / 64 % 64) (by omega) (by omega),
          cont (0x80 + n / 4096 % 64) (by omega) (by omega)]
        rw [if_neg (by omega), if_neg (by simp only [Bool.and_eq_true, decide_eq_true_eq]; omega),
          if_neg (by simp only [decide_eq_true_eq]; omega), if_neg (by simp only [decide_eq_true_eq]; omega),
          if_neg (by simp only [Bool.and_eq_true, decide_eq_true_eq]; omega)]
        split
        · rename_i h4
          simp only [decide_eq_true_eq] at h4
          rw [decide_eq_true (by omega), decide_eq_true (by omega)]; simp
        · rename_i h4
          simp only [decide_eq_true_eq] at h4
          split
          · rename_i h5
            simp only [decide_eq_true_eq] at h5
            rw [decide_eq_true (by omega), decide_eq_true (by omega)]; simp
          · rename_i h5
            simp only [decide_eq_true_eq] at h5
            rw [if_pos (by simp only [Bool.and_eq_true, decide_eq_true_eq]; omega)]
            simp

theorem encodeScalar_ne_nil (n : Nat) : encodeScalar n ≠ [] := by
  unfold encodeScalar; (repeat' split) <;> simp

/-- The text accepted is the text that encodes scalar values. -/
theorem utf8Ok_iff (b : Bytes) :
    utf8Ok b = true ↔ ∃ cs : List Nat, (∀ c ∈ cs, IsScalar c) ∧ b = (cs.map encodeScalar).flatten := by
  constructor
  · intro h
    induction hl : b.length using Nat.strongRecOn generalizing b with
    | ind k ih =>
      cases b with
      | nil => exact ⟨[], by simp, rfl⟩
      | cons x s =>
        obtain ⟨n, r, hn, he, hr⟩ := utf8Ok_cons h
        have hlt : r.length < k := by
          have := congrArg List.length he
          have h2 := List.length_pos_iff.mpr (encodeScalar_ne_nil n)
          rw [List.length_append] at this
          omega
        obtain ⟨cs, hcs, hcb⟩ := ih r.length hlt r hr rfl
        refine ⟨n :: cs, ?_, by rw [he, hcb]; rfl⟩
        intro c hc
        rcases List.mem_cons.mp hc with rfl | hc
        · exact hn
        · exact hcs c hc
  · rintro ⟨cs, hcs, rfl⟩
    induction cs with
    | nil => simp [utf8Ok]
    | cons c cs ih =>
      rw [List.map_cons, List.flatten_cons, utf8Ok_encode (hcs c (by simp))]
      exact ih (fun x hx => hcs x (by simp [hx]))

/-- Texts in a row. -/
theorem utf8Ok_append {a b : Bytes} (h : utf8Ok a = true) : utf8Ok (a ++ b) = utf8Ok b := by
  obtain ⟨cs, hcs, rfl⟩ := (utf8Ok_iff a).mp h
  clear h
  induction cs with
  | nil => rfl
  | cons c cs ih =>
    rw [List.map_cons, List.flatten_cons, List.append_assoc, utf8Ok_encode (hcs c (by simp))]
    exact ih (fun x hx => hcs x (by simp [hx]))

/-- An ASCII byte is never part of a longer character. -/
theorem ascii_not_mem {n : Nat} (hn : IsScalar n) {c : UInt8} (hc : c.toNat < 128) (h : c ∈ encodeScalar n) :
    encodeScalar n = [c] := by
  unfold encodeScalar at h ⊢
  unfold IsScalar at hn
  have hmod : ∀ k, (UInt8.ofNat k).toNat = k % 256 := by intro k; simp [UInt8.toNat_ofNat']
  split at h
  · rename_i h1
    rw [if_pos h1]
    simp only [List.mem_singleton] at h
    rw [h]
  · exfalso
    split at h
    · simp only [List.mem_cons, List.not_mem_nil, or_false] at h
      rcases h with rfl | rfl <;> rw [hmod] at hc <;> omega
    · split at h
      · simp only [List.mem_cons, List.not_mem_nil, or_false] at h
        rcases h with rfl | rfl | rfl <;> rw [hmod] at hc <;> omega
      · simp only [List.mem_cons, List.not_mem_nil, or_false] at h
        rcases h with rfl | rfl | rfl | rfl <;> rw [hmod] at hc <;> omega

/-- Text can be cut at an ASCII character. -/
theorem utf8Ok_cut {a b : Bytes} {c : UInt8} (hc : c.toNat < 128) (h : utf8Ok (a ++ c :: b) = true) :
    utf8Ok a = true ∧ utf8Ok b = true := by
  induction hl : a.length using Nat.strongRecOn generalizing a with
  | ind k ih =>
    cases a with
    | nil =>
      refine ⟨rfl, ?_⟩
      rw [List.nil_append, utf8Ok.eq_def] at h
      simp only at h
      rw [if_pos (by rw [UInt8.lt_iff_toNat_lt]; exact hc)] at h
      exact h
    | cons x s =>
      obtain ⟨n, r, hn, he, hr⟩ := utf8Ok_cons (b := x) (s := s ++ c :: b) h
      rw [show x :: (s ++ c :: b) = (x :: s) ++ c :: b from rfl] at he
      -- the character ends before the cut
      rcases Nat.lt_or_ge (x :: s).length (encodeScalar n).length with hlen | hlen
      · exfalso
        have hmem : c ∈ encodeScalar n := by
          have h1 : ((x :: s) ++ c :: b)[(x :: s).length]? = some c := by simp
          rw [he, List.getElem?_append_left hlen] at h1
          exact List.mem_of_getElem? h1
        have := ascii_not_mem hn hc hmem
        rw [this] at hlen
        simp at hlen
      · have h1 : (x :: s) = encodeScalar n ++ (x :: s).drop (encodeScalar n).length := by
          have h2 := congrArg (List.take (encodeScalar n).length) he
          rw [List.take_append_of_le_length hlen, List.take_left' rfl] at h2
          conv => lhs; rw [← List.take_append_drop (encodeScalar n).length (x :: s)]
          rw [h2]
        have h3 : r = (x :: s).drop (encodeScalar n).length ++ c :: b := by
          rw [h1, List.append_assoc] at he
          simpa using (List.append_cancel_left he).symm
        rw [h3] at hr
        have hpos := List.length_pos_iff.mpr (encodeScalar_ne_nil n)
        obtain ⟨g1, g2⟩ := ih ((x :: s).drop (encodeScalar n).length).length
          (by rw [List.length_drop]; omega) hr rfl
        refine ⟨?_, g2⟩
        rw [h1, utf8Ok_encode hn]
        exact g1

/-- The segments of text are text. -/
theorem utf8Ok_split {p : Bytes} (h : utf8Ok p = true) : ∀ x ∈ splitSlash p, utf8Ok x = true := by
  induction hl : p.length using Nat.strongRecOn generalizing p with
  | ind k ih =>
    by_cases hs : NoSlash p
    · rw [splitSlash_single hs]
      intro x hx
      rw [List.mem_singleton.mp hx]
      exact h
    · have : (47 : UInt8) ∈ p := by
        refine Classical.byContradiction fun hn => hs (fun c hc he => hn (by rw [← he]; exact hc))
      obtain ⟨a, b, rfl⟩ := List.append_of_mem this
      obtain ⟨h1, h2⟩ := utf8Ok_cut (by decide) h
      rw [splitSlash_append']
      intro x hx
      rcases List.mem_append.mp hx with hx | hx
      · exact ih a.length (by rw [← hl]; simp) h1 rfl x hx
      · exact ih b.length (by rw [← hl]; simp; omega) h2 rfl x hx

end Verif
