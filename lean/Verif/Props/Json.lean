import Verif.Base.Json

/-!
# C65 (JSON): which texts are read, and as what

The grammar is that of RFC 8259, with the nesting bounded.
-/

namespace Verif.Props

open Verif

/-! ### Specification -/

/-- Spaces, line breaks and tabs. -/
def JWs (w : Bytes) : Prop := ∀ c ∈ w, c = 32 ∨ c = 10 ∨ c = 9 ∨ c = 13

/-- A decimal digit. -/
def JDigit (c : UInt8) : Prop := 48 ≤ c.toNat ∧ c.toNat ≤ 57

instance (c : UInt8) : Decidable (JDigit c) := by unfold JDigit; infer_instance

/-- One or more digits. -/
def JDigits (ds : Bytes) : Prop := ds ≠ [] ∧ ∀ c ∈ ds, JDigit c

/-- An exponent, or nothing. -/
inductive JExp : Bytes → Prop
  | none : JExp []
  | some {c : UInt8} {sign ds : Bytes} : c = 101 ∨ c = 69 → sign = [] ∨ sign = [43] ∨ sign = [45] → JDigits ds →
      JExp (c :: (sign ++ ds))

/-- A fraction and an exponent; both may be missing. -/
inductive JTail : Bytes → Prop
  | plain {e : Bytes} : JExp e → JTail e
  | frac {ds e : Bytes} : JDigits ds → JExp e → JTail (46 :: (ds ++ e))

/-- A number has digits, without zeros in front, and possibly a fraction and an exponent. -/
def JNumber (n : JNum) : Prop :=
  JDigits n.int ∧ (n.int.head? = some 48 → n.int = [48]) ∧ JTail n.tail

/-- A byte that would make the number longer. -/
def Continues (n : JNum) (c : UInt8) : Prop :=
  JDigit c ∨ (c = 46 ∧ n.tail = []) ∨ ((c = 101 ∨ c = 69) ∧ ∀ x ∈ n.tail, x ≠ 101 ∧ x ≠ 69)

/-- The value ends where this text follows: a number is not continued. -/
def EndsHere (j : Json) (rest : Bytes) : Prop :=
  ∀ n, j = .num n → ∀ c r, rest = c :: r → ¬ Continues n c

/-- A hexadecimal digit and its value. -/
def HexDigit (c : UInt8) (v : Nat) : Prop :=
  "0123456789abcdef".toUTF8.toList[v]? = some c ∨ "0123456789ABCDEF".toUTF8.toList[v]? = some c

/-- Four hexadecimal digits. -/
inductive Hex4 : Nat → Bytes → Prop
  | mk {a b c d : UInt8} {w x y z : Nat} : HexDigit a w → HexDigit b x → HexDigit c y → HexDigit d z →
      Hex4 (w * 4096 + x * 256 + y * 16 + z) [a, b, c, d]

/-- Which character stands for which after a backslash. -/
def escapes : List (UInt8 × UInt8) :=
  [(34, 34), (92, 92), (47, 47), (98, 8), (102, 12), (110, 10), (114, 13), (116, 9)]

/-- A byte or an escape inside a string, and the bytes it stands for. -/
inductive Piece : Bytes → Bytes → Prop
  | plain {c : UInt8} : 32 ≤ c.toNat → c ≠ 34 → c ≠ 92 → Piece [c] [c]
  | esc {c b : UInt8} : (c, b) ∈ escapes → Piece [b] [92, c]
  | unicode {n : Nat} {t : Bytes} : Hex4 n t → IsScalar n → Piece (encodeScalar n) (92 :: 117 :: t)
  | pair {n m : Nat} {t u : Bytes} : Hex4 n t → Hex4 m u → 0xD800 ≤ n → n < 0xDC00 → 0xDC00 ≤ m → m < 0xE000 →
      Piece (encodeScalar (0x10000 + (n - 0xD800) * 0x400 + (m - 0xDC00))) (92 :: 117 :: (t ++ 92 :: 117 :: u))

/-- What stands between the quotes. -/
inductive Quoted : Bytes → Bytes → Prop
  | nil : Quoted [] []
  | cons {o u s t : Bytes} : Piece o u → Quoted s t → Quoted (o ++ s) (u ++ t)

mutual
/-- The texts of a value with at most so many lists and objects inside each other. -/
inductive JText : Nat → Json → Bytes → Prop
  | null {d : Nat} : JText d .null "null".toUTF8.toList
  | tru {d : Nat} : JText d (.bool true) "true".toUTF8.toList
  | fals {d : Nat} : JText d (.bool false) "false".toUTF8.toList
  | num {d : Nat} {n : JNum} : JNumber n → JText d (.num n) ((if n.neg then [45] else []) ++ n.int ++ n.tail)
  | str {d : Nat} {s t : Bytes} : Quoted s t → utf8Ok s = true → JText d (.str s) (34 :: (t ++ [34]))
  | arr {d : Nat} {l : List Json} {t : Bytes} : Elems d l t → JText (d + 1) (.arr l) (91 :: (t ++ [93]))
  | obj {d : Nat} {m : List (Bytes × Json)} {t : Bytes} : Members d m t → JText (d + 1) (.obj m) (123 :: (t ++ [125]))

inductive Elems : Nat → List Json → Bytes → Prop
  | none {d : Nat} {w : Bytes} : JWs w → Elems d [] w
  | some {d : Nat} {w t m : Bytes} {j : Json} {l : List Json} : JWs w → JText d j t → MoreElems d l m →
      Elems d (j :: l) (w ++ (t ++ m))

inductive MoreElems : Nat → List Json → Bytes → Prop
  | none {d : Nat} {w : Bytes} : JWs w → MoreElems d [] w
  | some {d : Nat} {w w' t m : Bytes} {j : Json} {l : List Json} : JWs w → JWs w' → JText d j t → MoreElems d l m →
      MoreElems d (j :: l) (w ++ 44 :: (w' ++ (t ++ m)))

inductive Members : Nat → List (Bytes × Json) → Bytes → Prop
  | none {d : Nat} {w : Bytes} : JWs w → Members d [] w
  | some {d : Nat} {w k q w1 w2 t m : Bytes} {j : Json} {l : List (Bytes × Json)} : JWs w → Quoted k q →
      utf8Ok k = true → JWs w1 → JWs w2 → JText d j t → MoreMembers d l m →
      Members d ((k, j) :: l) (w ++ 34 :: (q ++ 34 :: (w1 ++ 58 :: (w2 ++ (t ++ m)))))

inductive MoreMembers : Nat → List (Bytes × Json) → Bytes → Prop
  | none {d : Nat} {w : Bytes} : JWs w → MoreMembers d [] w
  | some {d : Nat} {w w' k q w1 w2 t m : Bytes} {j : Json} {l : List (Bytes × Json)} : JWs w → JWs w' → Quoted k q →
      utf8Ok k = true → JWs w1 → JWs w2 → JText d j t → MoreMembers d l m →
      MoreMembers d ((k, j) :: l) (w ++ 44 :: (w' ++ 34 :: (q ++ 34 :: (w1 ++ 58 :: (w2 ++ (t ++ m))))))
end

/-! ### White space and digits -/

theorem isDigit_iff (c : UInt8) : isDigit c = true ↔ JDigit c := by simp [isDigit, JDigit]

theorem skipWs_split (s : Bytes) : ∃ w, JWs w ∧ s = w ++ skipWs s ∧
    ∀ c r, skipWs s = c :: r → ¬ (c = 32 ∨ c = 10 ∨ c = 9 ∨ c = 13) := by
  induction s with
  | nil => exact ⟨[], by simp [JWs], rfl, by simp [skipWs]⟩
  | cons c s ih =>
    simp only [skipWs]
    split
    · rename_i hc
      obtain ⟨w, h1, h2, h3⟩ := ih
      refine ⟨c :: w, ?_, by rw [List.cons_append, ← h2], h3⟩
      intro x hx
      rcases List.mem_cons.mp hx with rfl | hx
      · exact hc
      · exact h1 x hx
    · rename_i hc
      refine ⟨[], by simp [JWs], rfl, ?_⟩
      intro x r h
      simp only [List.cons.injEq] at h
      rw [← h.1]; exact hc

theorem skipWs_append {w : Bytes} (hw : JWs w) {s : Bytes}
    (hs : ∀ c r, s = c :: r → ¬ (c = 32 ∨ c = 10 ∨ c = 9 ∨ c = 13)) : skipWs (w ++ s) = s := by
  induction w with
  | nil =>
    cases s with
    | nil => rfl
    | cons c s => simp only [List.nil_append, skipWs, if_neg (hs c s rfl)]
  | cons c w ih =>
    rw [List.cons_append, skipWs, if_pos (hw c (by simp))]
    exact ih (fun x hx => hw x (by simp [hx]))

theorem digitSpan_split (s : Bytes) : (∀ c ∈ (digitSpan s).1, JDigit c) ∧ s = (digitSpan s).1 ++ (digitSpan s).2 ∧
    ∀ c r, (digitSpan s).2 = c :: r → ¬ JDigit c := by
  induction s with
  | nil => simp [digitSpan]
  | cons c s ih =>
    obtain ⟨h1, h2, h3⟩ := ih
    rw [digitSpan]
    split
    · rename_i hc
      refine ⟨?_, by simp only [List.cons_append]; rw [← h2], h3⟩
      intro x hx
      rcases List.mem_cons.mp hx with rfl | hx
      · exact (isDigit_iff _).mp hc
      · exact h1 x hx
    · rename_i hc
      refine ⟨by simp, rfl, ?_⟩
      intro x r h
      simp only [List.cons.injEq] at h
      rw [← h.1, ← isDigit_iff]; exact hc

theorem digitSpan_append {ds : Bytes} (h : ∀ c ∈ ds, JDigit c) {s : Bytes} (hs : ∀ c r, s = c :: r → ¬ JDigit c) :
    digitSpan (ds ++ s) = (ds, s) := by
  induction ds with
  | nil =>
    cases s with
    | nil => rfl
    | cons c s =>
      have := hs c s rfl
      rw [← isDigit_iff] at this
      simp only [List.nil_append, digitSpan, if_neg this]
  | cons c ds ih =>
    have hc := (isDigit_iff c).mpr (h c (by simp))
    rw [List.cons_append, digitSpan, if_pos hc, ih (fun x hx => h x (by simp [hx]))]

/-! ### Numbers -/

/-- The rest does not go on with what is not there yet. -/
def NoExp (e r : Bytes) : Prop := ∀ c r', r = c :: r' → ¬ (JDigit c ∧ e ≠ []) ∧ ¬ ((c = 101 ∨ c = 69) ∧ e = [])

theorem readExp_iff (s e r : Bytes) : readExp s = some (e, r) ↔ JExp e ∧ s = e ++ r ∧ NoExp e r := by
  cases s with
  | nil =>
    simp only [readExp, Option.some.injEq, Prod.mk.injEq]
    constructor
    · rintro ⟨rfl, rfl⟩; exact ⟨.none, rfl, by simp [NoExp]⟩
    · rintro ⟨_, h, _⟩
      have := List.append_eq_nil_iff.mp h.symm
      exact ⟨this.1.symm, this.2.symm⟩
  | cons c s =>
    rw [readExp]
    split
    · rename_i hc
      -- the sign is what the digits start after
      have key : ∀ (sign t : Bytes), sign = [] ∨ sign = [43] ∨ sign = [45] → s = sign ++ t →
          (sign = [] → ∀ x t', t = x :: t' → x ≠ 43 ∧ x ≠ 45) →
          ((if (digitSpan t).1.isEmpty = true then none else some (c :: (sign ++ (digitSpan t).1), (digitSpan t).2)) =
            some (e, r) ↔ JExp e ∧ c :: s = e ++ r ∧ NoExp e r) := by
        intro sign t hsign hs hn
        obtain ⟨d1, d2, d3⟩ := digitSpan_split t
        constructor
        · intro h
          split at h
          · cases h
          · rename_i hne
            simp only [Option.some.injEq, Prod.mk.injEq] at h
            obtain ⟨rfl, rfl⟩ := h
            refine ⟨.some hc hsign ⟨?_, d1⟩, ?_, ?_⟩
            · intro h0; apply hne; rw [h0]; rfl
            · rw [hs]; simp only [List.cons_append, List.append_assoc]; rw [← d2]
            · intro x r' hx
              exact ⟨fun h => d3 x r' hx h.1, fun h => by simp at h⟩
        · rintro ⟨h1, h2, h3⟩
          cases h1 with
          | none =>
            simp only [List.nil_append] at h2
            exact absurd ⟨hc, rfl⟩ (h3 c s h2.symm).2
          | @some c' sign' ds hc' hsign' hds =>
            simp only [List.cons_append, List.cons.injEq, List.append_assoc] at h2
            obtain ⟨rfl, h2⟩ := h2
            obtain ⟨hne, hall⟩ := hds
            have hr : ∀ x r', r = x :: r' → ¬ JDigit x := by
              intro x r' hx hd
              exact (h3 x r' hx).1 ⟨hd, by simp⟩
            have hd0 : ∀ x ds', ds = x :: ds' → x ≠ 43 ∧ x ≠ 45 := by
              intro x ds' hx
              have := hall x (by rw [hx]; simp)
              constructor <;> (rintro rfl; revert this; decide)
            have hst : sign = sign' ∧ t = ds ++ r := by
              rw [hs] at h2
              cases ds with
              | nil => exact absurd rfl hne
              | cons x ds =>
                have hx := hd0 x ds rfl
                rcases hsign with rfl | rfl | rfl <;> rcases hsign' with rfl | rfl | rfl
                · exact ⟨rfl, h2⟩
                · simp only [List.nil_append, List.cons_append] at h2
                  exact absurd rfl (hn rfl 43 _ h2).1
                · simp only [List.nil_append, List.cons_append] at h2
                  exact absurd rfl (hn rfl 45 _ h2).2
                · simp only [List.nil_append, List.cons_append, List.cons.injEq] at h2
                  exact absurd h2.1.symm hx.1
                · simp only [List.nil_append, List.cons_append, List.cons.injEq, true_and] at h2
                  exact ⟨rfl, h2⟩
                · simp at h2
                · simp only [List.nil_append, List.cons_append, List.cons.injEq] at h2
                  exact absurd h2.1.symm hx.2
                · simp at h2
                · simp only [List.nil_append, List.cons_append, List.cons.injEq, true_and] at h2
                  exact ⟨rfl, h2⟩
            obtain ⟨rfl, rfl⟩ := hst
            rw [digitSpan_append hall hr]
            cases ds with
            | nil => exact absurd rfl hne
            | cons x ds => simp
      have hsg : (expSign s = [] ∨ expSign s = [43] ∨ expSign s = [45]) ∧ s = expSign s ++ s.drop (expSign s).length ∧
          (expSign s = [] → ∀ x t', s.drop (expSign s).length = x :: t' → x ≠ 43 ∧ x ≠ 45) := by
        unfold expSign
        split
        · simp
        · simp
        · rename_i h43 h45
          refine ⟨by simp, by simp, ?_⟩
          intro _ x t' hx
          simp only [List.length_nil, List.drop_zero] at hx
          constructor
          · rintro rfl; exact h43 _ hx
          · rintro rfl; exact h45 _ hx
      exact key _ _ hsg.1 hsg.2.1 hsg.2.2
    · rename_i hc
      simp only [Option.some.injEq, Prod.mk.injEq]
      constructor
      · rintro ⟨rfl, rfl⟩
        refine ⟨.none, rfl, ?_⟩
        intro x r' hx
        simp only [List.cons.injEq] at hx
        exact ⟨fun h => h.2 rfl, fun h => hc (by rw [hx.1]; exact h.1)⟩
      · rintro ⟨h1, h2, h3⟩
        cases h1 with
        | none => exact ⟨rfl, h2⟩
        | some hc' _ _ =>
          simp only [List.cons_append, List.cons.injEq] at h2
          rw [h2.1] at hc; exact absurd hc' hc

/-- The rest does not go on with what is missing after the digits. -/
def NoTail (t r : Bytes) : Prop :=
  ∀ c r', r = c :: r' → ¬ (JDigit c ∧ t ≠ []) ∧ ¬ (c = 46 ∧ t = []) ∧ ¬ ((c = 101 ∨ c = 69) ∧ ∀ x ∈ t, x ≠ 101 ∧ x ≠ 69)

theorem jexp_letter {e : Bytes} (h : JExp e) (hne : e ≠ []) : ¬ ∀ x ∈ e, x ≠ 101 ∧ x ≠ 69 := by
  cases h with
  | none => exact absurd rfl hne
  | some hc _ _ =>
    intro hx
    rcases hc with rfl | rfl
    · exact (hx 101 (by simp)).1 rfl
    · exact (hx 69 (by simp)).2 rfl

theorem jdigits_letter {ds : Bytes} (h : ∀ c ∈ ds, JDigit c) : ∀ x ∈ ds, x ≠ 101 ∧ x ≠ 69 := by
  intro x hx
  have := h x hx
  constructor <;> (rintro rfl; revert this; decide)

theorem readTail_iff (s t r : Bytes) : readTail s = some (t, r) ↔ JTail t ∧ s = t ++ r ∧ NoTail t r := by
  have plain : ∀ s : Bytes, (∀ r, s ≠ 46 :: r) →
      (readExp s = some (t, r) ↔ JTail t ∧ s = t ++ r ∧ NoTail t r) := by
    intro s h46
    rw [readExp_iff]
    constructor
    · rintro ⟨h1, h2, h3⟩
      refine ⟨.plain h1, h2, ?_⟩
      intro c r' hr
      refine ⟨(h3 c r' hr).1, ?_, ?_⟩
      · rintro ⟨rfl, ht⟩
        rw [ht, List.nil_append, hr] at h2
        exact h46 _ h2
      · rintro ⟨hc, hx⟩
        by_cases he : t = []
        · exact (h3 c r' hr).2 ⟨hc, he⟩
        · exact jexp_letter h1 he hx
    · rintro ⟨h1, h2, h3⟩
      cases h1 with
      | plain h1 =>
        refine ⟨h1, h2, ?_⟩
        intro c r' hr
        refine ⟨(h3 c r' hr).1, ?_⟩
        rintro ⟨hc, rfl⟩
        exact (h3 c r' hr).2.2 ⟨hc, by simp⟩
      | frac => exact absurd h2 (h46 _)
  cases s with
  | nil =>
    have := plain [] (by simp)
    simpa [readTail, readExp] using this
  | cons c s =>
    rw [readTail]
    split
    · rename_i hc
      subst hc
      obtain ⟨d1, d2, d3⟩ := digitSpan_split s
      constructor
      · intro h
        simp only at h
        split at h
        · cases h
        · rename_i hne
          split at h
          · rename_i e r' he
            simp only [Option.some.injEq, Prod.mk.injEq] at h
            obtain ⟨rfl, rfl⟩ := h
            obtain ⟨e1, e2, e3⟩ := (readExp_iff _ _ _).mp he
            refine ⟨.frac ⟨?_, d1⟩ e1, ?_, ?_⟩
            · intro h0; apply hne; rw [h0]; rfl
            · simp only [List.cons_append, List.append_assoc]; rw [← e2, ← d2]
            · intro c r'' hr
              refine ⟨?_, by simp, ?_⟩
              · rintro ⟨hd, _⟩
                by_cases he0 : e = []
                · rw [he0, List.nil_append, hr] at e2
                  exact d3 c r'' e2 hd
                · exact (e3 c r'' hr).1 ⟨hd, he0⟩
              · rintro ⟨hc, hx⟩
                by_cases he0 : e = []
                · exact (e3 c r'' hr).2 ⟨hc, he0⟩
                · exact jexp_letter e1 he0 (fun x hx' => hx x (by simp [hx']))
          · cases h
      · rintro ⟨h1, h2, h3⟩
        cases h1 with
        | plain h1 =>
          exfalso
          cases h1 with
          | none =>
            simp only [List.nil_append] at h2
            exact (h3 46 s h2.symm).2.1 ⟨rfl, rfl⟩
          | some hc _ _ =>
            simp only [List.cons_append, List.cons.injEq] at h2
            rw [← h2.1] at hc
            revert hc; decide
        | @frac ds e hds he =>
          simp only [List.cons_append, List.cons.injEq, List.append_assoc, true_and] at h2
          have hr : ∀ x r', e ++ r = x :: r' → ¬ JDigit x := by
            intro x r' hx hd
            cases he with
            | none =>
              simp only [List.nil_append] at hx
              exact (h3 x r' hx).1 ⟨hd, by simp⟩
            | some hc _ _ =>
              simp only [List.cons_append, List.cons.injEq] at hx
              rw [← hx.1] at hd
              rcases hc with rfl | rfl <;> (revert hd; decide)
          rw [h2, digitSpan_append hds.2 hr]
          have hne := hds.1
          cases hd : ds with
          | nil => exact absurd hd hne
          | cons x ds' =>
            simp only [List.isEmpty_cons, Bool.false_eq_true, if_false]
            have : readExp (e ++ r) = some (e, r) := by
              refine (readExp_iff _ _ _).mpr ⟨he, rfl, ?_⟩
              intro c r' hr'
              refine ⟨fun h => (h3 c r' hr').1 ⟨h.1, by simp⟩, ?_⟩
              rintro ⟨hc, he0⟩
              refine (h3 c r' hr').2.2 ⟨hc, ?_⟩
              intro x hx
              rw [he0, List.append_nil] at hx
              rcases List.mem_cons.mp hx with rfl | hx
              · decide
              · exact jdigits_letter hds.2 x hx
            rw [this]
    · rename_i hc
      refine plain (c :: s) ?_
      rintro r h
      simp only [List.cons.injEq] at h
      exact hc h.1

theorem readInt_iff (neg : Bool) (s r : Bytes) (n : JNum) : readInt neg s = some (n, r) ↔
    n.neg = neg ∧ JNumber n ∧ s = n.int ++ (n.tail ++ r) ∧ ∀ c r', r = c :: r' → ¬ Continues n c := by
  obtain ⟨d1, d2, d3⟩ := digitSpan_split s
  unfold readInt
  constructor
  · intro h
    simp only at h
    split at h
    · cases h
    · rename_i d ds hp
      split at h
      · cases h
      · rename_i hz
        split at h
        · rename_i t r' ht
          simp only [Option.some.injEq, Prod.mk.injEq] at h
          obtain ⟨rfl, rfl⟩ := h
          obtain ⟨t1, t2, t3⟩ := (readTail_iff _ _ _).mp ht
          rw [hp] at d1 d2
          refine ⟨rfl, ⟨⟨by simp, d1⟩, ?_, t1⟩, by rw [← t2]; exact d2, ?_⟩
          · intro h0
            simp only [List.head?_cons, Option.some.injEq] at h0
            subst h0
            by_cases hds : ds = []
            · rw [hds]
            · exact absurd ⟨rfl, hds⟩ hz
          · intro c r'' hr
            rintro (hd | ⟨rfl, h0⟩ | ⟨hc, hx⟩)
            · by_cases ht0 : t = []
              · rw [ht0, List.nil_append, hr] at t2
                exact d3 c r'' t2 hd
              · exact (t3 c r'' hr).1 ⟨hd, ht0⟩
            · exact (t3 _ r'' hr).2.1 ⟨rfl, h0⟩
            · exact (t3 c r'' hr).2.2 ⟨hc, hx⟩
        · cases h
  · rintro ⟨rfl, ⟨⟨hne, hall⟩, hz, ht⟩, hs, hr⟩
    have hr' : ∀ x r', n.tail ++ r = x :: r' → ¬ JDigit x := by
      intro x r' hx hd
      cases hta : n.tail with
      | nil =>
        rw [hta, List.nil_append] at hx
        exact hr x r' hx (Or.inl hd)
      | cons y t' =>
        rw [hta, List.cons_append, List.cons.injEq] at hx
        rw [hta] at ht
        rw [← hx.1] at hd
        cases ht with
        | plain ht =>
          cases ht with
          | some hc _ _ => rcases hc with rfl | rfl <;> (revert hd; decide)
        | frac => revert hd; decide
    rw [hs, digitSpan_append hall hr']
    have htail : readTail (n.tail ++ r) = some (n.tail, r) := by
      refine (readTail_iff _ _ _).mpr ⟨ht, rfl, ?_⟩
      intro c r' hc
      exact ⟨fun h => hr c r' hc (Or.inl h.1), fun h => hr c r' hc (Or.inr (Or.inl h)),
        fun h => hr c r' hc (Or.inr (Or.inr h))⟩
    simp only [htail]
    cases hi : n.int with
    | nil => exact absurd hi hne
    | cons d ds =>
      simp only []
      rw [if_neg]
      · rw [← hi]
      · rintro ⟨rfl, h2⟩
        have := hz (by rw [hi]; rfl)
        rw [hi, List.cons.injEq] at this
        exact h2 this.2

theorem jnumber_head {n : JNum} (h : JNumber n) : ∃ d ds, n.int = d :: ds ∧ JDigit d := by
  obtain ⟨⟨hne, hall⟩, _⟩ := h
  cases hi : n.int with
  | nil => exact absurd hi hne
  | cons d ds => exact ⟨d, ds, rfl, hall d (by rw [hi]; simp)⟩

theorem readNum_iff (s r : Bytes) (n : JNum) : readNum s = some (n, r) ↔
    JNumber n ∧ s = ((if n.neg then [45] else []) ++ n.int ++ n.tail) ++ r ∧ ∀ c r', r = c :: r' → ¬ Continues n c := by
  have other : (∀ t, s ≠ 45 :: t) → (readInt false s = some (n, r) ↔
      JNumber n ∧ s = ((if n.neg then [45] else []) ++ n.int ++ n.tail) ++ r ∧
        ∀ c r', r = c :: r' → ¬ Continues n c) := by
    intro h45
    rw [readInt_iff]
    constructor
    · rintro ⟨h1, h2, h3, h4⟩
      refine ⟨h2, ?_, h4⟩
      rw [h1]; simp [h3]
    · rintro ⟨h2, h3, h4⟩
      cases hn : n.neg with
      | true => rw [hn] at h3; exact absurd h3 (by simpa using h45 _)
      | false => exact ⟨rfl, h2, by rw [hn] at h3; simpa using h3, h4⟩
  unfold readNum
  split
  · rename_i t
    rw [readInt_iff]
    constructor
    · rintro ⟨h1, h2, h3, h4⟩
      refine ⟨h2, ?_, h4⟩
      rw [h1]; simp [h3]
    · rintro ⟨h2, h3, h4⟩
      cases hn : n.neg with
      | true => exact ⟨rfl, h2, by rw [hn] at h3; simpa using h3, h4⟩
      | false =>
        rw [hn] at h3
        obtain ⟨d, ds, hi, hd⟩ := jnumber_head h2
        rw [hi] at h3
        simp only [Bool.false_eq_true, if_false, List.nil_append, List.cons_append, List.cons.injEq] at h3
        rw [← h3.1] at hd
        exfalso; revert hd; decide
  · rename_i h
    exact other (fun t ht => h t ht)

/-! ### Strings -/

theorem hexOf_iff (c : UInt8) (v : Nat) : hexOf c = some v ↔ HexDigit c v := by
  have e1 : "0123456789abcdef".toUTF8.toList.length = 16 := by decide +kernel
  have e2 : "0123456789ABCDEF".toUTF8.toList.length = 16 := by decide +kernel
  have key : ∀ v < 16, ∀ n < 256, (hexOf (UInt8.ofNat n) = some v ↔ HexDigit (UInt8.ofNat n) v) := by
    unfold HexDigit
    decide +kernel
  by_cases hv : v < 16
  · have := key v hv c.toNat c.toNat_lt
    simpa using this
  · constructor
    · intro h
      exfalso
      simp only [hexOf] at h
      repeat' split at h
      all_goals first | (simp only [Option.some.injEq] at h; omega) | cases h
    · rintro (h | h)
      · have := (List.getElem?_eq_some_iff.mp h).1; omega
      · have := (List.getElem?_eq_some_iff.mp h).1; omega

theorem readHex4_iff (s r : Bytes) (n : Nat) : readHex4 s = some (n, r) ↔ ∃ t, Hex4 n t ∧ s = t ++ r := by
  constructor
  · intro h
    unfold readHex4 at h
    split at h
    · split at h
      · rename_i h1 h2 h3 h4
        rename_i a b c d r' _ _ _ _ w x y z
        simp only [Option.some.injEq, Prod.mk.injEq] at h
        obtain ⟨rfl, rfl⟩ := h
        rw [hexOf_iff] at h1 h2 h3 h4
        refine ⟨[a, b, c, d], ?_, rfl⟩
        have := Hex4.mk h1 h2 h3 h4
        have e : ((w * 16 + x) * 16 + y) * 16 + z = w * 4096 + x * 256 + y * 16 + z := by omega
        rw [e]; exact this
      · cases h
    · cases h
  · rintro ⟨t, ht, rfl⟩
    cases ht with
    | @mk a b c d w x y z h1 h2 h3 h4 =>
      rw [← hexOf_iff] at h1 h2 h3 h4
      simp only [List.cons_append, List.nil_append, readHex4, h1, h2, h3, h4, Option.some.injEq, Prod.mk.injEq, and_true]
      omega

theorem hex4_lt {n : Nat} {t : Bytes} (h : Hex4 n t) : n < 65536 := by
  have lt : ∀ {c : UInt8} {v : Nat}, HexDigit c v → v < 16 := by
    rintro c v (h | h)
    · have := (List.getElem?_eq_some_iff.mp h).1
      have e1 : "0123456789abcdef".toUTF8.toList.length = 16 := by decide +kernel
      omega
    · have := (List.getElem?_eq_some_iff.mp h).1
      have e1 : "0123456789ABCDEF".toUTF8.toList.length = 16 := by decide +kernel
      omega
  cases h with
  | mk h1 h2 h3 h4 =>
    have := lt h1; have := lt h2; have := lt h3; have := lt h4
    omega

theorem simpleEsc_iff (c b : UInt8) : simpleEsc c = some b ↔ (c, b) ∈ escapes := by
  unfold simpleEsc escapes
  simp only [List.mem_cons, Prod.mk.injEq, List.not_mem_nil, or_false]
  repeat' split
  all_goals simp_all
  all_goals first | (constructor <;> (intro h; exact h.symm)) | skip

theorem readUnicode_iff (s o r : Bytes) : readUnicode s = some (o, r) ↔
    ∃ u, Piece o (92 :: 117 :: u) ∧ s = u ++ r := by
  constructor
  · intro h
    unfold readUnicode at h
    split at h
    · cases h
    · rename_i n r1 h1
      obtain ⟨t, ht, rfl⟩ := (readHex4_iff _ _ _).mp h1
      have hn := hex4_lt ht
      split at h
      · cases h
      · rename_i hlow
        split at h
        · rename_i hhigh
          split at h
          · rename_i r2
            split at h
            · cases h
            · rename_i m r3 h3
              obtain ⟨u, hu, rfl⟩ := (readHex4_iff _ _ _).mp h3
              split at h
              · rename_i hm
                simp only [Option.some.injEq, Prod.mk.injEq] at h
                obtain ⟨rfl, rfl⟩ := h
                exact ⟨t ++ 92 :: 117 :: u, .pair ht hu (by omega) (by omega) (by omega) (by omega), by simp⟩
              · cases h
          · cases h
        · rename_i hhigh
          simp only [Option.some.injEq, Prod.mk.injEq] at h
          obtain ⟨rfl, rfl⟩ := h
          exact ⟨t, .unicode ht (by unfold IsScalar; omega), rfl⟩
  · rintro ⟨u, hu, rfl⟩
    generalize hx : (92 : UInt8) :: 117 :: u = x at hu
    cases hu with
    | plain _ _ h => simp only [List.cons.injEq] at hx; simp at hx
    | esc h =>
      simp only [List.cons.injEq, true_and] at hx
      rw [← hx.1, ← simpleEsc_iff] at h
      have h117 : simpleEsc 117 = none := by decide
      rw [h117] at h; cases h
    | @unicode n t ht hn =>
      simp only [List.cons.injEq, true_and] at hx
      subst hx
      unfold readUnicode
      rw [(readHex4_iff _ _ _).mpr ⟨u, ht, rfl⟩]
      unfold IsScalar at hn
      simp only []
      rw [if_neg (by omega), if_neg (by omega)]
    | @pair n m t v ht hv h1 h2 h3 h4 =>
      simp only [List.cons.injEq, true_and] at hx
      subst hx
      unfold readUnicode
      rw [(readHex4_iff (t ++ 92 :: 117 :: v ++ r) (92 :: 117 :: (v ++ r)) n).mpr ⟨t, ht, by simp⟩]
      simp only []
      rw [if_neg (by omega), if_pos (by omega), (readHex4_iff _ _ _).mpr ⟨v, hv, rfl⟩]
      simp only []
      rw [if_pos (by omega)]

theorem strUnit_iff (s o r : Bytes) : strUnit s = some (o, r) ↔ ∃ u, Piece o u ∧ s = u ++ r := by
  constructor
  · intro h
    unfold strUnit at h
    split at h
    · cases h
    · rename_i c s
      split at h
      · rename_i hc
        subst hc
        split at h
        · cases h
        · rename_i e r'
          split at h
          · rename_i he
            subst he
            obtain ⟨u, hu, rfl⟩ := (readUnicode_iff _ _ _).mp h
            exact ⟨_, hu, by simp⟩
          · cases he : simpleEsc e with
            | none => rw [he] at h; cases h
            | some b =>
              rw [he] at h
              simp only [Option.map_some, Option.some.injEq, Prod.mk.injEq] at h
              obtain ⟨rfl, rfl⟩ := h
              exact ⟨_, .esc ((simpleEsc_iff _ _).mp he), rfl⟩
      · rename_i hc
        split at h
        · cases h
        · rename_i h2
          simp only [not_or] at h2
          simp only [Option.some.injEq, Prod.mk.injEq] at h
          obtain ⟨rfl, rfl⟩ := h
          exact ⟨[c], .plain (by omega) h2.1 hc, rfl⟩
  · rintro ⟨u, hu, rfl⟩
    cases hu with
    | plain h1 h2 h3 =>
      simp only [List.cons_append, List.nil_append, strUnit, if_neg h3]
      rw [if_neg]
      rintro (h | h)
      · exact h2 h
      · omega
    | esc h =>
      have h' := (simpleEsc_iff _ _).mpr h
      simp only [List.cons_append, List.nil_append, strUnit, if_true]
      rw [if_neg, h']
      · rfl
      · rintro rfl
        have h117 : simpleEsc 117 = none := by decide
        rw [h117] at h'; cases h'
    | unicode h1 h2 =>
      have := (readUnicode_iff _ _ r).mpr ⟨_, .unicode h1 h2, rfl⟩
      simp only [List.cons_append, strUnit, if_true]
      exact this
    | pair h1 h2 h3 h4 h5 h6 =>
      have := (readUnicode_iff _ _ r).mpr ⟨_, .pair h1 h2 h3 h4 h5 h6, rfl⟩
      simp only [List.cons_append, strUnit, if_true]
      exact this

theorem piece_head {o u : Bytes} (h : Piece o u) : ∃ c t, u = c :: t ∧ c ≠ 34 := by
  cases h with
  | plain h1 h2 h3 => exact ⟨_, _, rfl, h2⟩
  | esc => exact ⟨_, _, rfl, by decide⟩
  | unicode => exact ⟨_, _, rfl, by decide⟩
  | pair => exact ⟨_, _, rfl, by decide⟩

theorem strBody_sound (s t r : Bytes) (h : strBody s = some (t, r)) : ∃ u, Quoted t u ∧ s = u ++ 34 :: r := by
  fun_induction strBody s generalizing t r with
  | case1 s hs =>
    simp only [Option.some.injEq, Prod.mk.injEq] at h
    obtain ⟨rfl, rfl⟩ := h
    refine ⟨[], .nil, ?_⟩
    cases s with
    | nil => cases hs
    | cons c s =>
      simp only [List.head?_cons, Option.some.injEq] at hs
      simp [hs]
  | case2 => cases h
  | case3 s hs o r1 hu t' r' hb ih =>
    simp only [Option.some.injEq, Prod.mk.injEq] at h
    obtain ⟨rfl, rfl⟩ := h
    obtain ⟨u, h1, rfl⟩ := (strUnit_iff _ _ _).mp hu
    obtain ⟨v, h2, rfl⟩ := ih _ _ hb
    exact ⟨u ++ v, .cons h1 h2, by simp⟩
  | case4 => cases h

theorem strBody_complete {t u : Bytes} (h : Quoted t u) (r : Bytes) : strBody (u ++ 34 :: r) = some (t, r) := by
  induction h with
  | nil => rw [strBody]; simp
  | @cons o u s t hp hq ih =>
    rw [strBody]
    obtain ⟨c, v, hv, hc⟩ := piece_head hp
    have hhead : (u ++ t ++ 34 :: r).head? ≠ some 34 := by
      rw [hv]; simp [hc]
    rw [if_neg hhead]
    have hu : strUnit (u ++ t ++ 34 :: r) = some (o, t ++ 34 :: r) :=
      (strUnit_iff _ _ _).mpr ⟨u, hp, by simp⟩
    split
    · rename_i h; rw [hu] at h; cases h
    · rename_i o' r' h
      rw [hu] at h
      simp only [Option.some.injEq, Prod.mk.injEq] at h
      obtain ⟨rfl, rfl⟩ := h
      rw [ih]

theorem readStr_iff (s t r : Bytes) : readStr s = some (t, r) ↔
    utf8Ok t = true ∧ ∃ u, Quoted t u ∧ s = u ++ 34 :: r := by
  unfold readStr
  constructor
  · intro h
    split at h
    · rename_i t' r' hb
      split at h
      · rename_i hu
        simp only [Option.some.injEq, Prod.mk.injEq] at h
        obtain ⟨rfl, rfl⟩ := h
        exact ⟨hu, strBody_sound _ _ _ hb⟩
      · cases h
    · cases h
  · rintro ⟨hu, u, hq, rfl⟩
    rw [strBody_complete hq]
    simp [hu]

/-! ### Values -/

theorem readIdent_iff (k s r : Bytes) : readIdent k s = some r ↔ s = k ++ r := by
  induction k generalizing s with
  | nil => simp [readIdent]
  | cons c k ih =>
    cases s with
    | nil => simp [readIdent]
    | cons d s =>
      simp only [readIdent, List.cons_append, List.cons.injEq]
      split
      · rename_i h; rw [ih]; simp [h]
      · rename_i h
        constructor
        · intro h'; cases h'
        · rintro ⟨h', _⟩; exact absurd h'.symm h

theorem word_null : "null".toUTF8.toList = [110, 117, 108, 108] := by decide +kernel
theorem word_true : "true".toUTF8.toList = [116, 114, 117, 101] := by decide +kernel
theorem word_false : "false".toUTF8.toList = [102, 97, 108, 115, 101] := by decide +kernel

/-- How the text of a value starts. -/
def StartsValue (c : UInt8) : Prop :=
  c = 110 ∨ c = 116 ∨ c = 102 ∨ c = 34 ∨ c = 91 ∨ c = 123 ∨ c = 45 ∨ JDigit c

theorem jtext_head {d : Nat} {j : Json} {t : Bytes} (h : JText d j t) : ∃ c r, t = c :: r ∧ StartsValue c := by
  unfold StartsValue
  cases h with
  | null => rw [word_null]; exact ⟨_, _, rfl, by simp⟩
  | tru => rw [word_true]; exact ⟨_, _, rfl, by simp⟩
  | fals => rw [word_false]; exact ⟨_, _, rfl, by simp⟩
  | @num _ n hn =>
    obtain ⟨x, xs, hi, hx⟩ := jnumber_head hn
    cases n.neg with
    | true => exact ⟨_, _, rfl, by simp⟩
    | false => rw [hi]; exact ⟨_, _, rfl, by simp [hx]⟩
  | str => exact ⟨_, _, rfl, by simp⟩
  | arr => exact ⟨_, _, rfl, by simp⟩
  | obj => exact ⟨_, _, rfl, by simp⟩

theorem startsValue_plain {c : UInt8} (h : StartsValue c) :
    ¬ (c = 32 ∨ c = 10 ∨ c = 9 ∨ c = 13) ∧ c ≠ 93 ∧ c ≠ 125 ∧ c ≠ 44 := by
  rcases h with rfl | rfl | rfl | rfl | rfl | rfl | rfl | h
  · decide
  · decide
  · decide
  · decide
  · decide
  · decide
  · decide
  · refine ⟨?_, ?_, ?_, ?_⟩
    · rintro (rfl | rfl | rfl | rfl) <;> (revert h; decide)
    · rintro rfl; revert h; decide
    · rintro rfl; revert h; decide
    · rintro rfl; revert h; decide

theorem cont_none {n : JNum} {c : UInt8} (h : c = 32 ∨ c = 10 ∨ c = 9 ∨ c = 13 ∨ c = 93 ∨ c = 125 ∨ c = 44) :
    ¬ Continues n c := by
  unfold Continues
  rcases h with rfl | rfl | rfl | rfl | rfl | rfl | rfl <;>
    (rintro (h | ⟨h, _⟩ | ⟨h, _⟩) <;> (revert h; decide))

theorem ends_ws {j : Json} {w : Bytes} (hw : JWs w) {c : UInt8} (hc : c = 93 ∨ c = 125 ∨ c = 44) (r : Bytes) :
    EndsHere j (w ++ c :: r) := by
  intro n _ x r' hx
  cases w with
  | nil =>
    simp only [List.nil_append, List.cons.injEq] at hx
    rw [← hx.1]
    apply cont_none
    rcases hc with h | h | h <;> simp [h]
  | cons y w =>
    simp only [List.cons_append, List.cons.injEq] at hx
    rw [← hx.1]
    apply cont_none
    rcases hw y (by simp) with h | h | h | h <;> simp [h]

theorem ends_nonnum {j : Json} (h : ∀ n, j ≠ .num n) (r : Bytes) : EndsHere j r :=
  fun n hn => absurd hn (h n)

/-- What is read is a text of the value. -/
theorem read_sound (fuel : Nat) :
    (∀ (depth : Nat) (s : Bytes) (j : Json) (r : Bytes), readVal fuel depth s = some (j, r) →
      ∃ w t, JWs w ∧ JText depth j t ∧ s = w ++ (t ++ r) ∧ EndsHere j r) ∧
    (∀ (depth : Nat) (first : Bool) (s : Bytes) (js : List Json) (r : Bytes), readArr fuel depth first s = some (js, r) →
      ∃ t, (if first then Elems depth js t else MoreElems depth js t) ∧ s = t ++ 93 :: r) ∧
    (∀ (depth : Nat) (first : Bool) (s : Bytes) (es : List (Bytes × Json)) (r : Bytes),
      readObj fuel depth first s = some (es, r) →
      ∃ t, (if first then Members depth es t else MoreMembers depth es t) ∧ s = t ++ 125 :: r) := by
  induction fuel with
  | zero =>
    refine ⟨?_, ?_, ?_⟩
    · intro depth s j r h; rw [readVal] at h; cases h
    · intro depth first s js r h; rw [readArr] at h; cases h
    · intro depth first s es r h; rw [readObj] at h; cases h
  | succ fuel ih =>
    obtain ⟨ihv, iha, iho⟩ := ih
    refine ⟨?_, ?_, ?_⟩
    · intro depth s j r h
      obtain ⟨w, hw, hs, _⟩ := skipWs_split s
      rw [readVal] at h
      cases hk : skipWs s with
      | nil => rw [hk] at h; cases h
      | cons c s1 =>
        rw [hk] at h hs
        simp only at h
        split at h
        · rename_i hc
          subst hc
          cases hi : readIdent [117, 108, 108] s1 with
          | none => rw [hi] at h; cases h
          | some r1 =>
            rw [hi] at h
            simp only [Option.map_some, Option.some.injEq, Prod.mk.injEq] at h
            obtain ⟨rfl, rfl⟩ := h
            rw [readIdent_iff] at hi
            refine ⟨w, _, hw, .null, ?_, ends_nonnum (by simp) _⟩
            rw [word_null, hs, hi]; rfl
        split at h
        · rename_i _ hc
          subst hc
          cases hi : readIdent [114, 117, 101] s1 with
          | none => rw [hi] at h; cases h
          | some r1 =>
            rw [hi] at h
            simp only [Option.map_some, Option.some.injEq, Prod.mk.injEq] at h
            obtain ⟨rfl, rfl⟩ := h
            rw [readIdent_iff] at hi
            refine ⟨w, _, hw, .tru, ?_, ends_nonnum (by simp) _⟩
            rw [word_true, hs, hi]; rfl
        split at h
        · rename_i _ _ hc
          subst hc
          cases hi : readIdent [97, 108, 115, 101] s1 with
          | none => rw [hi] at h; cases h
          | some r1 =>
            rw [hi] at h
            simp only [Option.map_some, Option.some.injEq, Prod.mk.injEq] at h
            obtain ⟨rfl, rfl⟩ := h
            rw [readIdent_iff] at hi
            refine ⟨w, _, hw, .fals, ?_, ends_nonnum (by simp) _⟩
            rw [word_false, hs, hi]; rfl
        split at h
        · rename_i _ _ _ hc
          subst hc
          cases hi : readStr s1 with
          | none => rw [hi] at h; cases h
          | some p =>
            obtain ⟨t, r1⟩ := p
            rw [hi] at h
            simp only [Option.map_some, Option.some.injEq, Prod.mk.injEq] at h
            obtain ⟨rfl, rfl⟩ := h
            obtain ⟨hu, u, hq, rfl⟩ := (readStr_iff _ _ _).mp hi
            refine ⟨w, _, hw, .str hq hu, ?_, ends_nonnum (by simp) _⟩
            rw [hs]; simp
        split at h
        · rename_i _ _ _ _ hc
          subst hc
          cases depth with
          | zero => cases h
          | succ depth =>
            simp only at h
            cases hi : readArr fuel depth true s1 with
            | none => rw [hi] at h; cases h
            | some p =>
              obtain ⟨l, r1⟩ := p
              rw [hi] at h
              simp only [Option.map_some, Option.some.injEq, Prod.mk.injEq] at h
              obtain ⟨rfl, rfl⟩ := h
              obtain ⟨t, ht, rfl⟩ := iha _ _ _ _ _ hi
              simp only [if_true] at ht
              refine ⟨w, _, hw, .arr ht, ?_, ends_nonnum (by simp) _⟩
              rw [hs]; simp
        split at h
        · rename_i _ _ _ _ _ hc
          subst hc
          cases depth with
          | zero => cases h
          | succ depth =>
            simp only at h
            cases hi : readObj fuel depth true s1 with
            | none => rw [hi] at h; cases h
            | some p =>
              obtain ⟨l, r1⟩ := p
              rw [hi] at h
              simp only [Option.map_some, Option.some.injEq, Prod.mk.injEq] at h
              obtain ⟨rfl, rfl⟩ := h
              obtain ⟨t, ht, rfl⟩ := iho _ _ _ _ _ hi
              simp only [if_true] at ht
              refine ⟨w, _, hw, .obj ht, ?_, ends_nonnum (by simp) _⟩
              rw [hs]; simp
        · cases hi : readNum (c :: s1) with
          | none => rw [hi] at h; cases h
          | some p =>
            obtain ⟨n, r1⟩ := p
            rw [hi] at h
            simp only [Option.map_some, Option.some.injEq, Prod.mk.injEq] at h
            obtain ⟨rfl, rfl⟩ := h
            obtain ⟨hn, h1, h2⟩ := (readNum_iff _ _ _).mp hi
            refine ⟨w, _, hw, .num hn, by rw [hs, h1], ?_⟩
            intro n' hn'
            cases hn'
            exact h2
    · intro depth first s js r h
      obtain ⟨w, hw, hs, _⟩ := skipWs_split s
      rw [readArr] at h
      cases hk : skipWs s with
      | nil => rw [hk] at h; cases h
      | cons c s1 =>
        rw [hk] at h hs
        simp only at h
        split at h
        · rename_i hc
          subst hc
          simp only [Option.some.injEq, Prod.mk.injEq] at h
          obtain ⟨rfl, rfl⟩ := h
          refine ⟨w, ?_, hs⟩
          cases first with
          | true => exact .none hw
          | false => exact .none hw
        · rename_i hc
          cases first with
          | true =>
            simp only [if_true] at h ⊢
            split at h
            · cases h
            · split at h
              · cases h
              · rename_i v r1 hv
                split at h
                · cases h
                · rename_i vs r2 hm
                  simp only [Option.some.injEq, Prod.mk.injEq] at h
                  obtain ⟨rfl, rfl⟩ := h
                  obtain ⟨w', t, hw', ht, hs', _⟩ := ihv _ _ _ _ hv
                  obtain ⟨m, hm', rfl⟩ := iha _ _ _ _ _ hm
                  simp only [Bool.false_eq_true, if_false] at hm'
                  refine ⟨(w ++ w') ++ (t ++ m), .some ?_ ht hm', ?_⟩
                  · intro x hx
                    rcases List.mem_append.mp hx with hx | hx
                    · exact hw x hx
                    · exact hw' x hx
                  · rw [hs, hs']; simp
          | false =>
            simp only [Bool.false_eq_true, if_false] at h ⊢
            by_cases h44 : c = 44
            · subst h44
              simp only [if_true] at h
              split at h
              · cases h
              · split at h
                · cases h
                · rename_i v r1 hv
                  split at h
                  · cases h
                  · rename_i vs r2 hm
                    simp only [Option.some.injEq, Prod.mk.injEq] at h
                    obtain ⟨rfl, rfl⟩ := h
                    obtain ⟨w', t, hw', ht, hs', _⟩ := ihv _ _ _ _ hv
                    obtain ⟨w2, hw2, hs2, _⟩ := skipWs_split s1
                    obtain ⟨m, hm', rfl⟩ := iha _ _ _ _ _ hm
                    simp only [Bool.false_eq_true, if_false] at hm'
                    refine ⟨w ++ 44 :: ((w2 ++ w') ++ (t ++ m)), .some hw ?_ ht hm', ?_⟩
                    · intro x hx
                      rcases List.mem_append.mp hx with hx | hx
                      · exact hw2 x hx
                      · exact hw' x hx
                    · rw [hs, hs2, hs']; simp
            · simp only [if_neg h44] at h
              cases h
    · intro depth first s es r h
      obtain ⟨w, hw, hs, _⟩ := skipWs_split s
      rw [readObj] at h
      cases hk : skipWs s with
      | nil => rw [hk] at h; cases h
      | cons c s1 =>
        rw [hk] at h hs
        simp only at h
        split at h
        · rename_i hc
          subst hc
          simp only [Option.some.injEq, Prod.mk.injEq] at h
          obtain ⟨rfl, rfl⟩ := h
          refine ⟨w, ?_, hs⟩
          cases first with
          | true => exact .none hw
          | false => exact .none hw
        · rename_i hc
          split at h
          · rename_i t0 hstart
            split at h
            · cases h
            · rename_i k r1 hk1
              obtain ⟨hku, q, hq, rfl⟩ := (readStr_iff _ _ _).mp hk1
              split at h
              · rename_i r2 hcol
                split at h
                · cases h
                · rename_i v r3 hv
                  split at h
                  · cases h
                  · rename_i es' r4 hm
                    simp only [Option.some.injEq, Prod.mk.injEq] at h
                    obtain ⟨rfl, rfl⟩ := h
                    obtain ⟨w1, hw1, hs1, _⟩ := skipWs_split r1
                    rw [hcol] at hs1
                    obtain ⟨w2, t, hw2, ht, hs2, _⟩ := ihv _ _ _ _ hv
                    obtain ⟨m, hm', rfl⟩ := iho _ _ _ _ _ hm
                    simp only [Bool.false_eq_true, if_false] at hm'
                    cases first with
                    | true =>
                      simp only [if_true, Option.some.injEq] at hstart ⊢
                      refine ⟨_, .some hw hq hku hw1 hw2 ht hm', ?_⟩
                      rw [hs, hstart, hs1, hs2]; simp
                    | false =>
                      simp only [Bool.false_eq_true, if_false] at hstart ⊢
                      split at hstart
                      · rename_i h44
                        subst h44
                        simp only [Option.some.injEq] at hstart
                        obtain ⟨w0, hw0, hs0, _⟩ := skipWs_split s1
                        rw [hstart] at hs0
                        refine ⟨_, .some hw hw0 hq hku hw1 hw2 ht hm', ?_⟩
                        rw [hs, hs0, hs1, hs2]; simp
                      · cases hstart
              · cases h
          · cases h

/-- Fuel suffices. -/
theorem read_complete {d : Nat} {j : Json} {t : Bytes} (h : JText d j t) :
    ∀ (w rest : Bytes) (fuel : Nat), JWs w → EndsHere j rest → 2 * (w ++ (t ++ rest)).length + 1 ≤ fuel →
      readVal fuel d (w ++ (t ++ rest)) = some (j, rest) := by
  refine JText.rec
    (motive_1 := fun d j t _ => ∀ (w rest : Bytes) (fuel : Nat), JWs w → EndsHere j rest →
      2 * (w ++ (t ++ rest)).length + 1 ≤ fuel → readVal fuel d (w ++ (t ++ rest)) = some (j, rest))
    (motive_2 := fun d l t _ => ∀ (rest : Bytes) (fuel : Nat), 2 * (t ++ 93 :: rest).length + 2 ≤ fuel →
      readArr fuel d true (t ++ 93 :: rest) = some (l, rest))
    (motive_3 := fun d l t _ => (∀ j : Json, ∀ r, EndsHere j (t ++ 93 :: r)) ∧
      ∀ (rest : Bytes) (fuel : Nat), 2 * (t ++ 93 :: rest).length + 2 ≤ fuel →
      readArr fuel d false (t ++ 93 :: rest) = some (l, rest))
    (motive_4 := fun d l t _ => ∀ (rest : Bytes) (fuel : Nat), 2 * (t ++ 125 :: rest).length + 2 ≤ fuel →
      readObj fuel d true (t ++ 125 :: rest) = some (l, rest))
    (motive_5 := fun d l t _ => (∀ j : Json, ∀ r, EndsHere j (t ++ 125 :: r)) ∧
      ∀ (rest : Bytes) (fuel : Nat), 2 * (t ++ 125 :: rest).length + 2 ≤ fuel →
      readObj fuel d false (t ++ 125 :: rest) = some (l, rest))
    ?_ ?_ ?_ ?_ ?_ ?_ ?_ ?_ ?_ ?_ ?_ ?_ ?_ ?_ ?_ h
  · intro d w rest fuel hw _ hf
    cases fuel with
    | zero => omega
    | succ fuel =>
      rw [readVal, skipWs_append hw (by rw [word_null]; intro c r h; cases h; decide), word_null]
      simp [(readIdent_iff [117, 108, 108] (117 :: 108 :: 108 :: rest) rest).mpr rfl]
  · intro d w rest fuel hw _ hf
    cases fuel with
    | zero => omega
    | succ fuel =>
      rw [readVal, skipWs_append hw (by rw [word_true]; intro c r h; cases h; decide), word_true]
      simp [(readIdent_iff [114, 117, 101] (114 :: 117 :: 101 :: rest) rest).mpr rfl]
  · intro d w rest fuel hw _ hf
    cases fuel with
    | zero => omega
    | succ fuel =>
      rw [readVal, skipWs_append hw (by rw [word_false]; intro c r h; cases h; decide), word_false]
      simp [(readIdent_iff [97, 108, 115, 101] (97 :: 108 :: 115 :: 101 :: rest) rest).mpr rfl]
  · intro d n hn w rest fuel hw he hf
    cases fuel with
    | zero => omega
    | succ fuel =>
      have hread : readNum (((if n.neg then [45] else []) ++ n.int ++ n.tail) ++ rest) = some (n, rest) :=
        (readNum_iff _ _ _).mpr ⟨hn, rfl, he n rfl⟩
      have hhead : ∃ c r, ((if n.neg then [45] else []) ++ n.int ++ n.tail) = c :: r ∧ (c = 45 ∨ JDigit c) := by
        obtain ⟨x, xs, hi, hx⟩ := jnumber_head hn
        cases n.neg with
        | true => exact ⟨_, _, rfl, by simp⟩
        | false => rw [hi]; exact ⟨_, _, rfl, Or.inr hx⟩
      obtain ⟨c, r, hc, hcv⟩ := hhead
      rw [hc] at hread ⊢
      have hne : ¬ (c = 32 ∨ c = 10 ∨ c = 9 ∨ c = 13) ∧ c ≠ 110 ∧ c ≠ 116 ∧ c ≠ 102 ∧ c ≠ 34 ∧ c ≠ 91 ∧ c ≠ 123 := by
        rcases hcv with rfl | hd
        · decide
        · refine ⟨?_, ?_, ?_, ?_, ?_, ?_, ?_⟩
          · rintro (rfl | rfl | rfl | rfl) <;> (revert hd; decide)
          all_goals (rintro rfl; revert hd; decide)
      rw [readVal, skipWs_append hw (by intro c' r' h; cases h; exact hne.1)]
      simp only [List.cons_append] at hread ⊢
      rw [if_neg hne.2.1, if_neg hne.2.2.1, if_neg hne.2.2.2.1, if_neg hne.2.2.2.2.1, if_neg hne.2.2.2.2.2.1,
        if_neg hne.2.2.2.2.2.2, hread]
      rfl
  · intro d s t hq hu w rest fuel hw _ hf
    cases fuel with
    | zero => omega
    | succ fuel =>
      rw [readVal, skipWs_append hw (by intro c r h; cases h; decide)]
      have : readStr (t ++ 34 :: rest) = some (s, rest) := (readStr_iff _ _ _).mpr ⟨hu, t, hq, rfl⟩
      simp [this]
  · intro d l t _ ih w rest fuel hw _ hf
    cases fuel with
    | zero => omega
    | succ fuel =>
      rw [readVal, skipWs_append hw (by intro c r h; cases h; decide)]
      have := ih rest fuel (by simp only [List.length_append, List.length_cons, List.length_nil] at hf ⊢; omega)
      simp [this]
  · intro d l t _ ih w rest fuel hw _ hf
    cases fuel with
    | zero => omega
    | succ fuel =>
      rw [readVal, skipWs_append hw (by intro c r h; cases h; decide)]
      have := ih rest fuel (by simp only [List.length_append, List.length_cons, List.length_nil] at hf ⊢; omega)
      simp [this]
  · intro d w hw rest fuel hf
    cases fuel with
    | zero => omega
    | succ fuel =>
      rw [readArr, skipWs_append hw (by intro c r h; cases h; decide)]
      simp
  · intro d w t m j l hw ht _ iht ihm rest fuel hf
    cases fuel with
    | zero => omega
    | succ fuel =>
      obtain ⟨c, t', hc, hcv⟩ := jtext_head ht
      obtain ⟨p1, p2, p3, p4⟩ := startsValue_plain hcv
      have hf' : 2 * ([] ++ (t ++ (m ++ 93 :: rest))).length + 1 ≤ fuel := by
        simp only [List.length_append, List.length_cons, List.nil_append] at hf ⊢; omega
      have hv := iht [] (m ++ 93 :: rest) fuel (by simp [JWs]) (ihm.1 j rest) hf'
      have hm := ihm.2 rest fuel (by
        rw [hc] at hf; simp only [List.length_append, List.length_cons] at hf ⊢; omega)
      rw [List.append_assoc, List.append_assoc, readArr, skipWs_append hw (by
        intro c' r' h; rw [hc] at h; cases h; exact p1)]
      rw [hc] at hv ⊢
      simp only [List.cons_append, List.nil_append] at hv ⊢
      rw [if_neg p2]
      simp only [if_true, List.head?_cons, Option.some.injEq]
      rw [if_neg p2, hv]
      simp only [hm]
  · intro d w hw
    refine ⟨fun j r => ends_ws hw (by simp) r, ?_⟩
    intro rest fuel hf
    cases fuel with
    | zero => omega
    | succ fuel =>
      rw [readArr, skipWs_append hw (by intro c r h; cases h; decide)]
      simp
  · intro d w w' t m j l hw hw' ht _ iht ihm
    refine ⟨fun j r => by rw [List.append_assoc]; exact ends_ws hw (by simp) _, ?_⟩
    intro rest fuel hf
    cases fuel with
    | zero => omega
    | succ fuel =>
      obtain ⟨c, t', hc, hcv⟩ := jtext_head ht
      obtain ⟨p1, p2, p3, p4⟩ := startsValue_plain hcv
      have hf' : 2 * ([] ++ (t ++ (m ++ 93 :: rest))).length + 1 ≤ fuel := by
        simp only [List.length_append, List.length_cons, List.nil_append] at hf ⊢; omega
      have hv := iht [] (m ++ 93 :: rest) fuel (by simp [JWs]) (ihm.1 j rest) hf'
      have hm := ihm.2 rest fuel (by
        rw [hc] at hf; simp only [List.length_append, List.length_cons] at hf ⊢; omega)
      rw [List.append_assoc, readArr, List.cons_append, skipWs_append hw (by
        intro c' r' h; cases h; decide)]
      simp only [List.append_assoc]
      rw [if_neg (by decide)]
      have hsk : skipWs (w' ++ (t ++ (m ++ 93 :: rest))) = t ++ (m ++ 93 :: rest) :=
        skipWs_append hw' (by intro c' r' h; rw [hc] at h; cases h; exact p1)
      simp only [Bool.false_eq_true, if_false, if_true, hsk]
      rw [hc] at hv ⊢
      simp only [List.cons_append, List.nil_append] at hv ⊢
      simp only [List.head?_cons, Option.some.injEq]
      rw [if_neg p2, hv]
      simp only [hm]
  · intro d w hw rest fuel hf
    cases fuel with
    | zero => omega
    | succ fuel =>
      rw [readObj, skipWs_append hw (by intro c r h; cases h; decide)]
      simp
  · intro d w k q w1 w2 t m j l hw hq hku hw1 hw2 ht _ iht ihm rest fuel hf
    cases fuel with
    | zero => omega
    | succ fuel =>
      have hf' : 2 * (w2 ++ (t ++ (m ++ 125 :: rest))).length + 1 ≤ fuel := by
        simp only [List.length_append, List.length_cons] at hf ⊢; omega
      have hv := iht w2 (m ++ 125 :: rest) fuel hw2 (ihm.1 j rest) hf'
      have hm := ihm.2 rest fuel (by simp only [List.length_append, List.length_cons] at hf ⊢; omega)
      have hk : readStr (q ++ 34 :: (w1 ++ 58 :: (w2 ++ (t ++ (m ++ 125 :: rest))))) =
          some (k, w1 ++ 58 :: (w2 ++ (t ++ (m ++ 125 :: rest)))) := (readStr_iff _ _ _).mpr ⟨hku, q, hq, rfl⟩
      have hcol : skipWs (w1 ++ 58 :: (w2 ++ (t ++ (m ++ 125 :: rest)))) = 58 :: (w2 ++ (t ++ (m ++ 125 :: rest))) :=
        skipWs_append hw1 (by intro c r h; cases h; decide)
      rw [List.append_assoc, readObj, List.cons_append, skipWs_append hw (by intro c r h; cases h; decide)]
      simp only [List.append_assoc, List.cons_append]
      rw [if_neg (by decide)]
      simp only [if_true, hk, hcol, hv, hm]
  · intro d w hw
    refine ⟨fun j r => ends_ws hw (by simp) r, ?_⟩
    intro rest fuel hf
    cases fuel with
    | zero => omega
    | succ fuel =>
      rw [readObj, skipWs_append hw (by intro c r h; cases h; decide)]
      simp
  · intro d w w' k q w1 w2 t m j l hw hw' hq hku hw1 hw2 ht _ iht ihm
    refine ⟨fun j r => by rw [List.append_assoc]; exact ends_ws hw (by simp) _, ?_⟩
    intro rest fuel hf
    cases fuel with
    | zero => omega
    | succ fuel =>
      have hf' : 2 * (w2 ++ (t ++ (m ++ 125 :: rest))).length + 1 ≤ fuel := by
        simp only [List.length_append, List.length_cons] at hf ⊢; omega
      have hv := iht w2 (m ++ 125 :: rest) fuel hw2 (ihm.1 j rest) hf'
      have hm := ihm.2 rest fuel (by simp only [List.length_append, List.length_cons] at hf ⊢; omega)
      have hk : readStr (q ++ 34 :: (w1 ++ 58 :: (w2 ++ (t ++ (m ++ 125 :: rest))))) =
          some (k, w1 ++ 58 :: (w2 ++ (t ++ (m ++ 125 :: rest)))) := (readStr_iff _ _ _).mpr ⟨hku, q, hq, rfl⟩
      have hcol : skipWs (w1 ++ 58 :: (w2 ++ (t ++ (m ++ 125 :: rest)))) = 58 :: (w2 ++ (t ++ (m ++ 125 :: rest))) :=
        skipWs_append hw1 (by intro c r h; cases h; decide)
      rw [List.append_assoc, readObj, List.cons_append, skipWs_append hw (by intro c r h; cases h; decide)]
      simp only [List.append_assoc, List.cons_append]
      rw [if_neg (by decide)]
      have hsk : skipWs (w' ++ 34 :: (q ++ 34 :: (w1 ++ 58 :: (w2 ++ (t ++ (m ++ 125 :: rest)))))) =
          34 :: (q ++ 34 :: (w1 ++ 58 :: (w2 ++ (t ++ (m ++ 125 :: rest))))) :=
        skipWs_append hw' (by intro c r h; cases h; decide)
      simp only [Bool.false_eq_true, if_false, if_true, hsk, hk, hcol, hv, hm]

/-- **C65**: a text is read as a value just if it starts with a text of that value, after white space, nested at
most 127 deep, that nothing following continues. -/
theorem C65_read (s : Bytes) (j : Json) (rest : Bytes) :
    readJson s = some (j, rest) ↔ ∃ w t, JWs w ∧ JText 127 j t ∧ s = w ++ (t ++ rest) ∧ EndsHere j rest := by
  constructor
  · exact (read_sound _).1 _ _ _ _
  · rintro ⟨w, t, hw, ht, rfl, he⟩
    exact read_complete ht w rest _ hw he (Nat.le_refl _)

end Verif.Props
