import Verif.Props.Json

/-!
# C65 (JSON): what is written is read
-/

namespace Verif.Props

open Verif

mutual
/-- How many lists and objects are inside each other. -/
def nesting : Json → Nat
  | .arr l => nestingList l + 1
  | .obj m => nestingMap m + 1
  | _ => 0

def nestingList : List Json → Nat
  | [] => 0
  | j :: l => max (nesting j) (nestingList l)

def nestingMap : List (Bytes × Json) → Nat
  | [] => 0
  | (_, j) :: m => max (nesting j) (nestingMap m)
end

mutual
/-- Values that can be written: strings are UTF-8, numbers are numbers. -/
def Writable : Json → Prop
  | .num n => JNumber n
  | .str s => utf8Ok s = true
  | .arr l => WritableList l
  | .obj m => WritableMap m
  | _ => True

def WritableList : List Json → Prop
  | [] => True
  | j :: l => Writable j ∧ WritableList l

def WritableMap : List (Bytes × Json) → Prop
  | [] => True
  | (k, j) :: m => utf8Ok k = true ∧ Writable j ∧ WritableMap m
end

theorem writableList_iff (l : List Json) : WritableList l ↔ ∀ j ∈ l, Writable j := by
  induction l with
  | nil => simp [WritableList]
  | cons j l ih => simp [WritableList, ih]

theorem nestingList_le (l : List Json) (d : Nat) : nestingList l ≤ d ↔ ∀ j ∈ l, nesting j ≤ d := by
  induction l with
  | nil => simp [nestingList]
  | cons j l ih => simp [nestingList, ← ih, Nat.max_le]

/-! ### Strings -/

theorem hexDigit_lower : ∀ v < 16, HexDigit (hexLower v) v := by unfold HexDigit; decide +kernel

theorem piece_escByte (c : UInt8) : Piece [c] (escByte c) := by
  unfold escByte
  split
  · rename_i h; subst h; exact .esc (by decide)
  split
  · rename_i h; subst h; exact .esc (by decide)
  split
  · rename_i h; subst h; exact .esc (by decide)
  split
  · rename_i h; subst h; exact .esc (by decide)
  split
  · rename_i h; subst h; exact .esc (by decide)
  split
  · rename_i h; subst h; exact .esc (by decide)
  split
  · rename_i h; subst h; exact .esc (by decide)
  split
  · rename_i h
    have h48 : (48 : UInt8) = hexLower 0 := by decide
    have hx : Hex4 c.toNat [48, 48, hexLower (c.toNat / 16), hexLower (c.toNat % 16)] := by
      have := Hex4.mk (hexDigit_lower 0 (by omega)) (hexDigit_lower 0 (by omega))
        (hexDigit_lower (c.toNat / 16) (by omega)) (hexDigit_lower (c.toNat % 16) (by omega))
      have e : 0 * 4096 + 0 * 256 + c.toNat / 16 * 16 + c.toNat % 16 = c.toNat := by omega
      rw [e] at this
      exact this
    have he : encodeScalar c.toNat = [c] := by
      unfold encodeScalar
      rw [if_pos (by omega)]
      simp
    have := Piece.unicode hx (Or.inl (by omega))
    rw [he] at this
    exact this
  · rename_i h1 h2 _ _ _ _ _ h3
    exact .plain (by omega) h1 h2

theorem quoted_escape (s : Bytes) : Quoted s (s.map escByte).flatten := by
  induction s with
  | nil => exact .nil
  | cons c s ih =>
    have := Quoted.cons (piece_escByte c) ih
    simpa using this

/-! ### Values -/

theorem jws_nil : JWs [] := by simp [JWs]

/-- What is written is a text of the value. -/
theorem jtext_write (j : Json) : ∀ d, Writable j → nesting j ≤ d → JText d j j.write := by
  refine Json.ind (P := fun j => ∀ d, Writable j → nesting j ≤ d → JText d j j.write) ?_ ?_ ?_ ?_ ?_ ?_ j
  · intro d _ _; rw [Json.write, ← word_null]; exact .null
  · intro b d _ _
    cases b with
    | true => rw [Json.write, ← word_true]; exact .tru
    | false => rw [Json.write, ← word_false]; exact .fals
  · intro n d hw _
    rw [Writable] at hw
    rw [Json.write]
    exact .num hw
  · intro s d hw _
    rw [Writable] at hw
    rw [Json.write, writeStr]
    exact .str (quoted_escape s) hw
  · intro l ih d hw hd
    rw [Writable] at hw
    rw [nesting] at hd
    cases d with
    | zero => omega
    | succ d =>
      rw [Json.write]
      refine .arr ?_
      have hd' : nestingList l ≤ d := by omega
      -- elements after the first one
      have more : ∀ l : List Json, (∀ x ∈ l, ∀ d, Writable x → nesting x ≤ d → JText d x x.write) → WritableList l →
          nestingList l ≤ d → ∃ m, MoreElems d l m ∧ ∀ x, writeArr (x :: l) = x.write ++ m := by
        intro l
        induction l with
        | nil => intro _ _ _; exact ⟨[], .none jws_nil, fun x => by simp [writeArr]⟩
        | cons y l ihl =>
          intro ih hw hd
          simp only [WritableList] at hw
          simp only [nestingList, Nat.max_le] at hd
          obtain ⟨m, hm, he⟩ := ihl (fun x hx => ih x (by simp [hx])) hw.2 hd.2
          refine ⟨[] ++ 44 :: ([] ++ (y.write ++ m)), .some jws_nil jws_nil (ih y (by simp) d hw.1 hd.1) hm, ?_⟩
          intro x
          rw [writeArr, he]; rfl
      cases l with
      | nil => rw [writeArr]; exact .none jws_nil
      | cons x l =>
        simp only [WritableList] at hw
        simp only [nestingList, Nat.max_le] at hd'
        obtain ⟨m, hm, he⟩ := more l (fun x hx => ih x (by simp [hx])) hw.2 hd'.2
        rw [he]
        exact .some jws_nil (ih x (by simp) d hw.1 hd'.1) hm
  · intro l ih d hw hd
    rw [Writable] at hw
    rw [nesting] at hd
    cases d with
    | zero => omega
    | succ d =>
      rw [Json.write]
      refine .obj ?_
      have hd' : nestingMap l ≤ d := by omega
      have more : ∀ l : List (Bytes × Json), (∀ e ∈ l, ∀ d, Writable e.2 → nesting e.2 ≤ d → JText d e.2 e.2.write) →
          WritableMap l → nestingMap l ≤ d →
          ∃ m, MoreMembers d l m ∧ ∀ k x, writeObj ((k, x) :: l) = writeStr k ++ 58 :: (x.write ++ m) := by
        intro l
        induction l with
        | nil => intro _ _ _; exact ⟨[], .none jws_nil, fun k x => by simp [writeObj]⟩
        | cons y l ihl =>
          intro ih hw hd
          obtain ⟨ky, y⟩ := y
          simp only [WritableMap] at hw
          simp only [nestingMap, Nat.max_le] at hd
          obtain ⟨m, hm, he⟩ := ihl (fun x hx => ih x (by simp [hx])) hw.2.2 hd.2
          refine ⟨_, .some jws_nil jws_nil (quoted_escape ky) hw.1 jws_nil jws_nil
            (ih (ky, y) (by simp) d hw.2.1 hd.1) hm, ?_⟩
          intro k x
          rw [writeObj, he]; simp [writeStr]
      cases l with
      | nil => rw [writeObj]; exact .none jws_nil
      | cons x l =>
        obtain ⟨k, x⟩ := x
        simp only [WritableMap] at hw
        simp only [nestingMap, Nat.max_le] at hd'
        obtain ⟨m, hm, he⟩ := more l (fun x hx => ih x (by simp [hx])) hw.2.2 hd'.2
        rw [he]
        have := Members.some jws_nil (quoted_escape k) hw.1 jws_nil jws_nil (ih (k, x) (by simp) d hw.2.1 hd'.1) hm
        simpa [writeStr] using this

/-- Texts show how deep a value is. -/
theorem jtext_nesting {d : Nat} {j : Json} {t : Bytes} (h : JText d j t) : nesting j ≤ d := by
  refine JText.rec
    (motive_1 := fun d j _ _ => nesting j ≤ d)
    (motive_2 := fun d l _ _ => nestingList l ≤ d)
    (motive_3 := fun d l _ _ => nestingList l ≤ d)
    (motive_4 := fun d l _ _ => nestingMap l ≤ d)
    (motive_5 := fun d l _ _ => nestingMap l ≤ d)
    ?_ ?_ ?_ ?_ ?_ ?_ ?_ ?_ ?_ ?_ ?_ ?_ ?_ ?_ ?_ h
  all_goals intros
  all_goals simp only [nesting, nestingList, nestingMap, Nat.max_le]
  all_goals first | omega | skip

theorem jtext_mono {d : Nat} {j : Json} {t : Bytes} (h : JText d j t) : ∀ d', d ≤ d' → JText d' j t := by
  refine JText.rec
    (motive_1 := fun d j t _ => ∀ d', d ≤ d' → JText d' j t)
    (motive_2 := fun d l t _ => ∀ d', d ≤ d' → Elems d' l t)
    (motive_3 := fun d l t _ => ∀ d', d ≤ d' → MoreElems d' l t)
    (motive_4 := fun d l t _ => ∀ d', d ≤ d' → Members d' l t)
    (motive_5 := fun d l t _ => ∀ d', d ≤ d' → MoreMembers d' l t)
    ?_ ?_ ?_ ?_ ?_ ?_ ?_ ?_ ?_ ?_ ?_ ?_ ?_ ?_ ?_ h
  · intro _ _ _; exact .null
  · intro _ _ _; exact .tru
  · intro _ _ _; exact .fals
  · intro _ _ h _ _; exact .num h
  · intro _ _ _ h1 h2 _ _; exact .str h1 h2
  · intro d l t _ ih d' hd
    cases d' with
    | zero => omega
    | succ d' => exact .arr (ih d' (by omega))
  · intro d l t _ ih d' hd
    cases d' with
    | zero => omega
    | succ d' => exact .obj (ih d' (by omega))
  · intro _ _ h _ _; exact .none h
  · intro _ _ _ _ _ _ h1 _ _ ih1 ih2 d' hd; exact .some h1 (ih1 d' hd) (ih2 d' hd)
  · intro _ _ h _ _; exact .none h
  · intro _ _ _ _ _ _ _ h1 h2 _ _ ih1 ih2 d' hd; exact .some h1 h2 (ih1 d' hd) (ih2 d' hd)
  · intro _ _ h _ _; exact .none h
  · intro _ _ _ _ _ _ _ _ _ _ h1 h2 h3 h4 h5 _ _ ih1 ih2 d' hd
    exact .some h1 h2 h3 h4 h5 (ih1 d' hd) (ih2 d' hd)
  · intro _ _ h _ _; exact .none h
  · intro _ _ _ _ _ _ _ _ _ _ _ h0 h1 h2 h3 h4 h5 _ _ ih1 ih2 d' hd
    exact .some h0 h1 h2 h3 h4 h5 (ih1 d' hd) (ih2 d' hd)

/-- **C65**: a value that is written is read as itself, if it is at most 127 deep, and otherwise refused. -/
theorem C65_write (j : Json) (h : Writable j) (rest : Bytes) (hr : EndsHere j rest) :
    readJson (j.write ++ rest) = if nesting j ≤ 127 then some (j, rest) else none := by
  split
  · rename_i hd
    exact (C65_read _ _ _).mpr ⟨[], j.write, jws_nil, jtext_write j 127 h hd, rfl, hr⟩
  · rename_i hd
    cases hread : readJson (j.write ++ rest) with
    | none => rfl
    | some p =>
      exfalso
      obtain ⟨j', r'⟩ := p
      obtain ⟨w, t, hw, ht, hs, he⟩ := (C65_read _ _ _).mp hread
      have h1 := read_complete (jtext_write j (nesting j) h (Nat.le_refl _)) [] rest
        (2 * (j.write ++ rest).length + 1) jws_nil hr (Nat.le_refl _)
      have h2 := read_complete (jtext_mono ht (nesting j) (by omega)) w r' (2 * (j.write ++ rest).length + 1) hw he
        (by rw [hs]; exact Nat.le_refl _)
      rw [← hs] at h2
      simp only [List.nil_append] at h1
      rw [h1] at h2
      simp only [Option.some.injEq, Prod.mk.injEq] at h2
      have := jtext_nesting ht
      rw [← h2.1] at this
      exact hd this

example : (Json.obj [("a\"\n".toUTF8.toList, .arr [.num ⟨true, [49], []⟩, .null])]).write =
    "{\"a\\\"\\n\":[-1,null]}".toUTF8.toList := by decide +kernel

end Verif.Props
