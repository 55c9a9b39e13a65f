import Verif.Base.Utf8
import Verif.Base.Decimal

/-!
# JSON texts

The crate `serde_json` 1.0 without optional features: `to_vec`, and `Deserializer::from_slice` with
`deserialize_any`.

* A number is kept as its text; what it stands for is up to the visitor (`JNum.value` below, and floats).
* Errors are not told apart.
* The reader goes at most 127 lists and objects deep ("recursion limit exceeded").
-/

namespace Verif

/-- A number as it is written: the digits before the point, and the rest. -/
structure JNum where
  neg : Bool
  int : Bytes
  tail : Bytes
deriving DecidableEq, Repr

/-- JSON values, the entries of objects in the order of the text. -/
inductive Json where
  | null
  | bool (b : Bool)
  | num (n : JNum)
  | str (s : Bytes)
  | arr (l : List Json)
  | obj (m : List (Bytes × Json))

/-- Induction over values. -/
theorem Json.ind {P : Json → Prop} (hnull : P .null) (hbool : ∀ b, P (.bool b)) (hnum : ∀ n, P (.num n))
    (hstr : ∀ s, P (.str s)) (harr : ∀ l, (∀ x ∈ l, P x) → P (.arr l))
    (hobj : ∀ m, (∀ e ∈ m, P e.2) → P (.obj m)) (j : Json) : P j :=
  match j with
  | .null => hnull
  | .bool b => hbool b
  | .num n => hnum n
  | .str s => hstr s
  | .arr l => harr l (fun x hx =>
      have : sizeOf x < sizeOf l := List.sizeOf_lt_of_mem hx
      Json.ind hnull hbool hnum hstr harr hobj x)
  | .obj m => hobj m (fun e he =>
      have : sizeOf e.2 < sizeOf m := by
        have h1 := List.sizeOf_lt_of_mem he
        have h2 : sizeOf e.2 < sizeOf e := by cases e; simp; omega
        omega
      Json.ind hnull hbool hnum hstr harr hobj e.2)
termination_by sizeOf j

/-! ### Writing -/

/-- The digits of `\u00..`. -/
def hexLower (n : Nat) : UInt8 := if n < 10 then UInt8.ofNat (48 + n) else UInt8.ofNat (97 + (n - 10))

/-- `CharEscape` and its table. -/
def escByte (c : UInt8) : Bytes :=
  if c = 34 then [92, 34]
  else if c = 92 then [92, 92]
  else if c = 8 then [92, 98]
  else if c = 12 then [92, 102]
  else if c = 10 then [92, 110]
  else if c = 13 then [92, 114]
  else if c = 9 then [92, 116]
  else if c.toNat < 32 then [92, 117, 48, 48, hexLower (c.toNat / 16), hexLower (c.toNat % 16)]
  else [c]

/-- `format_escaped_str`. -/
def writeStr (s : Bytes) : Bytes := 34 :: ((s.map escByte).flatten ++ [34])

/-- The text of a number. -/
def JNum.text (n : JNum) : Bytes := (if n.neg then [45] else []) ++ n.int ++ n.tail

mutual
/-- `serde_json::to_vec`. -/
def Json.write : Json → Bytes
  | .null => [110, 117, 108, 108]
  | .bool true => [116, 114, 117, 101]
  | .bool false => [102, 97, 108, 115, 101]
  | .num n => n.text
  | .str s => writeStr s
  | .arr l => 91 :: (writeArr l ++ [93])
  | .obj m => 123 :: (writeObj m ++ [125])

def writeArr : List Json → Bytes
  | [] => []
  | [x] => x.write
  | x :: y :: l => x.write ++ 44 :: writeArr (y :: l)

def writeObj : List (Bytes × Json) → Bytes
  | [] => []
  | [(k, x)] => writeStr k ++ 58 :: x.write
  | (k, x) :: e :: m => writeStr k ++ 58 :: (x.write ++ 44 :: writeObj (e :: m))
end

/-! ### Reading -/

/-- `parse_whitespace`. -/
def skipWs : Bytes → Bytes
  | [] => []
  | c :: s => if c = 32 ∨ c = 10 ∨ c = 9 ∨ c = 13 then skipWs s else c :: s

/-- `'0'..='9'` -/
def isDigit (c : UInt8) : Bool := 48 ≤ c.toNat && c.toNat ≤ 57

/-- The digits a text starts with. -/
def digitSpan : Bytes → Bytes × Bytes
  | [] => ([], [])
  | c :: s => if isDigit c then (c :: (digitSpan s).1, (digitSpan s).2) else ([], c :: s)

/-- The sign of an exponent. -/
def expSign : Bytes → Bytes
  | 43 :: _ => [43]
  | 45 :: _ => [45]
  | _ => []

/-- `parse_exponent`, if there is one. -/
def readExp : Bytes → Option (Bytes × Bytes)
  | [] => some ([], [])
  | c :: s =>
    if c = 101 ∨ c = 69 then
      let p := digitSpan (s.drop (expSign s).length)
      if p.1.isEmpty then none else some (c :: (expSign s ++ p.1), p.2)
    else some ([], c :: s)

/-- `parse_number`: what follows the digits, `parse_decimal` if there is a point. -/
def readTail : Bytes → Option (Bytes × Bytes)
  | [] => some ([], [])
  | c :: s =>
    if c = 46 then
      let p := digitSpan s
      if p.1.isEmpty then none
      else
        match readExp p.2 with
        | some (e, r) => some (46 :: (p.1 ++ e), r)
        | none => none
    else readExp (c :: s)

/-- `parse_integer`, after the sign. -/
def readInt (neg : Bool) (s : Bytes) : Option (JNum × Bytes) :=
  let p := digitSpan s
  match p.1 with
  | [] => none
  | d :: ds =>
    if d = 48 ∧ ds ≠ [] then none
    else
      match readTail p.2 with
      | some (t, r) => some (⟨neg, d :: ds, t⟩, r)
      | none => none

/-- `parse_any_number`. -/
def readNum : Bytes → Option (JNum × Bytes)
  | 45 :: s => readInt true s
  | s => readInt false s

/-- The value of a hexadecimal digit. -/
def hexOf (c : UInt8) : Option Nat :=
  let n := c.toNat
  if 48 ≤ n ∧ n ≤ 57 then some (n - 48)
  else if 97 ≤ n ∧ n ≤ 102 then some (n - 87)
  else if 65 ≤ n ∧ n ≤ 70 then some (n - 55)
  else none

/-- `decode_hex_escape`. -/
def readHex4 : Bytes → Option (Nat × Bytes)
  | a :: b :: c :: d :: r =>
    match hexOf a, hexOf b, hexOf c, hexOf d with
    | some w, some x, some y, some z => some (((w * 16 + x) * 16 + y) * 16 + z, r)
    | _, _, _, _ => none
  | _ => none

/-- The escapes of one character. -/
def simpleEsc (c : UInt8) : Option UInt8 :=
  if c = 34 then some 34
  else if c = 92 then some 92
  else if c = 47 then some 47
  else if c = 98 then some 8
  else if c = 102 then some 12
  else if c = 110 then some 10
  else if c = 114 then some 13
  else if c = 116 then some 9
  else none

/-- `parse_unicode_escape`, after `\u`. -/
def readUnicode (s : Bytes) : Option (Bytes × Bytes) :=
  match readHex4 s with
  | none => none
  | some (n, r) =>
    if 0xDC00 ≤ n ∧ n ≤ 0xDFFF then none
    else if 0xD800 ≤ n ∧ n ≤ 0xDBFF then
      match r with
      | 92 :: 117 :: r2 =>
        match readHex4 r2 with
        | none => none
        | some (m, r3) =>
          if 0xDC00 ≤ m ∧ m ≤ 0xDFFF then some (encodeScalar (0x10000 + (n - 0xD800) * 0x400 + (m - 0xDC00)), r3)
          else none
      | _ => none
    else some (encodeScalar n, r)

/-- One character or escape of a string: the bytes it stands for and what follows. -/
def strUnit : Bytes → Option (Bytes × Bytes)
  | [] => none
  | c :: s =>
    if c = 92 then
      match s with
      | [] => none
      | e :: r => if e = 117 then readUnicode r else (simpleEsc e).map (fun b => ([b], r))
    else if c = 34 ∨ c.toNat < 32 then none
    else some ([c], s)

theorem readHex4_length {s : Bytes} {n : Nat} {r : Bytes} (h : readHex4 s = some (n, r)) : r.length < s.length := by
  unfold readHex4 at h
  split at h
  · split at h
    · simp only [Option.some.injEq, Prod.mk.injEq] at h
      rw [← h.2]; simp; omega
    · cases h
  · cases h

theorem readUnicode_length {s : Bytes} {o r : Bytes} (h : readUnicode s = some (o, r)) : r.length < s.length := by
  unfold readUnicode at h
  split at h
  · cases h
  · rename_i n r1 h1
    have l1 := readHex4_length h1
    split at h
    · cases h
    · split at h
      · split at h
        · rename_i r2
          split at h
          · cases h
          · rename_i m r3 h3
            have l3 := readHex4_length h3
            split at h
            · simp only [Option.some.injEq, Prod.mk.injEq] at h
              rw [← h.2]; simp at l1; omega
            · cases h
        · cases h
      · simp only [Option.some.injEq, Prod.mk.injEq] at h
        rw [← h.2]; exact l1

theorem strUnit_length {s : Bytes} {o r : Bytes} (h : strUnit s = some (o, r)) : r.length < s.length := by
  unfold strUnit at h
  split at h
  · cases h
  · split at h
    · split at h
      · cases h
      · split at h
        · have := readUnicode_length h; simp; omega
        · rename_i e r' _
          cases he : simpleEsc e with
          | none => rw [he] at h; cases h
          | some b =>
            rw [he] at h
            simp only [Option.map_some, Option.some.injEq, Prod.mk.injEq] at h
            rw [← h.2]; simp; omega
    · split at h
      · cases h
      · simp only [Option.some.injEq, Prod.mk.injEq] at h
        rw [← h.2]; simp

/-- `parse_str_bytes`, after the quote. -/
def strBody (s : Bytes) : Option (Bytes × Bytes) :=
  if s.head? = some 34 then some ([], s.tail)
  else
    match _h : strUnit s with
    | none => none
    | some (o, r) =>
      match strBody r with
      | some (t, r') => some (o ++ t, r')
      | none => none
termination_by s.length
decreasing_by exact strUnit_length _h

/-- `parse_str`: the text must be UTF-8. -/
def readStr (s : Bytes) : Option (Bytes × Bytes) :=
  match strBody s with
  | some (t, r) => if utf8Ok t then some (t, r) else none
  | none => none

/-- `parse_ident`. -/
def readIdent : Bytes → Bytes → Option Bytes
  | [], s => some s
  | c :: cs, d :: s => if c = d then readIdent cs s else none
  | _ :: _, [] => none

mutual
/-- `deserialize_any`, with at most `depth` more lists and objects inside each other. -/
def readVal : Nat → Nat → Bytes → Option (Json × Bytes)
  | 0, _, _ => none
  | fuel + 1, depth, s =>
    match skipWs s with
    | [] => none
    | c :: r =>
      if c = 110 then (readIdent [117, 108, 108] r).map (fun r => (.null, r))
      else if c = 116 then (readIdent [114, 117, 101] r).map (fun r => (.bool true, r))
      else if c = 102 then (readIdent [97, 108, 115, 101] r).map (fun r => (.bool false, r))
      else if c = 34 then (readStr r).map (fun p => (.str p.1, p.2))
      else if c = 91 then
        match depth with
        | 0 => none
        | depth + 1 => (readArr fuel depth true r).map (fun p => (.arr p.1, p.2))
      else if c = 123 then
        match depth with
        | 0 => none
        | depth + 1 => (readObj fuel depth true r).map (fun p => (.obj p.1, p.2))
      else (readNum (c :: r)).map (fun p => (.num p.1, p.2))

/-- `SeqAccess::next_element_seed` until the end of the list. -/
def readArr : Nat → Nat → Bool → Bytes → Option (List Json × Bytes)
  | 0, _, _, _ => none
  | fuel + 1, depth, first, s =>
    match skipWs s with
    | [] => none
    | c :: r =>
      if c = 93 then some ([], r)
      else
        let start : Option Bytes :=
          if first then some (c :: r) else if c = 44 then some (skipWs r) else none
        match start with
        | none => none
        | some t =>
          if t.head? = some 93 then none
          else
            match readVal fuel depth t with
            | none => none
            | some (v, r) =>
              match readArr fuel depth false r with
              | none => none
              | some (vs, r) => some (v :: vs, r)

/-- `MapAccess::next_key_seed` and `next_value_seed` until the end of the object. -/
def readObj : Nat → Nat → Bool → Bytes → Option (List (Bytes × Json) × Bytes)
  | 0, _, _, _ => none
  | fuel + 1, depth, first, s =>
    match skipWs s with
    | [] => none
    | c :: r =>
      if c = 125 then some ([], r)
      else
        let start : Option Bytes :=
          if first then some (c :: r) else if c = 44 then some (skipWs r) else none
        match start with
        | some (34 :: t) =>
          match readStr t with
          | none => none
          | some (k, r) =>
            match skipWs r with
            | 58 :: r =>
              match readVal fuel depth r with
              | none => none
              | some (v, r) =>
                match readObj fuel depth false r with
                | none => none
                | some (es, r) => some ((k, v) :: es, r)
            | _ => none
        | _ => none
end

/-- The levels `serde_json` goes down: its counter starts at 128 and must not come to zero. -/
def jsonDepth : Nat := 127

/-- The value at the beginning of a text, and what follows it. -/
def readJson (s : Bytes) : Option (Json × Bytes) := readVal (2 * s.length + 1) jsonDepth s

/-- The integer a number is, `none` if it is handed out as a float: it has a fraction or an exponent, does not
fit `u64` or `i64`, or is -0 (`parse_number`). -/
def JNum.intValue (n : JNum) : Option Int :=
  if n.tail ≠ [] then none
  else
    match digitVals n.int with
    | none => none
    | some ds =>
      let v := ofDigits 10 ds
      if n.neg then (if v ≠ 0 ∧ v ≤ 2 ^ 63 then some (- (v : Int)) else none)
      else (if v < 2 ^ 64 then some (v : Int) else none)

/-- How an integer is written. -/
def JNum.ofInt (i : Int) : JNum := ⟨decide (i < 0), decimal i.natAbs, []⟩

end Verif
