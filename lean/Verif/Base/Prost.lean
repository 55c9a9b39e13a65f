import Verif.Base.PbWire

/-!
# Protobuf messages, as read and written by `prost`

`prost` is not part of `/repo`; this is the wire format of proto3 as its derived `Message`
implementations use it. A message is read field by field; a field with an unknown number is skipped,
one with a known number and the wrong wire type is an error. A nested message is parsed from exactly
its own bytes: `prost` lets a field overrun its message and then fails with "delimited length
exceeded", which is the same outcome.

* Groups, which `prost` skips when unknown, are refused.
* A varint of ten bytes is cut to 64 bits.
-/

namespace Verif.Prost

open Verif

/-- `decode_key` and the value following it: field number and payload. -/
def readField (bs : Bytes) : Option ((Nat × WireVal) × Bytes) :=
  match readVarint bs with
  | none => none
  | some (key, r) =>
    if 2 ^ 32 ≤ key then none
    else if key / 8 = 0 then none
    else
      match key % 8 with
      | 0 =>
        match readVarint r with
        | none => none
        | some (v, r') => some ((key / 8, .varint v), r')
      | 1 =>
        match takeExact 8 r with
        | none => none
        | some (x, r') => some ((key / 8, .fixed64 x), r')
      | 2 =>
        match readVarint r with
        | none => none
        | some (len, r') =>
          match takeExact len r' with
          | none => none
          | some (x, r'') => some ((key / 8, .len x), r'')
      | 5 =>
        match takeExact 4 r with
        | none => none
        | some (x, r') => some ((key / 8, .fixed32 x), r')
      | _ => none

theorem readField_shorter {bs : Bytes} {t : Nat × WireVal} {r : Bytes}
    (h : readField bs = some (t, r)) : r.length < bs.length := by
  unfold readField at h
  split at h
  · simp at h
  · rename_i key r0 heq
    have h0 := readVarint_shorter heq
    split at h
    · cases h
    · split at h
      · cases h
      · split at h
        · split at h
          · simp at h
          · rename_i h1
            have := readVarint_shorter h1
            simp at h; obtain ⟨_, rfl⟩ := h; omega
        · split at h
          · simp at h
          · rename_i h1
            have := (takeExact_length h1).2
            simp at h; obtain ⟨_, rfl⟩ := h
            rw [this] at h0; simp at h0; omega
        · split at h
          · simp at h
          · rename_i h1
            have h2 := readVarint_shorter h1
            split at h
            · simp at h
            · rename_i h3
              have := (takeExact_length h3).2
              simp at h; obtain ⟨_, rfl⟩ := h
              rw [this] at h2; simp at h2; omega
        · split at h
          · simp at h
          · rename_i h1
            have := (takeExact_length h1).2
            simp at h; obtain ⟨_, rfl⟩ := h
            rw [this] at h0; simp at h0; omega
        · simp at h

/-- `Message::merge`: `step` is the derived `merge_field`. -/
def msg {σ : Type} (step : σ → Nat → WireVal → Option σ) (s : σ) (bs : Bytes) : Option σ :=
  if bs = [] then some s
  else
    match _h : readField bs with
    | none => none
    | some ((n, v), r) =>
      match step s n v with
      | none => none
      | some s' => msg step s' r
termination_by bs.length
decreasing_by exact readField_shorter _h

/-- A `bytes` or `string` field, left out when empty. -/
def bytesField (n : Nat) (b : Bytes) : Bytes := if b = [] then [] else lenField (n * 8 + 2) b

/-- An integer, `bool` or enumeration field, left out when zero. -/
def varField (n v : Nat) : Bytes := if v = 0 then [] else varintField (n * 8) v

/-- A nested message or an element of a repeated `bytes` field, always written. -/
def subField (n : Nat) (b : Bytes) : Bytes := lenField (n * 8 + 2) b

variable {σ : Type} {step : σ → Nat → WireVal → Option σ}

theorem msg_nil (s : σ) : msg step s [] = some s := by rw [msg]; simp

theorem msg_field {s : σ} {bs : Bytes} {n : Nat} {v : WireVal} {r : Bytes}
    (h : readField bs = some ((n, v), r)) :
    msg step s bs = (step s n v).bind (fun s' => msg step s' r) := by
  have hne : bs ≠ [] := by
    intro hb; have := readField_shorter h; simp [hb] at this
  rw [msg]
  simp only [hne, if_false]
  split
  · rename_i h1; rw [h1] at h; simp at h
  · rename_i n' v' r' h1
    rw [h1] at h
    simp at h
    obtain ⟨⟨rfl, rfl⟩, rfl⟩ := h
    cases step s n' v' <;> rfl

theorem readField_len {n : Nat} {b r : Bytes} (hn : 0 < n) (hn' : n < 2 ^ 29) (hb : b.length < 2 ^ 64) :
    readField (lenField (n * 8 + 2) b ++ r) = some ((n, .len b), r) := by
  simp only [readField, lenField, List.append_assoc]
  rw [readVarint_write _ _ (by omega)]
  simp only []
  rw [if_neg (by omega), if_neg (by omega)]
  have : (n * 8 + 2) % 8 = 2 := by omega
  simp only [this]
  rw [readVarint_write _ _ hb]
  simp only []
  rw [takeExact_append]
  simp only [Option.some.injEq, Prod.mk.injEq, and_true]
  omega

theorem readField_varint {n v : Nat} {r : Bytes} (hn : 0 < n) (hn' : n < 2 ^ 29) (hv : v < 2 ^ 64) :
    readField (varintField (n * 8) v ++ r) = some ((n, .varint v), r) := by
  simp only [readField, varintField, List.append_assoc]
  rw [readVarint_write _ _ (by omega)]
  simp only []
  rw [if_neg (by omega), if_neg (by omega)]
  have : (n * 8) % 8 = 0 := by omega
  simp only [this]
  rw [readVarint_write _ _ hv]
  simp only [Option.some.injEq, Prod.mk.injEq, and_true]
  omega

theorem msg_subField {s : σ} {n : Nat} {b r : Bytes} (hn : 0 < n) (hn' : n < 2 ^ 29)
    (hb : b.length < 2 ^ 64) :
    msg step s (subField n b ++ r) = (step s n (.len b)).bind (fun s' => msg step s' r) :=
  msg_field (readField_len hn hn' hb)

theorem msg_bytesField {s s' : σ} {n : Nat} {b r : Bytes} (hn : 0 < n) (hn' : n < 2 ^ 29)
    (hb : b.length < 2 ^ 64) (h0 : b = [] → s' = s) (h1 : step s n (.len b) = some s') :
    msg step s (bytesField n b ++ r) = msg step s' r := by
  unfold bytesField
  split
  · rename_i hb; rw [h0 hb]; rfl
  · rw [msg_field (readField_len hn hn' hb), h1]; rfl

theorem msg_varField {s s' : σ} {n v : Nat} {r : Bytes} (hn : 0 < n) (hn' : n < 2 ^ 29)
    (hv : v < 2 ^ 64) (h0 : v = 0 → s' = s) (h1 : step s n (.varint v) = some s') :
    msg step s (varField n v ++ r) = msg step s' r := by
  unfold varField
  split
  · rename_i hb; rw [h0 hb]; rfl
  · rw [msg_field (readField_varint hn hn' hv), h1]; rfl

/-- A repeated message field. -/
theorem msg_repeated {α : Type} {n : Nat} (write : α → Bytes) (upd : σ → α → σ) (l : List α) {s : σ} {r : Bytes}
    (hn : 0 < n) (hn' : n < 2 ^ 29) (hb : ∀ a ∈ l, (write a).length < 2 ^ 64)
    (h1 : ∀ a ∈ l, ∀ s, step s n (.len (write a)) = some (upd s a)) :
    msg step s (l.flatMap (fun a => subField n (write a)) ++ r) = msg step (l.foldl upd s) r := by
  induction l generalizing s with
  | nil => rfl
  | cons a l ih =>
    simp only [List.flatMap_cons, List.append_assoc, List.foldl_cons]
    rw [msg_subField hn hn' (hb a (by simp)), h1 a (by simp)]
    exact ih (fun b h => hb b (by simp [h])) (fun b h => h1 b (by simp [h]))

end Verif.Prost
