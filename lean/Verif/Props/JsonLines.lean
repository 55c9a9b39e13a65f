import Verif.Props.JsonWrite

/-!
# C65 (JSON): documents in lines

Answers are often documents with a newline after each; a client cuts them at newlines before it reads anything.
-/

namespace Verif.Props

open Verif

/-! ### Specification -/

/-- The lines that ended, and what follows the last newline. -/
def cutLines : Bytes → List Bytes × Bytes
  | [] => ([], [])
  | c :: s =>
    if c = 10 then ([] :: (cutLines s).1, (cutLines s).2)
    else match (cutLines s).1 with
      | [] => ([], c :: (cutLines s).2)
      | l :: ls => ((c :: l) :: ls, (cutLines s).2)

/-- What a client makes of a body in lines: every line is one document, and no line is left unfinished. -/
def readLines (body : Bytes) : Option (List Json) :=
  match cutLines body with
  | (lines, []) => lines.mapM (fun l => match readJson l with
      | some (j, []) => some j
      | _ => none)
  | _ => none

/-! ### No newline in a document -/

theorem hexLower_graph : ∀ v < 16, (hexLower v).toNat ≥ 32 := by decide +kernel

theorem escByte_graph (c : UInt8) : ∀ b ∈ escByte c, 32 ≤ b.toNat := by
  intro b hb
  unfold escByte at hb
  have hc : c.toNat < 256 := c.toNat_lt
  split at hb
  · simp at hb; rcases hb with rfl | rfl <;> decide
  split at hb
  · simp at hb; rcases hb with rfl | rfl <;> decide
  split at hb
  · simp at hb; rcases hb with rfl | rfl <;> decide
  split at hb
  · simp at hb; rcases hb with rfl | rfl <;> decide
  split at hb
  · simp at hb; rcases hb with rfl | rfl <;> decide
  split at hb
  · simp at hb; rcases hb with rfl | rfl <;> decide
  split at hb
  · simp at hb; rcases hb with rfl | rfl <;> decide
  split at hb
  · simp at hb
    rcases hb with rfl | rfl | rfl | rfl | rfl
    · decide
    · decide
    · decide
    · exact hexLower_graph _ (by omega)
    · exact hexLower_graph _ (by omega)
  · simp at hb; subst hb; omega

theorem writeStr_graph (s : Bytes) : ∀ b ∈ writeStr s, 32 ≤ b.toNat := by
  intro b hb
  simp only [writeStr, List.mem_cons, List.mem_append, List.mem_flatten, List.mem_map, List.not_mem_nil, or_false] at hb
  rcases hb with rfl | ⟨l, ⟨c, -, rfl⟩, hb⟩ | rfl
  · decide
  · exact escByte_graph c b hb
  · decide

theorem jdigit_graph {c : UInt8} (h : JDigit c) : 32 ≤ c.toNat := by
  unfold JDigit at h; omega

theorem jexp_graph {e : Bytes} (h : JExp e) : ∀ b ∈ e, 32 ≤ b.toNat := by
  cases h with
  | none => simp
  | some hc hs hd =>
    intro b hb
    simp only [List.mem_cons, List.mem_append] at hb
    rcases hb with rfl | hb | hb
    · rcases hc with rfl | rfl <;> decide
    · rcases hs with rfl | rfl | rfl
      · simp at hb
      · simp at hb; subst hb; decide
      · simp at hb; subst hb; decide
    · exact jdigit_graph (hd.2 b hb)

theorem jnumber_graph {n : JNum} (h : JNumber n) : ∀ b ∈ n.text, 32 ≤ b.toNat := by
  intro b hb
  simp only [JNum.text, List.mem_append] at hb
  rcases hb with (hb | hb) | hb
  · split at hb
    · simp at hb; subst hb; decide
    · simp at hb
  · exact jdigit_graph (h.1.2 b hb)
  · have ht := h.2.2
    generalize n.tail = t at ht hb
    cases ht with
    | plain he => exact jexp_graph he b hb
    | frac hd he =>
      simp only [List.mem_cons, List.mem_append] at hb
      rcases hb with rfl | hb | hb
      · decide
      · exact jdigit_graph (hd.2 b hb)
      · exact jexp_graph he b hb

theorem writeArr_graph (l : List Json) (h : ∀ x ∈ l, ∀ b ∈ x.write, 32 ≤ b.toNat) : ∀ b ∈ writeArr l, 32 ≤ b.toNat := by
  induction l with
  | nil => simp [writeArr]
  | cons x l ih =>
    cases l with
    | nil => simpa [writeArr] using h
    | cons y l =>
      intro b hb
      simp only [writeArr, List.mem_append, List.mem_cons] at hb
      rcases hb with hb | rfl | hb
      · exact h x (by simp) b hb
      · decide
      · exact ih (fun x hx => h x (List.mem_cons_of_mem _ hx)) b hb

theorem writeObj_graph (m : List (Bytes × Json)) (h : ∀ e ∈ m, ∀ b ∈ e.2.write, 32 ≤ b.toNat) :
    ∀ b ∈ writeObj m, 32 ≤ b.toNat := by
  induction m with
  | nil => simp [writeObj]
  | cons e m ih =>
    obtain ⟨k, x⟩ := e
    cases m with
    | nil =>
      intro b hb
      simp only [writeObj, List.mem_append, List.mem_cons] at hb
      rcases hb with hb | rfl | hb
      · exact writeStr_graph k b hb
      · decide
      · exact h _ (List.mem_cons_self ..) b hb
    | cons y l =>
      intro b hb
      simp only [writeObj, List.mem_append, List.mem_cons] at hb
      rcases hb with hb | rfl | hb | rfl | hb
      · exact writeStr_graph k b hb
      · decide
      · exact h _ (List.mem_cons_self ..) b hb
      · decide
      · exact ih (fun x hx => h x (List.mem_cons_of_mem _ hx)) b hb

theorem writableMap_value {m : List (Bytes × Json)} (h : WritableMap m) : ∀ e ∈ m, Writable e.2 := by
  induction m with
  | nil => simp
  | cons e m ih =>
    obtain ⟨k, x⟩ := e
    intro e he
    rcases List.mem_cons.mp he with rfl | he
    · exact h.2.1
    · exact ih h.2.2 e he

/-- A document has only bytes from the space on. -/
theorem write_graph (j : Json) : Writable j → ∀ b ∈ j.write, 32 ≤ b.toNat := by
  refine Json.ind (P := fun j => Writable j → ∀ b ∈ j.write, 32 ≤ b.toNat) ?_ ?_ ?_ ?_ ?_ ?_ j
  · intro _; rw [Json.write]; decide
  · intro b _; cases b <;> rw [Json.write] <;> decide
  · intro n h; rw [Json.write]; exact jnumber_graph h
  · intro s _; rw [Json.write]; exact writeStr_graph s
  · intro l ih h b hb
    rw [Json.write] at hb
    simp only [List.mem_cons, List.mem_append, List.not_mem_nil, or_false] at hb
    rcases hb with rfl | hb | rfl
    · decide
    · exact writeArr_graph l (fun x hx => ih x hx ((writableList_iff l).mp h x hx)) b hb
    · decide
  · intro m ih h b hb
    rw [Json.write] at hb
    simp only [List.mem_cons, List.mem_append, List.not_mem_nil, or_false] at hb
    rcases hb with rfl | hb | rfl
    · decide
    · exact writeObj_graph m (fun e he => ih e he (writableMap_value h e he)) b hb
    · decide

/-! ### Lines -/

theorem cutLines_line {l : Bytes} (h : ∀ b ∈ l, b ≠ 10) (s : Bytes) :
    cutLines (l ++ 10 :: s) = (l :: (cutLines s).1, (cutLines s).2) := by
  induction l with
  | nil => simp [cutLines]
  | cons c l ih =>
    have h1 := ih (fun b hb => h b (List.mem_cons_of_mem _ hb))
    simp only [List.cons_append, cutLines, if_neg (h c (List.mem_cons_self ..)), h1]

theorem cutLines_lines {ls : List Bytes} (h : ∀ l ∈ ls, ∀ b ∈ l, b ≠ 10) :
    cutLines (ls.map (· ++ [10])).flatten = (ls, []) := by
  induction ls with
  | nil => rfl
  | cons l ls ih =>
    have h1 := ih (fun l hl => h l (List.mem_cons_of_mem _ hl))
    simp only [List.map_cons, List.flatten_cons, List.append_assoc, List.singleton_append]
    rw [cutLines_line (h l (List.mem_cons_self ..)), h1]

theorem endsHere_nil (j : Json) : EndsHere j [] := by
  intro n _ c r h; cases h

/-- **C65**: documents that are written one to a line are read, line by line, as themselves. -/
theorem C65_lines (docs : List Json) (h : ∀ j ∈ docs, Writable j ∧ nesting j ≤ 127) :
    readLines (docs.map (fun j => j.write ++ [10])).flatten = some docs := by
  have h1 := cutLines_lines (ls := docs.map Json.write) (by
    intro l hl b hb hb'
    obtain ⟨j, hj, rfl⟩ := List.mem_map.mp hl
    have := write_graph j (h j hj).1 b hb
    subst hb'
    exact absurd this (by decide))
  rw [List.map_map] at h1
  have h2 : (fun j : Json => j.write ++ [10]) = ((fun x => x ++ [10]) ∘ Json.write) := rfl
  rw [readLines, h2, h1]
  simp only
  clear h1 h2
  induction docs with
  | nil => rfl
  | cons j docs ih =>
    have h3 := C65_write j (h j (List.mem_cons_self ..)).1 [] (endsHere_nil j)
    rw [if_pos (h j (List.mem_cons_self ..)).2, List.append_nil] at h3
    simp only [List.map_cons, List.mapM_cons, h3, ih (fun j hj => h j (List.mem_cons_of_mem _ hj))]
    rfl

/-- Strings may have newlines in them. -/
example : (readLines "{\"a\" : \"x\\ny\"}\n[]\n".toUTF8.toList).map (List.map Json.write) =
    some ["{\"a\":\"x\\ny\"}".toUTF8.toList, "[]".toUTF8.toList] ∧
    (readLines "[]\n[]".toUTF8.toList).isNone = true := by decide +kernel

end Verif.Props
