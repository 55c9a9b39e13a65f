/-! # Cutting a list into pieces of a given size -/

namespace Verif

/-- Consecutive pieces of `n` elements, the last one possibly shorter. -/
def chunksOf {α : Type} (n : Nat) (l : List α) : List (List α) :=
  if _h : l = [] ∨ n = 0 then [] else l.take n :: chunksOf n (l.drop n)
termination_by l.length
decreasing_by
  have : l ≠ [] := fun hl => _h (Or.inl hl)
  have := List.length_pos_iff.mpr this
  simp; omega

variable {α β : Type}

@[simp] theorem chunksOf_nil (n : Nat) : chunksOf n ([] : List α) = [] := by
  rw [chunksOf]; simp

theorem chunksOf_cons {n : Nat} (hn : 0 < n) {l : List α} (hl : l ≠ []) :
    chunksOf n l = l.take n :: chunksOf n (l.drop n) := by
  rw [chunksOf]
  have : ¬ (l = [] ∨ n = 0) := by intro h; rcases h with h | h; exact hl h; omega
  simp [this]

/-- Induction along the pieces. -/
theorem chunksOf_induction {n : Nat} (hn : 0 < n) {P : List α → Prop} (nil : P [])
    (cons : ∀ l, l ≠ [] → P (l.drop n) → P l) (l : List α) : P l := by
  generalize hk : l.length = k
  induction k using Nat.strongRecOn generalizing l with
  | ind k ih =>
    by_cases hl : l = []
    · exact hl ▸ nil
    · have := List.length_pos_iff.mpr hl
      exact cons l hl (ih (l.drop n).length (by simp; omega) _ rfl)

theorem chunksOf_flatten {n : Nat} (hn : 0 < n) (l : List α) : (chunksOf n l).flatten = l := by
  induction l using chunksOf_induction hn with
  | nil => simp
  | cons l hl ih => rw [chunksOf_cons hn hl]; simp [ih]

theorem chunksOf_ne_nil {n : Nat} (hn : 0 < n) {l : List α} (hl : l ≠ []) : chunksOf n l ≠ [] := by
  rw [chunksOf_cons hn hl]; simp

theorem chunksOf_mem_length {n : Nat} (hn : 0 < n) (l : List α) :
    ∀ c ∈ chunksOf n l, 0 < c.length ∧ c.length ≤ n := by
  induction l using chunksOf_induction hn with
  | nil => simp
  | cons l hl ih =>
    rw [chunksOf_cons hn hl]
    intro c hc
    simp only [List.mem_cons] at hc
    rcases hc with rfl | hc
    · have := List.length_pos_iff.mpr hl
      simp; omega
    · exact ih c hc

/-- All pieces but the last are full. -/
theorem chunksOf_dropLast_length {n : Nat} (hn : 0 < n) (l : List α) :
    ∀ c ∈ (chunksOf n l).dropLast, c.length = n := by
  induction l using chunksOf_induction hn with
  | nil => simp
  | cons l hl ih =>
    rw [chunksOf_cons hn hl]
    intro c hc
    by_cases hd : l.drop n = []
    · simp [hd] at hc
    · rw [List.dropLast_cons_of_ne_nil (chunksOf_ne_nil hn hd)] at hc
      simp only [List.mem_cons] at hc
      rcases hc with rfl | hc
      · have : n < l.length := by
          rcases Nat.lt_or_ge n l.length with h | h
          · exact h
          · exact absurd (List.drop_eq_nil_of_le h) hd
        simp; omega
      · exact ih c hc

theorem chunksOf_length_le {n : Nat} (hn : 0 < n) (l : List α) :
    (chunksOf n l).length ≤ l.length := by
  induction l using chunksOf_induction hn with
  | nil => simp
  | cons l hl ih =>
    rw [chunksOf_cons hn hl]
    have := List.length_pos_iff.mpr hl
    simp at ih ⊢; omega

theorem chunksOf_length_lt {n : Nat} (hn : 2 ≤ n) {l : List α} (hl : 2 ≤ l.length) :
    (chunksOf n l).length < l.length := by
  have h0 : l ≠ [] := by intro h; simp [h] at hl
  rw [chunksOf_cons (by omega) h0]
  have := chunksOf_length_le (n := n) (by omega) (l.drop n)
  simp at this ⊢; omega

theorem chunksOf_map {n : Nat} (hn : 0 < n) (f : α → β) (l : List α) :
    chunksOf n (l.map f) = (chunksOf n l).map (List.map f) := by
  induction l using chunksOf_induction hn with
  | nil => simp
  | cons l hl ih =>
    rw [chunksOf_cons hn hl, chunksOf_cons hn (by simpa using hl)]
    simp [List.map_take, List.map_drop, ← ih]

/-- Full pieces in front stay as they are. -/
theorem chunksOf_append_full {n : Nat} (hn : 0 < n) (fs : List (List α))
    (hf : ∀ c ∈ fs, c.length = n) (l : List α) :
    chunksOf n (fs.flatten ++ l) = fs ++ chunksOf n l := by
  induction fs with
  | nil => simp
  | cons c cs ih =>
    have hc := hf c (by simp)
    have hne : (c :: cs).flatten ++ l ≠ [] := by
      intro h; simp at h; obtain ⟨⟨rfl, _⟩, _⟩ := h; simp at hc; omega
    rw [chunksOf_cons hn hne]
    simp only [List.flatten_cons, List.append_assoc]
    rw [List.take_append_of_le_length (by omega), List.take_of_length_le (by omega),
      List.drop_append_of_le_length (by omega), List.drop_of_length_le (l := c) (by omega),
      List.nil_append, ih (fun c' h' => hf c' (by simp [h']))]
    simp

theorem chunksOf_of_length_le {n : Nat} (hn : 0 < n) {l : List α} (hl : l ≠ [])
    (h : l.length ≤ n) : chunksOf n l = [l] := by
  rw [chunksOf_cons hn hl]
  simp [List.take_of_length_le h, List.drop_eq_nil_of_le h]

theorem chunksOf_length_one {n : Nat} (hn : 0 < n) {l : List α} (h : (chunksOf n l).length = 1) :
    chunksOf n l = [l] := by
  have hfl := chunksOf_flatten hn l
  match hc : chunksOf n l, h with
  | [c], _ => rw [hc] at hfl; simp at hfl; rw [hfl]

end Verif
