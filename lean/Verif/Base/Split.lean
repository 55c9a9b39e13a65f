import Verif.Base.Bytes

/-!
# Splitting and joining at '/'
-/

namespace Verif

/-- `str::split('/')`: always at least one part. -/
def splitSlash : Bytes → List Bytes
  | [] => [[]]
  | c :: s =>
    if c = 47 then [] :: splitSlash s
    else match splitSlash s with
      | [] => [[c]]
      | x :: xs => (c :: x) :: xs

/-- The parts with '/' in between. -/
def joinSlash : List Bytes → Bytes
  | [] => []
  | [x] => x
  | x :: y :: xs => x ++ 47 :: joinSlash (y :: xs)

/-- No '/' in it. -/
def NoSlash (s : Bytes) : Prop := ∀ c ∈ s, c ≠ 47

instance (s : Bytes) : Decidable (NoSlash s) := by unfold NoSlash; infer_instance

theorem splitSlash_ne_nil (s : Bytes) : splitSlash s ≠ [] := by
  cases s with
  | nil => simp [splitSlash]
  | cons c s =>
    simp only [splitSlash]
    split
    · simp
    · split <;> simp

theorem splitSlash_single {s : Bytes} (h : NoSlash s) : splitSlash s = [s] := by
  induction s with
  | nil => rfl
  | cons c s ih =>
    simp only [splitSlash, if_neg (h c (by simp)), ih (fun x hx => h x (by simp [hx]))]

theorem splitSlash_append {a : Bytes} (h : NoSlash a) (s : Bytes) :
    splitSlash (a ++ 47 :: s) = a :: splitSlash s := by
  induction a with
  | nil => simp [splitSlash]
  | cons c a ih =>
    simp only [List.cons_append, splitSlash, if_neg (h c (by simp)), ih (fun x hx => h x (by simp [hx]))]

theorem splitSlash_append' (a s : Bytes) : splitSlash (a ++ 47 :: s) = splitSlash a ++ splitSlash s := by
  induction a with
  | nil => simp [splitSlash]
  | cons c a ih =>
    simp only [List.cons_append, splitSlash, ih]
    split
    · rfl
    · cases h : splitSlash a with
      | nil => exact absurd h (splitSlash_ne_nil a)
      | cons x xs => rfl

theorem splitSlash_join {l : List Bytes} (hne : l ≠ []) (h : ∀ x ∈ l, NoSlash x) :
    splitSlash (joinSlash l) = l := by
  induction l with
  | nil => exact absurd rfl hne
  | cons x l ih =>
    cases l with
    | nil => exact splitSlash_single (h x (by simp))
    | cons y l =>
      simp only [joinSlash]
      rw [splitSlash_append (h x (by simp)), ih (by simp) (fun z hz => h z (by simp [hz]))]

theorem splitSlash_noSlash (s : Bytes) : ∀ x ∈ splitSlash s, NoSlash x := by
  induction s with
  | nil => intro x hx; simp [splitSlash] at hx; subst hx; simp [NoSlash]
  | cons c s ih =>
    intro x hx
    simp only [splitSlash] at hx
    split at hx
    · rcases List.mem_cons.mp hx with rfl | hx
      · simp [NoSlash]
      · exact ih x hx
    · rename_i hc
      split at hx
      · simp only [List.mem_singleton] at hx
        subst hx
        intro y hy; simp only [List.mem_singleton] at hy; subst hy; exact hc
      · rename_i y ys he
        rcases List.mem_cons.mp hx with rfl | hx
        · intro z hz
          rcases List.mem_cons.mp hz with rfl | hz
          · exact hc
          · exact ih y (by rw [he]; simp) z hz
        · exact ih x (by rw [he]; simp [hx])

theorem join_splitSlash (s : Bytes) : joinSlash (splitSlash s) = s := by
  induction s with
  | nil => rfl
  | cons c s ih =>
    simp only [splitSlash]
    cases he : splitSlash s with
    | nil => exact absurd he (splitSlash_ne_nil s)
    | cons y ys =>
      rw [he] at ih
      split
      · rename_i hc
        simp only [joinSlash, ih, hc, List.nil_append]
      · cases ys with
        | nil => simp only [joinSlash] at ih ⊢; rw [ih]
        | cons z zs => simp only [joinSlash, List.cons_append] at ih ⊢; rw [ih]

theorem joinSlash_snoc_nil {l : List Bytes} (hne : l ≠ []) :
    joinSlash (l ++ [[]]) = joinSlash l ++ [47] := by
  induction l with
  | nil => exact absurd rfl hne
  | cons x l ih =>
    cases l with
    | nil => rfl
    | cons y l =>
      have := ih (by simp)
      simp only [List.cons_append, joinSlash] at this ⊢
      rw [this]; simp

end Verif
