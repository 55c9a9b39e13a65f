/-!
# Finite maps as association lists

Stands for `HashMap`, `BTreeMap` and `sled` trees where iteration matters. Iteration order of a
`HashMap` is arbitrary; statements about iteration here are about membership and multiplicity.
-/

namespace Verif

/-- A finite map; `AMap.Uniq` says that no key occurs twice. -/
abbrev AMap (κ ν : Type) := List (κ × ν)

namespace AMap

variable {κ ν : Type} [DecidableEq κ]

/-- `HashMap::get`. -/
def get : AMap κ ν → κ → Option ν
  | [], _ => none
  | (k', v) :: m, k => if k' = k then some v else get m k

/-- `HashMap::insert`. -/
def set : AMap κ ν → κ → ν → AMap κ ν
  | [], k, v => [(k, v)]
  | (k', v') :: m, k, v => if k' = k then (k, v) :: m else (k', v') :: set m k v

/-- `HashMap::remove`. -/
def erase (m : AMap κ ν) (k : κ) : AMap κ ν := m.filter (fun e => decide (e.1 ≠ k))

/-- The keys. -/
def keys (m : AMap κ ν) : List κ := m.map Prod.fst

/-- No key twice. -/
def Uniq (m : AMap κ ν) : Prop := (keys m).Nodup

theorem get_set_eq (m : AMap κ ν) (k : κ) (v : ν) : get (set m k v) k = some v := by
  induction m with
  | nil => simp [set, get]
  | cons e m ih =>
    obtain ⟨k', v'⟩ := e
    simp only [set]
    split
    · simp [get]
    · rename_i h; simp [get, h, ih]

theorem get_set_ne (m : AMap κ ν) {k k' : κ} (v : ν) (h : k' ≠ k) :
    get (set m k v) k' = get m k' := by
  induction m with
  | nil => simp [set, get, Ne.symm h]
  | cons e m ih =>
    obtain ⟨k2, v2⟩ := e
    simp only [set]
    split
    · rename_i h2
      subst h2
      simp [get, Ne.symm h]
    · simp only [get]
      split
      · rfl
      · exact ih

theorem get_set (m : AMap κ ν) (k k' : κ) (v : ν) :
    get (set m k v) k' = if k' = k then some v else get m k' := by
  split
  · rename_i h; subst h; exact get_set_eq m k' v
  · rename_i h; exact get_set_ne m v h

theorem get_erase (m : AMap κ ν) (k k' : κ) :
    get (erase m k) k' = if k' = k then none else get m k' := by
  induction m with
  | nil => simp [erase, get]
  | cons e m ih =>
    obtain ⟨k2, v2⟩ := e
    by_cases h2 : k2 = k
    · subst h2
      have : erase ((k2, v2) :: m) k2 = erase m k2 := by simp [erase]
      rw [this, ih]
      split
      · rfl
      · rename_i h; simp [get, Ne.symm h]
    · have : erase ((k2, v2) :: m) k = (k2, v2) :: erase m k := by simp [erase, h2]
      rw [this]
      simp only [get, ih]
      by_cases h3 : k2 = k'
      · subst h3; simp [h2]
      · simp [h3]

theorem get_erase_eq (m : AMap κ ν) (k : κ) : get (erase m k) k = none := by simp [get_erase]

theorem get_erase_ne (m : AMap κ ν) {k k' : κ} (h : k' ≠ k) : get (erase m k) k' = get m k' := by
  simp [get_erase, h]

theorem mem_keys_iff (m : AMap κ ν) (k : κ) : k ∈ keys m ↔ (get m k).isSome = true := by
  induction m with
  | nil => simp [keys, get]
  | cons e m ih =>
    obtain ⟨k', v⟩ := e
    simp only [keys, List.map_cons, List.mem_cons, get]
    rw [show (k ∈ m.map Prod.fst) = (k ∈ keys m) from rfl, ih]
    by_cases h : k' = k
    · subst h; simp
    · simp [h, Ne.symm h]

theorem mem_of_get {m : AMap κ ν} {k : κ} {v : ν} (h : get m k = some v) : (k, v) ∈ m := by
  induction m with
  | nil => simp [get] at h
  | cons e m ih =>
    obtain ⟨k', v'⟩ := e
    simp only [get] at h
    split at h
    · rename_i h2; subst h2; cases h; simp
    · exact List.mem_cons_of_mem _ (ih h)

theorem mem_iff_get {m : AMap κ ν} (hu : Uniq m) (k : κ) (v : ν) : (k, v) ∈ m ↔ get m k = some v := by
  refine ⟨?_, mem_of_get⟩
  induction m with
  | nil => simp
  | cons e m ih =>
    obtain ⟨k', v'⟩ := e
    simp only [Uniq, keys, List.map_cons, List.nodup_cons] at hu
    intro h
    simp only [List.mem_cons] at h
    rcases h with h | h
    · cases h; simp [get]
    · have hk : k' ≠ k := by
        intro hk; subst hk
        exact hu.1 (List.mem_map.mpr ⟨_, h, rfl⟩)
      simp only [get, if_neg hk]
      exact ih hu.2 h

theorem keys_set (m : AMap κ ν) (k : κ) (v : ν) :
    keys (set m k v) = if k ∈ keys m then keys m else keys m ++ [k] := by
  induction m with
  | nil => simp [set, keys]
  | cons e m ih =>
    obtain ⟨k', v'⟩ := e
    simp only [set]
    by_cases h : k' = k
    · subst h; simp [keys]
    · simp only [if_neg h]
      simp only [keys, List.map_cons, List.mem_cons] at ih ⊢
      rw [ih]
      by_cases h2 : k ∈ m.map Prod.fst
      · simp [h2]
      · simp [h2, Ne.symm h]

omit [DecidableEq κ] in
theorem uniq_nil : Uniq ([] : AMap κ ν) := List.nodup_nil

theorem Uniq.set {m : AMap κ ν} (h : Uniq m) (k : κ) (v : ν) : Uniq (AMap.set m k v) := by
  unfold Uniq at *
  rw [keys_set]
  split
  · exact h
  · rename_i hk
    rw [List.nodup_append]
    refine ⟨h, by simp, ?_⟩
    intro a ha b hb
    simp at hb; subst hb
    intro hab; subst hab; exact hk ha

theorem Uniq.erase {m : AMap κ ν} (h : Uniq m) (k : κ) : Uniq (AMap.erase m k) := by
  unfold Uniq keys AMap.erase at *
  exact List.Pairwise.sublist (List.Sublist.map _ (List.filter_sublist)) h

theorem keys_erase (m : AMap κ ν) (k : κ) : keys (erase m k) = (keys m).filter (fun x => decide (x ≠ k)) := by
  induction m with
  | nil => rfl
  | cons e m ih =>
    simp only [keys, erase, List.filter_cons, List.map_cons] at ih ⊢
    split <;> simp_all

end AMap

end Verif
