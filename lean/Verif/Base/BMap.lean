import Verif.Base.Bytes
import Verif.Base.AMap

/-!
# Ordered maps keyed by strings

`BTreeMap<String, V>` as the list of its entries in key order. Strings are ordered bytewise.
-/

namespace Verif

/-- `str::cmp` is `Less`: bytewise lexicographic. -/
def blt : Bytes → Bytes → Bool
  | [], [] => false
  | [], _ :: _ => true
  | _ :: _, [] => false
  | a :: as, b :: bs => decide (a < b) || (decide (a = b) && blt as bs)

theorem blt_irrefl (a : Bytes) : blt a a = false := by
  induction a with
  | nil => rfl
  | cons x a ih => simp [blt, ih]

theorem blt_trans {a b c : Bytes} (h1 : blt a b = true) (h2 : blt b c = true) : blt a c = true := by
  induction a generalizing b c with
  | nil =>
    cases b with
    | nil => simp [blt] at h1
    | cons y b => cases c with
      | nil => simp [blt] at h2
      | cons z c => rfl
  | cons x a ih =>
    cases b with
    | nil => simp [blt] at h1
    | cons y b =>
      cases c with
      | nil => simp [blt] at h2
      | cons z c =>
        simp only [blt, Bool.or_eq_true, decide_eq_true_eq, Bool.and_eq_true] at h1 h2 ⊢
        rcases h1 with h1 | ⟨rfl, h1⟩
        · rcases h2 with h2 | ⟨rfl, h2⟩
          · exact Or.inl (UInt8.lt_trans h1 h2)
          · exact Or.inl h1
        · rcases h2 with h2 | ⟨rfl, h2⟩
          · exact Or.inl h2
          · exact Or.inr ⟨rfl, ih h1 h2⟩

theorem blt_total {a b : Bytes} (h : a ≠ b) : blt a b = true ∨ blt b a = true := by
  induction a generalizing b with
  | nil => cases b with
    | nil => exact absurd rfl h
    | cons y b => exact Or.inl rfl
  | cons x a ih =>
    cases b with
    | nil => exact Or.inr rfl
    | cons y b =>
      simp only [blt, Bool.or_eq_true, decide_eq_true_eq, Bool.and_eq_true]
      by_cases hxy : x = y
      · subst hxy
        rcases ih (fun e => h (by rw [e])) with h | h
        · exact Or.inl (Or.inr ⟨rfl, h⟩)
        · exact Or.inr (Or.inr ⟨rfl, h⟩)
      · have : x.toNat ≠ y.toNat := fun e => hxy (UInt8.toNat_inj.mp e)
        rcases Nat.lt_or_gt_of_ne this with h | h
        · exact Or.inl (Or.inl h)
        · exact Or.inr (Or.inl h)

theorem blt_asymm {a b : Bytes} (h : blt a b = true) : blt b a = false := by
  cases hb : blt b a with
  | false => rfl
  | true => rw [← blt_irrefl a, blt_trans h hb]

theorem blt_ne {a b : Bytes} (h : blt a b = true) : a ≠ b := by
  rintro rfl; rw [blt_irrefl] at h; cases h

/-- The entries in key order. -/
abbrev BMap (ν : Type) := AMap Bytes ν

namespace BMap

variable {ν : Type}

/-- Keys strictly increase. -/
def Sorted (m : BMap ν) : Prop := m.Pairwise (fun e f => blt e.1 f.1 = true)

/-- `BTreeMap::insert`. -/
def insert : BMap ν → Bytes → ν → BMap ν
  | [], k, v => [(k, v)]
  | (k', v') :: m, k, v =>
    if blt k k' then (k, v) :: (k', v') :: m
    else if k = k' then (k, v) :: m
    else (k', v') :: insert m k v

theorem mem_insert {m : BMap ν} {k : Bytes} {v : ν} {e : Bytes × ν} (h : e ∈ insert m k v) :
    e = (k, v) ∨ e ∈ m := by
  induction m with
  | nil => simpa [insert] using h
  | cons f m ih =>
    obtain ⟨k', v'⟩ := f
    simp only [insert] at h
    split at h
    · simpa using h
    · split at h
      · rcases List.mem_cons.mp h with h | h
        · exact Or.inl h
        · exact Or.inr (by simp [h])
      · rcases List.mem_cons.mp h with h | h
        · exact Or.inr (by simp [h])
        · rcases ih h with h | h
          · exact Or.inl h
          · exact Or.inr (by simp [h])

theorem Sorted.insert {m : BMap ν} (h : Sorted m) (k : Bytes) (v : ν) : Sorted (insert m k v) := by
  induction m with
  | nil => simp [BMap.insert, Sorted]
  | cons f m ih =>
    obtain ⟨k', v'⟩ := f
    unfold Sorted at h ih ⊢
    rw [List.pairwise_cons] at h
    simp only [BMap.insert]
    split
    · rename_i hlt
      rw [List.pairwise_cons, List.pairwise_cons]
      refine ⟨?_, h⟩
      intro e he
      rcases List.mem_cons.mp he with rfl | he
      · exact hlt
      · exact blt_trans hlt (h.1 e he)
    · split
      · rename_i he; subst he
        rw [List.pairwise_cons]
        exact ⟨h.1, h.2⟩
      · rename_i h1 h2
        rw [List.pairwise_cons]
        refine ⟨?_, ih h.2⟩
        intro e he
        rcases mem_insert he with rfl | he
        · rcases blt_total h2 with h3 | h3
          · exact absurd h3 h1
          · exact h3
        · exact h.1 e he

theorem get_insert (m : BMap ν) (k k' : Bytes) (v : ν) :
    AMap.get (insert m k v) k' = if k' = k then some v else AMap.get m k' := by
  induction m with
  | nil => simp only [insert, AMap.get]; split <;> (split <;> simp_all)
  | cons f m ih =>
    obtain ⟨k2, v2⟩ := f
    simp only [insert]
    split
    · simp only [AMap.get]
      by_cases h : k' = k
      · simp [h]
      · rw [if_neg (fun e => h e.symm), if_neg h]
    · split
      · rename_i he; subst he
        simp only [AMap.get]
        by_cases h : k' = k
        · simp [h]
        · rw [if_neg (fun e => h e.symm), if_neg h, if_neg (fun e => h e.symm)]
      · rename_i h1 h2
        simp only [AMap.get, ih]
        by_cases h : k' = k
        · subst h; rw [if_neg (fun e => h2 e.symm), if_pos rfl, if_pos rfl]
        · simp only [if_neg h]

theorem Sorted.get_none {m : BMap ν} {k : Bytes} (h : ∀ e ∈ m, blt k e.1 = true) : AMap.get m k = none := by
  induction m with
  | nil => rfl
  | cons f m ih =>
    simp only [AMap.get]
    rw [if_neg (fun e => blt_ne (h f (by simp)) e.symm)]
    exact ih (fun e he => h e (by simp [he]))

/-- Two ordered maps with the same entries are the same list. -/
theorem Sorted.ext {m m' : BMap ν} (h : Sorted m) (h' : Sorted m')
    (he : ∀ k, AMap.get m k = AMap.get m' k) : m = m' := by
  induction m generalizing m' with
  | nil =>
    cases m' with
    | nil => rfl
    | cons f m' =>
      have := he f.1
      simp [AMap.get] at this
  | cons e m ih =>
    obtain ⟨k, v⟩ := e
    cases m' with
    | nil =>
      have := he k
      simp [AMap.get] at this
    | cons f m' =>
      obtain ⟨k', v'⟩ := f
      unfold Sorted at h h'
      rw [List.pairwise_cons] at h h'
      have hk : k = k' := by
        refine Classical.byContradiction fun hne => ?_
        rcases blt_total hne with hlt | hlt
        · have h1 := he k
          simp only [AMap.get, if_true, if_neg (fun e : k' = k => hne e.symm)] at h1
          rw [Sorted.get_none (fun e hm => blt_trans hlt (h'.1 e hm))] at h1
          cases h1
        · have h1 := he k'
          simp only [AMap.get, if_true, if_neg hne] at h1
          rw [Sorted.get_none (fun e hm => blt_trans hlt (h.1 e hm))] at h1
          cases h1
      subst hk
      have hv : v = v' := by
        have := he k
        simpa [AMap.get] using this
      subst hv
      rw [ih h.2 h'.2]
      intro x
      have hx := he x
      simp only [AMap.get] at hx
      by_cases hxk : k = x
      · subst hxk
        rw [Sorted.get_none h.1, Sorted.get_none h'.1]
      · simpa [hxk] using hx

theorem Sorted.uniq {m : BMap ν} (h : Sorted m) : AMap.Uniq m := by
  unfold AMap.Uniq AMap.keys
  rw [List.nodup_iff_pairwise_ne, List.pairwise_map]
  exact h.imp (fun h => blt_ne h)

/-- Inserting entries with different keys, in whatever order, gives their ordered map. -/
theorem foldl_insert {m es : BMap ν} (hm : Sorted m) (hp : es.Perm m) :
    es.foldl (fun a e => insert a e.1 e.2) [] = m := by
  have hu : AMap.Uniq es := by
    have := hm.uniq
    exact (hp.map Prod.fst).nodup_iff.mpr this
  have key : ∀ (l a : BMap ν), Sorted a → AMap.Uniq l →
      Sorted (l.foldl (fun a e => insert a e.1 e.2) a) ∧
      ∀ k, AMap.get (l.foldl (fun a e => insert a e.1 e.2) a) k =
        (AMap.get l k).or (AMap.get a k) := by
    intro l
    induction l with
    | nil => intro a ha _; exact ⟨ha, fun k => by simp [AMap.get]⟩
    | cons e l ih =>
      intro a ha hul
      unfold AMap.Uniq AMap.keys at hul
      rw [List.map_cons, List.nodup_cons] at hul
      obtain ⟨h1, h2⟩ := ih (insert a e.1 e.2) (ha.insert _ _) hul.2
      refine ⟨h1, fun k => ?_⟩
      rw [List.foldl_cons, h2, get_insert]
      simp only [AMap.get]
      by_cases hk : k = e.1
      · subst hk
        have hn : AMap.get l e.1 = none := by
          cases hg : AMap.get l e.1 with
          | none => rfl
          | some v => exact absurd (List.mem_map_of_mem (f := Prod.fst) (AMap.mem_of_get hg)) hul.1
        simp [hn]
      · rw [if_neg hk, if_neg (fun e => hk e.symm)]
  obtain ⟨h1, h2⟩ := key es [] List.Pairwise.nil hu
  refine h1.ext hm (fun k => ?_)
  rw [h2]
  simp only [AMap.get, Option.or_none]
  cases hg : AMap.get es k with
  | some v =>
    exact ((AMap.mem_iff_get hm.uniq k v).mp (hp.mem_iff.mp (AMap.mem_of_get hg))).symm
  | none =>
    cases hg2 : AMap.get m k with
    | none => rfl
    | some v =>
      have := (AMap.mem_iff_get hu k v).mp (hp.mem_iff.mpr (AMap.mem_of_get hg2))
      rw [hg] at this; cases this

end BMap

end Verif
