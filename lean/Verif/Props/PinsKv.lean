import Verif.Repo.KvPins
import Verif.Props.PinsFs

/-! # C32: what the key-value pin store keeps, and what it loses -/

namespace Verif.Props

open Verif Verif.Repo Verif.Spec

/-- One user operation; the stream of descendants is complete. -/
def kvStep (le : Cid → Cid → Bool) (refs : Cid → List Cid) (t : KvPins) :
    PinOp → Except PinErr Unit × KvPins
  | .insertDirect c => t.insertDirect c
  | .removeDirect c => t.removeDirect c
  | .insertRecursive c => t.insertRecursive le c ((refs c).map some)
  | .removeRecursive c => t.removeRecursive le c ((refs c).map some)

/-- The meaning of the operations, except that unpinning recursively leaves a direct pin. -/
def kvAfter (s : Pins) : PinOp → Pins
  | .removeRecursive c => { s with root := fun a => if a = c then false else s.root a }
  | op => s.after op

/-- **C32 fails**: unpinning one of two roots unpins a descendant of the other. -/
theorem C32_shared_descendant_lost :
    let p := track (kvStep exLe exRefs) [] Pins.none
      [.insertRecursive (pcid .v1 1), .insertRecursive (pcid .v1 2), .removeRecursive (pcid .v1 1)]
    p.2.root (pcid .v1 2) = true ∧ pcid .v1 9 ∈ exRefs (pcid .v1 2) ∧
      p.1.isPinned (pcid .v1 9) = false := by
  decide +kernel

/-- **C32 fails**: pinning a descendant directly and unpinning it again unpins it although its root
is still pinned recursively. -/
theorem C32_direct_loses_indirect :
    let p := track (kvStep exLe exRefs) [] Pins.none
      [.insertRecursive (pcid .v1 1), .insertDirect (pcid .v1 9), .removeDirect (pcid .v1 9)]
    p.2.root (pcid .v1 1) = true ∧ pcid .v1 9 ∈ exRefs (pcid .v1 1) ∧
      p.1.isPinned (pcid .v1 9) = false := by
  decide +kernel

/-- Unpinning a direct pin recursively reports success and leaves the direct pin. -/
theorem C32_recursive_removal_keeps_direct :
    let p := trackBy kvAfter (kvStep exLe exRefs) [] Pins.none
      [.insertDirect (pcid .v1 9), .removeRecursive (pcid .v1 9)]
    (kvStep exLe exRefs (kvStep exLe exRefs [] (.insertDirect (pcid .v1 9))).2
      (.removeRecursive (pcid .v1 9))).1 = .ok () ∧ p.1.isPinned (pcid .v1 9) = true := by
  decide +kernel

/-- The tree represents the direct and recursive pins exactly; indirect pins only of current
roots. -/
structure KvInv (refs : Cid → List Cid) (t : KvPins) (s : Pins) : Prop where
  uniq : AMap.Uniq t
  dir : ∀ c, (t.get (.direct, c)).isSome = s.direct c
  rct : ∀ c, (t.get (.recursive, c)).isSome = s.root c
  excl : ∀ c, s.direct c = true → s.root c = false
  ind : ∀ c v, t.get (.indirect, c) = some v → ∃ r, v = some r ∧ s.root r = true ∧ c ∈ refs r ∧
    s.direct c = false ∧ s.root c = false

theorem KvInv.nil (refs : Cid → List Cid) : KvInv refs [] Pins.none :=
  ⟨AMap.uniq_nil, by simp [AMap.get, Pins.none], by simp [AMap.get, Pins.none],
    by simp [Pins.none], by simp [AMap.get]⟩

theorem KvInv.mode {refs : Cid → List Cid} {t : KvPins} {s : Pins} (h : KvInv refs t s) (c : Cid) :
    t.getPinnedMode c = if s.direct c then some .direct else if s.root c then some .recursive
      else if (t.get (.indirect, c)).isSome then some .indirect else none := by
  unfold KvPins.getPinnedMode
  rw [h.dir, h.rct]

theorem getPinnedMode_indirect {t : KvPins} {c : Cid} (h : t.getPinnedMode c = some .indirect) :
    (t.get (.indirect, c)).isSome = true := by
  unfold KvPins.getPinnedMode at h
  split at h
  · cases h
  · split at h
    · cases h
    · split at h
      · assumption
      · cases h

theorem getPinnedMode_set_indirect (t : KvPins) (x c : Cid) (v : Option Cid) (hx : c ≠ x) :
    KvPins.getPinnedMode (t.set (.indirect, x) v) c = t.getPinnedMode c := by
  unfold KvPins.getPinnedMode
  rw [AMap.get_set_ne _ _ (by simp), AMap.get_set_ne _ _ (by simp),
    AMap.get_set_ne _ _ (by simp [hx])]

theorem getPinnedMode_erase_indirect (t : KvPins) (x c : Cid) (hx : c ≠ x) :
    KvPins.getPinnedMode (t.erase (.indirect, x)) c = t.getPinnedMode c := by
  unfold KvPins.getPinnedMode
  rw [AMap.get_erase_ne _ (by simp), AMap.get_erase_ne _ (by simp),
    AMap.get_erase_ne _ (by simp [hx])]

/-- The loop inserts an indirect pin for every listed cid that was not pinned at all. -/
theorem insertIndirects_get (target : Cid) (l : List Cid) (t : KvPins) :
    (AMap.Uniq t → AMap.Uniq (KvPins.insertIndirects target t l)) ∧
    (∀ m c, m ≠ .indirect → (KvPins.insertIndirects target t l).get (m, c) = t.get (m, c)) ∧
    (∀ c, (KvPins.insertIndirects target t l).get (.indirect, c) =
      if c ∈ l ∧ t.isPinned c = false then some (some target) else t.get (.indirect, c)) := by
  induction l generalizing t with
  | nil => simp [KvPins.insertIndirects]
  | cons x xs ih =>
    simp only [KvPins.insertIndirects]
    by_cases hp : t.isPinned x = true
    · simp only [hp, if_true]
      obtain ⟨h1, h2, h3⟩ := ih t
      refine ⟨h1, h2, fun c => ?_⟩
      rw [h3]
      by_cases hc : c = x
      · subst hc; simp [hp]
      · simp [hc]
    · simp only [hp]
      obtain ⟨h1, h2, h3⟩ := ih (t.set (.indirect, x) (some target))
      refine ⟨fun hu => h1 (hu.set _ _), fun m c hm => ?_, fun c => ?_⟩
      · rw [if_neg (by simp), h2 m c hm, AMap.get_set_ne _ _ (by simp [hm])]
      · rw [if_neg (by simp), h3]
        by_cases hc : c = x
        · subst hc
          have : KvPins.isPinned (t.set (.indirect, c) (some target)) c = true := by
            unfold KvPins.isPinned KvPins.getPinnedMode
            rw [AMap.get_set_eq]
            split
            · rfl
            · split <;> simp
          simp [this, hp, AMap.get_set_eq]
        · have : KvPins.isPinned (t.set (.indirect, x) (some target)) c = t.isPinned c := by
            unfold KvPins.isPinned
            rw [getPinnedMode_set_indirect _ _ _ _ hc]
          rw [this, AMap.get_set_ne _ _ (by simp [hc])]
          simp [hc]

/-- The loop removes the indirect pin of every listed cid whose mode is indirect. -/
theorem removeIndirects_get (l : List Cid) (t : KvPins) :
    (AMap.Uniq t → AMap.Uniq (KvPins.removeIndirects t l)) ∧
    (∀ m c, m ≠ .indirect → (KvPins.removeIndirects t l).get (m, c) = t.get (m, c)) ∧
    (∀ c, (KvPins.removeIndirects t l).get (.indirect, c) =
      if c ∈ l ∧ t.getPinnedMode c = some .indirect then none else t.get (.indirect, c)) := by
  induction l generalizing t with
  | nil => simp [KvPins.removeIndirects]
  | cons x xs ih =>
    by_cases hp : t.getPinnedMode x = some .indirect
    · simp only [KvPins.removeIndirects, hp]
      obtain ⟨h1, h2, h3⟩ := ih (t.erase (.indirect, x))
      refine ⟨fun hu => h1 (hu.erase _), fun m c hm => ?_, fun c => ?_⟩
      · rw [h2 m c hm, AMap.get_erase_ne _ (by simp [hm])]
      · rw [h3]
        by_cases hc : c = x
        · subst hc
          simp [hp, AMap.get_erase_eq]
        · rw [getPinnedMode_erase_indirect _ _ _ hc, AMap.get_erase_ne _ (by simp [hc])]
          simp [hc]
    · have e : KvPins.removeIndirects t (x :: xs) = KvPins.removeIndirects t xs := by
        simp only [KvPins.removeIndirects]
      rw [e]
      obtain ⟨h1, h2, h3⟩ := ih t
      refine ⟨h1, h2, fun c => ?_⟩
      rw [h3]
      by_cases hc : c = x
      · subst hc; simp [hp]
      · simp [hc]

/-- What is needed for completeness: every descendant of a root has an indirect pin. -/
def KvComplete (refs : Cid → List Cid) (t : KvPins) (s : Pins) : Prop :=
  ∀ c, s.Indirect refs c → (t.get (.indirect, c)).isSome = true

/-- The operations do not get in each other's way: recursive operations on different roots have no
descendant in common, and no operation is on a descendant of a root. -/
def Separate (refs : Cid → List Cid) (ops : List PinOp) : Prop :=
  (∀ a ∈ ops, ∀ b ∈ ops, ∀ x y, a.root? = some x → b.root? = some y → x ≠ y →
    ∀ c ∈ refs x, c ∉ refs y) ∧
  (∀ a ∈ ops, ∀ b ∈ ops, ∀ x, a.root? = some x → ∀ y ∈ refs x,
    b ≠ .insertDirect y ∧ b.root? ≠ some y)

theorem kv_step {le : Cid → Cid → Bool} {refs : Cid → List Cid} {t : KvPins} {s : Pins}
    (h : KvInv refs t s) (op : PinOp) :
    (∀ u t', kvStep le refs t op = (.ok u, t') → KvInv refs t' (kvAfter s op)) ∧
    (∀ e t', kvStep le refs t op = (.error e, t') → t' = t) := by
  cases op with
  | insertDirect c =>
    simp only [kvStep, KvPins.insertDirect, h.mode, kvAfter]
    cases hd : s.direct c with
    | true =>
      refine ⟨fun u t' e => ?_, fun e t' he => by simp at he⟩
      simp at e; subst e
      have : s.after (.insertDirect c) = s := by
        simp only [Pins.after]
        congr 1
        funext a
        split
        · rename_i ha; rw [ha, hd]
        · rfl
      rw [this]; exact h
    | false =>
      cases hr : s.root c with
      | true =>
        refine ⟨fun u t' e => by simp at e, fun e t' he => ?_⟩
        simp at he; exact he.2.symm
      | false =>
        have key : ∀ t0 : KvPins, AMap.Uniq t0 → (∀ m a, m ≠ .indirect → t0.get (m, a) = t.get (m, a)) →
            (∀ a, a ≠ c → t0.get (.indirect, a) = t.get (.indirect, a)) →
            t0.get (.indirect, c) = none →
            KvInv refs (t0.set (.direct, c) none) (s.after (.insertDirect c)) := by
          intro t0 hu h1 h2 h3
          refine ⟨hu.set _ _, fun a => ?_, fun a => ?_, fun a ha => ?_, fun a v hv => ?_⟩
          · by_cases hac : a = c
            · subst hac; simp [AMap.get_set_eq, Pins.after]
            · rw [AMap.get_set_ne _ _ (by simp [hac]), h1 _ _ (by simp), h.dir]
              simp [Pins.after, hac]
          · rw [AMap.get_set_ne _ _ (by simp), h1 _ _ (by simp), h.rct]; rfl
          · by_cases hac : a = c
            · subst hac; exact hr
            · simp only [Pins.after, if_neg hac] at ha; exact h.excl a ha
          · rw [AMap.get_set_ne _ _ (by simp)] at hv
            have hac : a ≠ c := by rintro rfl; simp [h3] at hv
            rw [h2 a hac] at hv
            obtain ⟨r, e1, e2, e3, e4, e5⟩ := h.ind a v hv
            exact ⟨r, e1, e2, e3, by simp [Pins.after, hac, e4], e5⟩
        cases hi : t.get (.indirect, c) with
        | none =>
          refine ⟨fun u t' e => ?_, fun e t' he => by simp at he⟩
          simp at e; subst e
          exact key t h.uniq (fun _ _ _ => rfl) (fun _ _ => rfl) hi
        | some v =>
          refine ⟨fun u t' e => ?_, fun e t' he => by simp at he⟩
          simp at e; subst e
          refine key _ (h.uniq.erase _) (fun m a hm => ?_) (fun a ha => ?_) (AMap.get_erase_eq _ _)
          · rw [AMap.get_erase_ne _ (by simp [hm])]
          · rw [AMap.get_erase_ne _ (by simp [ha])]
  | removeDirect c =>
    simp only [kvStep, KvPins.removeDirect, kvAfter]
    split
    · refine ⟨fun u t' e => by simp at e, fun e t' he => ?_⟩
      simp at he; exact he.2.symm
    · refine ⟨fun u t' e => ?_, fun e t' he => by simp at he⟩
      rename_i hn
      simp at e; subst e
      have hnp : s.direct c = true ∨ s.root c = true := by
        unfold KvPins.notPinnedOrIndirect at hn
        rw [h.mode] at hn
        cases hd : s.direct c with
        | true => simp
        | false =>
          cases hr : s.root c with
          | true => simp
          | false =>
            simp only [hd, hr, Bool.false_eq_true, if_false] at hn
            split at hn
            · exact absurd rfl hn
            · exact absurd rfl hn
            · rename_i h2 h3
              exfalso
              split at h2 <;> simp_all
      refine ⟨h.uniq.erase _, fun a => ?_, fun a => ?_, fun a ha => ?_, fun a v hv => ?_⟩
      · by_cases hac : a = c
        · subst hac; simp [AMap.get_erase_eq, Pins.after]
        · rw [AMap.get_erase_ne _ (by simp [hac]), h.dir]; simp [Pins.after, hac]
      · rw [AMap.get_erase_ne _ (by simp), h.rct]; rfl
      · have hac : a ≠ c := by rintro rfl; simp [Pins.after] at ha
        simp only [Pins.after, if_neg hac] at ha; exact h.excl a ha
      · rw [AMap.get_erase_ne _ (by simp)] at hv
        obtain ⟨r, e1, e2, e3, e4, e5⟩ := h.ind a v hv
        refine ⟨r, e1, e2, e3, ?_, e5⟩
        simp only [Pins.after]
        split
        · rfl
        · exact e4
  | insertRecursive c =>
    simp only [kvStep, KvPins.insertRecursive, collectRefs_ok, kvAfter, h.mode]
    cases hr : s.root c with
    | true =>
      have hd : s.direct c = false := by
        cases hd : s.direct c with
        | false => rfl
        | true => have := h.excl c hd; simp [hr] at this
      refine ⟨fun u t' e => ?_, fun e t' he => by simp [hd] at he⟩
      simp [hd] at e; subst e
      have : s.after (.insertRecursive c) = s := by
        simp only [Pins.after]
        obtain ⟨d, r⟩ := s
        simp only [Pins.mk.injEq]
        constructor <;> funext a <;> split
        · rename_i ha; subst ha; exact hd.symm
        · rfl
        · rename_i ha; subst ha; exact hr.symm
        · rfl
      rw [this]; exact h
    | false =>
      have key : ∀ t0 : KvPins, AMap.Uniq t0 →
          (∀ m a, a ≠ c → t0.get (m, a) = t.get (m, a)) →
          t0.get (.indirect, c) = none → t0.get (.direct, c) = none →
          KvInv refs (KvPins.insertIndirects c (t0.set (.recursive, c) none) (toSet le (refs c)))
            (s.after (.insertRecursive c)) := by
        intro t0 hu h1 h3 h4
        obtain ⟨i1, i2, i3⟩ := insertIndirects_get c (toSet le (refs c)) (t0.set (.recursive, c) none)
        refine ⟨i1 (hu.set _ _), fun a => ?_, fun a => ?_, fun a ha => ?_, fun a v hv => ?_⟩
        · rw [i2 _ _ (by simp), AMap.get_set_ne _ _ (by simp)]
          by_cases hac : a = c
          · subst hac; simp [h4, Pins.after]
          · rw [h1 _ _ hac, h.dir]; simp [Pins.after, hac]
        · rw [i2 _ _ (by simp)]
          by_cases hac : a = c
          · subst hac; simp [AMap.get_set_eq, Pins.after]
          · rw [AMap.get_set_ne _ _ (by simp [hac]), h1 _ _ hac, h.rct]; simp [Pins.after, hac]
        · have hac : a ≠ c := by rintro rfl; simp [Pins.after] at ha
          simp only [Pins.after, if_neg hac] at ha ⊢; exact h.excl a ha
        · rw [i3] at hv
          split at hv
          · rename_i hin
            simp at hv; subst hv
            obtain ⟨hm, hp⟩ := hin
            rw [mem_toSet] at hm
            have hac : a ≠ c := by
              rintro rfl
              unfold KvPins.isPinned KvPins.getPinnedMode at hp
              rw [AMap.get_set_eq] at hp
              split at hp <;> simp at hp
            have hm2 : KvPins.getPinnedMode (t0.set (.recursive, c) none) a = t.getPinnedMode a := by
              unfold KvPins.getPinnedMode
              rw [AMap.get_set_ne _ _ (by simp [hac]), AMap.get_set_ne _ _ (by simp [hac]),
                AMap.get_set_ne _ _ (by simp), h1 _ _ hac, h1 _ _ hac, h1 _ _ hac]
            unfold KvPins.isPinned at hp
            rw [hm2, h.mode] at hp
            refine ⟨c, rfl, by simp [Pins.after], hm, ?_, ?_⟩
            · simp only [Pins.after, if_neg hac]
              cases hx : s.direct a with
              | false => rfl
              | true => simp [hx] at hp
            · simp only [Pins.after, if_neg hac]
              cases hx : s.root a with
              | false => rfl
              | true => simp only [hx] at hp; split at hp <;> simp at hp
          · rw [AMap.get_set_ne _ _ (by simp)] at hv
            have hac : a ≠ c := by rintro rfl; simp [h3] at hv
            rw [h1 _ _ hac] at hv
            obtain ⟨r, e1, e2, e3, e4, e5⟩ := h.ind a v hv
            refine ⟨r, e1, ?_, e3, by simp [Pins.after, hac, e4], by simp [Pins.after, hac, e5]⟩
            simp only [Pins.after]; split
            · rfl
            · exact e2
      cases hd : s.direct c with
      | true =>
        refine ⟨fun u t' e => ?_, fun e t' he => by simp at he⟩
        simp at e; subst e
        refine key _ (h.uniq.erase _) (fun m a ha => ?_) ?_ (AMap.get_erase_eq _ _)
        · rw [AMap.get_erase_ne _ (by simp [ha])]
        · rw [AMap.get_erase_ne _ (by simp)]
          cases hi : t.get (.indirect, c) with
          | none => rfl
          | some v => obtain ⟨r, _, _, _, e4, _⟩ := h.ind c v hi; simp [hd] at e4
      | false =>
        have hdn : t.get (.direct, c) = none := by have := h.dir c; rw [hd] at this; simpa using this
        cases hi : t.get (.indirect, c) with
        | none =>
          refine ⟨fun u t' e => ?_, fun e t' he => by simp at he⟩
          simp at e; subst e
          exact key _ h.uniq (fun m a ha => rfl) hi hdn
        | some v =>
          refine ⟨fun u t' e => ?_, fun e t' he => by simp at he⟩
          simp at e; subst e
          refine key _ (h.uniq.erase _) (fun m a ha => ?_) (AMap.get_erase_eq _ _) ?_
          · rw [AMap.get_erase_ne _ (by simp [ha])]
          · rw [AMap.get_erase_ne _ (by simp)]; exact hdn
  | removeRecursive c =>
    simp only [kvStep, KvPins.removeRecursive, collectRefs_ok, kvAfter]
    split
    · refine ⟨fun u t' e => by simp at e, fun e t' he => ?_⟩
      simp at he; exact he.2.symm
    · refine ⟨fun u t' e => ?_, fun e t' he => by simp at he⟩
      simp at e; subst e
      obtain ⟨i1, i2, i3⟩ := removeIndirects_get (toSet le (refs c)) (t.erase (.recursive, c))
      refine ⟨i1 (h.uniq.erase _), fun a => ?_, fun a => ?_, fun a ha => ?_, fun a v hv => ?_⟩
      · rw [i2 _ _ (by simp), AMap.get_erase_ne _ (by simp), h.dir]
      · rw [i2 _ _ (by simp)]
        by_cases hac : a = c
        · subst hac; simp [AMap.get_erase_eq]
        · rw [AMap.get_erase_ne _ (by simp [hac]), h.rct]; simp [hac]
      · simp only []
        split
        · rfl
        · exact h.excl a ha
      · rw [i3] at hv
        split at hv
        · simp at hv
        · rename_i hn
          rw [AMap.get_erase_ne _ (by simp)] at hv
          obtain ⟨r, e1, e2, e3, e4, e5⟩ := h.ind a v hv
          have hrc : r ≠ c := by
            rintro rfl
            apply hn
            refine ⟨by rw [mem_toSet]; exact e3, ?_⟩
            unfold KvPins.getPinnedMode
            have hd := h.dir a
            have hrr := h.rct a
            rw [e4] at hd; rw [e5] at hrr
            have hac : (t.erase (.recursive, r)).get (.recursive, a) = none := by
              rw [AMap.get_erase]; split
              · rfl
              · simpa using hrr
            rw [hac, AMap.get_erase_ne _ (by simp), AMap.get_erase_ne _ (by simp)]
            simp only [Option.isSome_none, Bool.false_eq_true, if_false, hv, Option.isSome_some,
              if_true]
            simp only [Option.isSome_eq_false_iff, Option.isNone_iff_eq_none] at hd
            simp [hd]
          refine ⟨r, e1, by simp [hrc, e2], e3, e4, ?_⟩
          simp only []
          split
          · rfl
          · exact e5

/-- Direct pins and roots come from the operations. -/
def FromOps (all : List PinOp) (s : Pins) : Prop :=
  (∀ c, s.direct c = true → .insertDirect c ∈ all) ∧
  (∀ r, s.root r = true → ∃ o ∈ all, o.root? = some r)

/-- Under separation, completeness is kept too. -/
theorem kv_complete_step {le : Cid → Cid → Bool} {refs : Cid → List Cid} {all : List PinOp}
    (hsep : Separate refs all) {t : KvPins} {s : Pins} (h : KvInv refs t s) (hf : FromOps all s)
    (hc : KvComplete refs t s) (op : PinOp) (hop : op ∈ all) :
    ∀ u t', kvStep le refs t op = (.ok u, t') → KvComplete refs t' (kvAfter s op) := by
  obtain ⟨sep1, sep2⟩ := hsep
  intro u t' e
  -- no operation is on a descendant
  have key : ∀ a, s.Indirect refs a → op ≠ .insertDirect a ∧ op.root? ≠ some a := by
    rintro a ⟨r, hr1, hr2⟩
    obtain ⟨o, ho, hor⟩ := hf.2 r hr1
    exact sep2 o ho _ hop r hor a hr2
  cases op with
  | insertDirect c =>
    simp only [kvStep, KvPins.insertDirect] at e
    intro a ha
    have hac : a ≠ c := by rintro rfl; exact (key a ha).1 rfl
    have h0 := hc a ha
    split at e
    · cases e; exact h0
    · cases e
    · cases e
      rw [AMap.get_set_ne _ _ (by simp), AMap.get_erase_ne _ (by simp [hac])]; exact h0
    · cases e
      rw [AMap.get_set_ne _ _ (by simp)]; exact h0
  | removeDirect c =>
    simp only [kvStep, KvPins.removeDirect] at e
    split at e
    · cases e
    · cases e
      intro a ha
      rw [AMap.get_erase_ne _ (by simp)]
      exact hc a ha
  | insertRecursive c =>
    simp only [kvStep, KvPins.insertRecursive, collectRefs_ok] at e
    have main : ∀ t0 : KvPins, (∀ m a, a ≠ c → t0.get (m, a) = t.get (m, a)) →
        KvComplete refs (KvPins.insertIndirects c (t0.set (.recursive, c) none) (toSet le (refs c)))
          (s.after (.insertRecursive c)) := by
      intro t0 h1 a ha
      obtain ⟨i1, i2, i3⟩ := insertIndirects_get c (toSet le (refs c)) (t0.set (.recursive, c) none)
      rw [i3]; simp only [mem_toSet]
      split
      · rfl
      · rename_i hn
        obtain ⟨r, hr1, hr2⟩ := ha
        by_cases hrc : r = c
        · subst hrc
          have hsep := sep2 _ hop
          have hac : a ≠ r := by rintro rfl; exact (hsep _ hop a rfl a hr2).2 rfl
          have hp : KvPins.isPinned (t0.set (.recursive, r) none) a = true := by
            cases hp : KvPins.isPinned (t0.set (.recursive, r) none) a with
            | true => rfl
            | false => exact absurd ⟨hr2, hp⟩ hn
          have hm2 : KvPins.getPinnedMode (t0.set (.recursive, r) none) a = t.getPinnedMode a := by
            unfold KvPins.getPinnedMode
            rw [AMap.get_set_ne _ _ (by simp [hac]), AMap.get_set_ne _ _ (by simp [hac]),
              AMap.get_set_ne _ _ (by simp), h1 _ _ hac, h1 _ _ hac, h1 _ _ hac]
          unfold KvPins.isPinned at hp
          rw [hm2, h.mode] at hp
          have hd : s.direct a = false := by
            cases hx : s.direct a with
            | false => rfl
            | true => exact absurd rfl (hsep _ (hf.1 a hx) r rfl a hr2).1
          have hr : s.root a = false := by
            cases hx : s.root a with
            | false => rfl
            | true =>
              obtain ⟨o, ho, hor⟩ := hf.2 a hx
              exact absurd hor (hsep o ho r rfl a hr2).2
          rw [AMap.get_set_ne _ _ (by simp), h1 _ _ hac]
          simp only [hd, hr, Bool.false_eq_true, if_false] at hp
          split at hp
          · assumption
          · simp at hp
        · simp only [Pins.after, if_neg hrc] at hr1
          have hind : s.Indirect refs a := ⟨r, hr1, hr2⟩
          have hac : a ≠ c := by rintro rfl; exact (key a hind).2 rfl
          rw [AMap.get_set_ne _ _ (by simp), h1 _ _ hac]
          exact hc a hind
    split at e
    · rename_i hm
      cases e
      have hr : s.root c = true := by
        rw [h.mode] at hm
        cases hx : s.root c with
        | true => rfl
        | false =>
          simp only [hx] at hm
          split at hm
          · cases hm
          · simp only [Bool.false_eq_true, if_false] at hm
            split at hm <;> cases hm
      rintro a ⟨r, hr1, hr2⟩
      refine hc a ⟨r, ?_, hr2⟩
      simp only [kvAfter, Pins.after] at hr1
      split at hr1
      · rename_i hrc; rw [hrc]; exact hr
      · exact hr1
    · rename_i m _ _
      cases e
      exact main _ (fun m' a ha => by rw [AMap.get_erase_ne _ (by simp [ha])])
    · cases e
      exact main _ (fun _ _ _ => rfl)
  | removeRecursive c =>
    simp only [kvStep, KvPins.removeRecursive, collectRefs_ok] at e
    split at e
    · cases e
    · cases e
      obtain ⟨i1, i2, i3⟩ := removeIndirects_get (toSet le (refs c)) (t.erase (.recursive, c))
      rintro a ⟨r, hr1, hr2⟩
      have hrc : r ≠ c := by rintro rfl; simp [kvAfter] at hr1
      simp only [kvAfter, if_neg hrc] at hr1
      rw [i3]; simp only [mem_toSet]
      split
      · rename_i hin
        obtain ⟨o, ho, hor⟩ := hf.2 r hr1
        exact absurd hin.1 (sep1 o ho _ hop r c hor rfl hrc a hr2)
      · rw [AMap.get_erase_ne _ (by simp)]
        exact hc a ⟨r, hr1, hr2⟩

theorem kv_fromOps {all : List PinOp} {s : Pins} (h : FromOps all s) {op : PinOp} (hop : op ∈ all) :
    FromOps all (kvAfter s op) := by
  obtain ⟨h1, h2⟩ := h
  cases op with
  | insertDirect c =>
    refine ⟨fun a ha => ?_, h2⟩
    by_cases hac : a = c
    · subst hac; exact hop
    · simp only [kvAfter, Pins.after, if_neg hac] at ha; exact h1 a ha
  | removeDirect c =>
    refine ⟨fun a ha => ?_, h2⟩
    simp only [kvAfter, Pins.after] at ha
    split at ha
    · cases ha
    · exact h1 a ha
  | insertRecursive c =>
    refine ⟨fun a ha => ?_, fun a ha => ?_⟩
    · simp only [kvAfter, Pins.after] at ha
      split at ha
      · cases ha
      · exact h1 a ha
    · by_cases hac : a = c
      · subst hac; exact ⟨_, hop, rfl⟩
      · simp only [kvAfter, Pins.after, if_neg hac] at ha; exact h2 a ha
  | removeRecursive c =>
    refine ⟨h1, fun a ha => ?_⟩
    simp only [kvAfter] at ha
    split at ha
    · cases ha
    · exact h2 a ha

/-- The invariant after every history. -/
theorem kv_reachable (le : Cid → Cid → Bool) (refs : Cid → List Cid) (ops : List PinOp) :
    KvInv refs (trackBy kvAfter (kvStep le refs) [] Pins.none ops).1
      (trackBy kvAfter (kvStep le refs) [] Pins.none ops).2 := by
  refine track_inv (P := KvInv refs) (A := fun _ => True) ?_ (fun _ _ => trivial) (KvInv.nil refs)
  intro g s op _ h
  have hs := kv_step (le := le) h op
  exact ⟨hs.1, fun e g' he => by rw [hs.2 e g' he]; exact h⟩

theorem kv_pinned {refs : Cid → List Cid} {t : KvPins} {s : Pins} (h : KvInv refs t s) (c : Cid) :
    t.isPinned c = true ↔ s.direct c = true ∨ s.root c = true ∨
      (t.get (.indirect, c)).isSome = true := by
  unfold KvPins.isPinned
  rw [h.mode]
  cases s.direct c <;> cases s.root c <;> simp

/-- **C32** (what does hold, for every history): direct and recursive pins are tracked exactly, and
nothing is reported as pinned without reason. -/
theorem C32_kv_sound (le : Cid → Cid → Bool) (refs : Cid → List Cid) (ops : List PinOp) (c : Cid) :
    let p := trackBy kvAfter (kvStep le refs) [] Pins.none ops
    (p.2.direct c = true ∨ p.2.root c = true → p.1.isPinned c = true) ∧
    (p.1.isPinned c = true → p.2.Pinned refs c) := by
  have h := kv_reachable le refs ops
  intro p
  refine ⟨fun hd => ?_, fun hp => ?_⟩
  · rw [kv_pinned h]
    rcases hd with hd | hd
    · exact Or.inl hd
    · exact Or.inr (Or.inl hd)
  · rw [kv_pinned h] at hp
    rcases hp with hp | hp | hp
    · exact Or.inl hp
    · exact Or.inr (Or.inl hp)
    · cases hi : p.1.get (.indirect, c) with
      | none => simp [p, hi] at hp
      | some v =>
        obtain ⟨r, _, e2, e3, _⟩ := h.ind c v hi
        exact Or.inr (Or.inr ⟨r, e2, e3⟩)

/-- **C32** under an extra hypothesis: when roots share no descendants and no operation is on a
descendant, the pins are tracked exactly. The full statement is this one without `Separate`; it is
false, see `C32_shared_descendant_lost` and `C32_direct_loses_indirect`. -/
theorem C32_kv_tracks_partial (le : Cid → Cid → Bool) (refs : Cid → List Cid) (ops : List PinOp)
    (hsep : Separate refs ops) (c : Cid) :
    let p := trackBy kvAfter (kvStep le refs) [] Pins.none ops
    p.1.isPinned c = true ↔ p.2.Pinned refs c := by
  have h := track_inv (after := kvAfter) (step := kvStep le refs)
    (P := fun t s => KvInv refs t s ∧ FromOps ops s ∧ KvComplete refs t s)
    (A := fun op => op ∈ ops) (ops := ops) (g := []) (s := Pins.none) (by
      rintro g s op hop ⟨h1, h2, h3⟩
      have hs := kv_step (le := le) h1 op
      refine ⟨fun u t' e => ⟨hs.1 u t' e, kv_fromOps h2 hop,
        kv_complete_step hsep h1 h2 h3 op hop u t' e⟩, fun e g' he => ?_⟩
      rw [hs.2 e g' he]; exact ⟨h1, h2, h3⟩) (fun op h => h)
    ⟨KvInv.nil refs, ⟨by simp [Pins.none], by simp [Pins.none]⟩,
      fun c ⟨r, hr, _⟩ => by simp [Pins.none] at hr⟩
  intro p
  refine ⟨(C32_kv_sound le refs ops c).2, fun hp => ?_⟩
  rw [kv_pinned h.1]
  rcases hp with hp | hp | hp
  · exact Or.inl hp
  · exact Or.inr (Or.inl hp)
  · exact Or.inr (Or.inr (h.2.2 c hp))

-- the hypothesis is met by histories that pin and unpin several roots
example : Separate exRefs [.insertRecursive (pcid .v1 1), .insertDirect (pcid .v1 4),
    .insertRecursive (pcid .v1 3), .removeRecursive (pcid .v1 1)] := by
  constructor
  · intro a ha b hb x y hx hy hxy c hc
    simp only [List.mem_cons, List.not_mem_nil, or_false] at ha hb
    have h3 : exRefs (pcid .v1 3) = [] := by decide +kernel
    rcases ha with h | h | h | h <;> subst h <;> simp [PinOp.root?] at hx <;> subst hx <;>
      rcases hb with h | h | h | h <;> subst h <;> simp [PinOp.root?] at hy <;> subst hy <;>
      simp_all
  · intro a ha b hb x hx y hy
    have h1 : exRefs (pcid .v1 1) = [pcid .v1 9, pcid .v1 8] := by decide +kernel
    have h3 : exRefs (pcid .v1 3) = [] := by decide +kernel
    simp only [List.mem_cons, List.not_mem_nil, or_false] at ha hb
    have : y = pcid .v1 9 ∨ y = pcid .v1 8 := by
      rcases ha with h | h | h | h <;> subst h <;> simp [PinOp.root?] at hx <;> subst hx <;>
        simp_all
    rcases this with h | h <;> subst h <;>
      rcases hb with h | h | h | h <;> subst h <;> decide +kernel

end Verif.Props
