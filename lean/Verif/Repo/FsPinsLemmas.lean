import Verif.Repo.FsPins
import Verif.Repo.MemPinsLemmas
import Verif.Spec.Pins

/-! # The files of the filesystem pin store say what is pinned -/

namespace Verif.Repo

open Verif Verif.Spec

/-- The files represent the specification state. A direct pin file may be left over beside a
recursive one, temporary files may lie around. -/
structure FsInv (refs : Cid → List Cid) (g : FsPins) (s : Pins) : Prop where
  uniq : AMap.Uniq g
  rootFile : ∀ c, s.root c = true → ∃ l, g.get (c, .recursive) = some (.json l) ∧
    ∀ x, x ∈ l ↔ x ∈ refs c
  noRootFile : ∀ c, s.root c = false → g.get (c, .recursive) = none
  directFile : ∀ c, s.direct c = true → g.isFile c .direct = true
  excl : ∀ c, s.direct c = true → s.root c = false
  leftOver : ∀ c, g.isFile c .direct = true → s.direct c = true ∨ s.root c = true

theorem FsInv.nil (refs : Cid → List Cid) : FsInv refs [] Pins.none :=
  ⟨AMap.uniq_nil, by simp [Pins.none], by simp [AMap.get], by simp [Pins.none], by simp [Pins.none],
    by simp [FsPins.isFile, AMap.get]⟩

theorem FsInv.isRoot {refs : Cid → List Cid} {g : FsPins} {s : Pins} (h : FsInv refs g s) (c : Cid) :
    g.isFile c .recursive = s.root c := by
  unfold FsPins.isFile
  cases hr : s.root c with
  | true => obtain ⟨l, e, _⟩ := h.rootFile c hr; simp [e]
  | false => simp [h.noRootFile c hr]

theorem FsInv.isDirect {refs : Cid → List Cid} {g : FsPins} {s : Pins} (h : FsInv refs g s) {c : Cid}
    (hr : s.root c = false) : g.isFile c .direct = s.direct c := by
  cases hd : s.direct c with
  | true => exact h.directFile c hd
  | false =>
    cases hf : g.isFile c .direct with
    | false => rfl
    | true => rcases h.leftOver c hf with h1 | h1 <;> simp_all

theorem FsInv.mode {refs : Cid → List Cid} {g : FsPins} {s : Pins} (h : FsInv refs g s) (c : Cid) :
    g.readDirectOrRecursive c =
      if s.root c then some .recursive else if s.direct c then some .direct else none := by
  unfold FsPins.readDirectOrRecursive
  rw [h.isRoot]
  cases hr : s.root c with
  | true => simp
  | false => simp [h.isDirect hr]

theorem isFile_iff_mem {g : FsPins} (c : Cid) (e : PinExt) :
    g.isFile c e = true ↔ ∃ f, ((c, e), f) ∈ g := by
  unfold FsPins.isFile
  constructor
  · intro h
    cases hg : g.get (c, e) with
    | none => simp [hg] at h
    | some f => exact ⟨f, AMap.mem_of_get hg⟩
  · rintro ⟨f, hf⟩
    rw [← AMap.mem_keys_iff]
    exact List.mem_map.mpr ⟨_, hf, rfl⟩

theorem mem_listPinfiles (g : FsPins) (c : Cid) (m : PinMode) :
    (c, m) ∈ g.listPinfiles ↔ (m = .recursive ∧ g.isFile c .recursive = true) ∨
      (m = .direct ∧ g.isFile c .direct = true) := by
  rw [isFile_iff_mem, isFile_iff_mem]
  unfold FsPins.listPinfiles
  simp only [List.mem_filterMap]
  constructor
  · rintro ⟨⟨⟨c', e⟩, f⟩, hm, he⟩
    cases e <;> simp at he
    · obtain ⟨rfl, rfl⟩ := he; exact Or.inr ⟨rfl, f, hm⟩
    · obtain ⟨rfl, rfl⟩ := he; exact Or.inl ⟨rfl, f, hm⟩
  · rintro (⟨rfl, f, hm⟩ | ⟨rfl, f, hm⟩)
    · exact ⟨_, hm, rfl⟩
    · exact ⟨_, hm, rfl⟩

theorem mem_listRecursive (g : FsPins) (c : Cid) :
    c ∈ g.listRecursive ↔ g.isFile c .recursive = true := by
  unfold FsPins.listRecursive
  simp only [List.mem_filterMap]
  constructor
  · rintro ⟨⟨c', m⟩, hm, he⟩
    simp only at he
    split at he
    · rename_i h2
      simp at he; subst he
      rw [mem_listPinfiles] at hm
      rcases hm with ⟨_, h1⟩ | ⟨h1, _⟩
      · exact h1
      · simp [h2] at h1
    · simp at he
  · intro h
    exact ⟨(c, .recursive), (mem_listPinfiles g c _).mpr (Or.inl ⟨rfl, h⟩), by simp⟩

theorem FsInv.read {refs : Cid → List Cid} {g : FsPins} {s : Pins} (h : FsInv refs g s) (r : Cid)
    (hr : s.root r = true) :
    ∃ l, g.readRecursivelyPinned r = .ok l ∧ ∀ x, x ∈ l ↔ x ∈ refs r := by
  obtain ⟨l, e, hl⟩ := h.rootFile r hr
  exact ⟨l, by simp [FsPins.readRecursivelyPinned, e], hl⟩

theorem FsInv.anyRefers {refs : Cid → List Cid} {g : FsPins} {s : Pins} (h : FsInv refs g s) (c : Cid)
    (rs : List Cid) (hrs : ∀ r ∈ rs, s.root r = true) :
    ∃ b, FsPins.anyRefers g c rs = .ok b ∧ (b = true ↔ ∃ r ∈ rs, c ∈ refs r) := by
  induction rs with
  | nil => exact ⟨false, rfl, by simp⟩
  | cons r rs ih =>
    obtain ⟨l, e, hl⟩ := h.read r (hrs r (by simp))
    obtain ⟨b, e2, hb⟩ := ih (fun a ha => hrs a (by simp [ha]))
    simp only [FsPins.anyRefers, e]
    by_cases hc : c ∈ l
    · refine ⟨true, by simp [hc], ?_⟩
      simp only [true_iff]
      exact ⟨r, by simp, (hl c).mp hc⟩
    · refine ⟨b, by simp [hc, e2], ?_⟩
      rw [hb]
      constructor
      · rintro ⟨a, ha, h2⟩; exact ⟨a, by simp [ha], h2⟩
      · rintro ⟨a, ha, h2⟩
        rcases List.mem_cons.mp ha with rfl | ha
        · exact absurd ((hl c).mpr h2) hc
        · exact ⟨a, ha, h2⟩

theorem FsInv.isPinned {refs : Cid → List Cid} {g : FsPins} {s : Pins} (h : FsInv refs g s) (c : Cid) :
    ∃ b, g.isPinned c = .ok b ∧ (b = true ↔ s.Pinned refs c) := by
  unfold FsPins.isPinned
  rw [h.mode]
  cases hr : s.root c with
  | true => exact ⟨true, rfl, by simp [Pins.Pinned, hr]⟩
  | false =>
    cases hd : s.direct c with
    | true => exact ⟨true, rfl, by simp [Pins.Pinned, hd]⟩
    | false =>
      obtain ⟨b, e, hb⟩ := h.anyRefers c g.listRecursive (fun r hr => by
        rw [mem_listRecursive, h.isRoot] at hr; exact hr)
      refine ⟨b, by simp [e], ?_⟩
      rw [hb]
      simp only [Pins.Pinned, hd, hr, Pins.Indirect]
      constructor
      · rintro ⟨r, h1, h2⟩
        rw [mem_listRecursive, h.isRoot] at h1
        exact Or.inr (Or.inr ⟨r, h1, h2⟩)
      · rintro (h1 | h1 | ⟨r, h1, h2⟩)
        · simp at h1
        · simp at h1
        · exact ⟨r, by rw [mem_listRecursive, h.isRoot]; exact h1, h2⟩

/-! ## Disk steps -/

theorem isFile_set (g : FsPins) (k : Cid × PinExt) (f : PinFile) (c : Cid) (e : PinExt) :
    FsPins.isFile (g.set k f) c e = (decide ((c, e) = k) || g.isFile c e) := by
  unfold FsPins.isFile
  rw [AMap.get_set]
  by_cases h : (c, e) = k <;> simp [h]

theorem isFile_erase (g : FsPins) (k : Cid × PinExt) (c : Cid) (e : PinExt) :
    FsPins.isFile (g.erase k) c e = (!decide ((c, e) = k) && g.isFile c e) := by
  unfold FsPins.isFile
  rw [AMap.get_erase]
  by_cases h : (c, e) = k <;> simp [h]

/-- Writing a temporary file changes nothing. -/
theorem FsInv.temp {refs : Cid → List Cid} {g : FsPins} {s : Pins} (h : FsInv refs g s) (c : Cid)
    (f : PinFile) : FsInv refs (g.set (c, .recursiveTemp) f) s := by
  refine ⟨h.uniq.set _ _, fun a ha => ?_, fun a ha => ?_, fun a ha => ?_, h.excl, fun a ha => ?_⟩
  · rw [AMap.get_set_ne _ _ (by simp)]; exact h.rootFile a ha
  · rw [AMap.get_set_ne _ _ (by simp)]; exact h.noRootFile a ha
  · rw [isFile_set]; simp [h.directFile a ha]
  · rw [isFile_set] at ha; exact h.leftOver a (by simpa using ha)

/-- Renaming the temporary file pins recursively (a direct pin file may be left over). -/
theorem FsInv.rename {refs : Cid → List Cid} {g : FsPins} {s : Pins} (h : FsInv refs g s) (c : Cid)
    (l : List Cid) (ht : g.get (c, .recursiveTemp) = some (.json l)) (hl : ∀ x, x ∈ l ↔ x ∈ refs c) :
    FsInv refs (DiskStep.run g (.rename c .recursiveTemp .recursive)) (s.after (.insertRecursive c)) := by
  have hrun : DiskStep.run g (.rename c .recursiveTemp .recursive) =
      AMap.set (g.erase (c, .recursiveTemp)) (c, .recursive) (.json l) := by
    simp [DiskStep.run, ht]
  rw [hrun]
  refine ⟨(h.uniq.erase _).set _ _, fun a ha => ?_, fun a ha => ?_, fun a ha => ?_,
    fun a ha => ?_, fun a ha => ?_⟩
  · by_cases hac : a = c
    · subst hac; exact ⟨l, AMap.get_set_eq _ _ _, hl⟩
    · rw [AMap.get_set_ne _ _ (by simp [hac]), AMap.get_erase_ne _ (by simp)]
      simp only [Pins.after, if_neg hac] at ha
      exact h.rootFile a ha
  · have hac : a ≠ c := by rintro rfl; simp [Pins.after] at ha
    rw [AMap.get_set_ne _ _ (by simp [hac]), AMap.get_erase_ne _ (by simp)]
    simp only [Pins.after, if_neg hac] at ha
    exact h.noRootFile a ha
  · have hac : a ≠ c := by rintro rfl; simp [Pins.after] at ha
    simp only [Pins.after, if_neg hac] at ha
    rw [isFile_set, isFile_erase]
    simp [h.directFile a ha]
  · have hac : a ≠ c := by rintro rfl; simp [Pins.after] at ha
    simp only [Pins.after, if_neg hac] at ha ⊢
    exact h.excl a ha
  · rw [isFile_set, isFile_erase] at ha
    simp only [Prod.mk.injEq, reduceCtorEq, and_false, decide_false, Bool.not_false, Bool.true_and,
      Bool.false_or] at ha
    by_cases hac : a = c
    · subst hac; exact Or.inr (by simp [Pins.after])
    · simp only [Pins.after, if_neg hac]
      exact h.leftOver a ha

/-- Removing the direct pin file of a recursive pin changes nothing. -/
theorem FsInv.dropLeftOver {refs : Cid → List Cid} {g : FsPins} {s : Pins} (h : FsInv refs g s)
    (c : Cid) (hr : s.root c = true) : FsInv refs (g.erase (c, .direct)) s := by
  refine ⟨h.uniq.erase _, fun a ha => ?_, fun a ha => ?_, fun a ha => ?_, h.excl, fun a ha => ?_⟩
  · rw [AMap.get_erase_ne _ (by simp)]; exact h.rootFile a ha
  · rw [AMap.get_erase_ne _ (by simp)]; exact h.noRootFile a ha
  · rw [isFile_erase]
    have hac : a ≠ c := by rintro rfl; have := h.excl a ha; simp [hr] at this
    simp [hac, h.directFile a ha]
  · rw [isFile_erase] at ha
    simp only [Bool.and_eq_true] at ha
    exact h.leftOver a ha.2

/-- Creating the direct pin file. -/
theorem FsInv.createDirect {refs : Cid → List Cid} {g : FsPins} {s : Pins} (h : FsInv refs g s)
    (c : Cid) (f : PinFile) (hr : s.root c = false) :
    FsInv refs (g.set (c, .direct) f) (s.after (.insertDirect c)) := by
  refine ⟨h.uniq.set _ _, fun a ha => ?_, fun a ha => ?_, fun a ha => ?_, fun a ha => ?_,
    fun a ha => ?_⟩
  · rw [AMap.get_set_ne _ _ (by simp)]; exact h.rootFile a ha
  · rw [AMap.get_set_ne _ _ (by simp)]; exact h.noRootFile a ha
  · rw [isFile_set]
    by_cases hac : a = c
    · subst hac; simp
    · simp only [Pins.after, if_neg hac] at ha
      simp [h.directFile a ha]
  · by_cases hac : a = c
    · subst hac; exact hr
    · simp only [Pins.after, if_neg hac] at ha
      exact h.excl a ha
  · by_cases hac : a = c
    · subst hac; simp [Pins.after]
    · rw [isFile_set] at ha
      simp only [Pins.after, if_neg hac]
      exact h.leftOver a (by simpa [hac] using ha)

/-- Removing the direct pin file of a cid that is not a root. -/
theorem FsInv.removeDirect {refs : Cid → List Cid} {g : FsPins} {s : Pins} (h : FsInv refs g s)
    (c : Cid) (hr : s.root c = false) : FsInv refs (g.erase (c, .direct)) (s.after (.removeDirect c)) := by
  refine ⟨h.uniq.erase _, fun a ha => ?_, fun a ha => ?_, fun a ha => ?_, fun a ha => ?_,
    fun a ha => ?_⟩
  · rw [AMap.get_erase_ne _ (by simp)]; exact h.rootFile a ha
  · rw [AMap.get_erase_ne _ (by simp)]; exact h.noRootFile a ha
  · have hac : a ≠ c := by rintro rfl; simp [Pins.after] at ha
    simp only [Pins.after, if_neg hac] at ha
    rw [isFile_erase]
    simp [hac, h.directFile a ha]
  · have hac : a ≠ c := by rintro rfl; simp [Pins.after] at ha
    simp only [Pins.after, if_neg hac] at ha
    exact h.excl a ha
  · rw [isFile_erase] at ha
    simp only [Bool.and_eq_true, Bool.not_eq_true', decide_eq_false_iff_not, Prod.mk.injEq,
      and_true] at ha
    simp only [Pins.after, if_neg ha.1]
    exact h.leftOver a ha.2

/-- Removing the recursive pin file when there is no direct one. -/
theorem FsInv.removeRoot {refs : Cid → List Cid} {g : FsPins} {s : Pins} (h : FsInv refs g s)
    (c : Cid) (hd : g.isFile c .direct = false) :
    FsInv refs (g.erase (c, .recursive)) (s.after (.removeRecursive c)) := by
  have hsd : s.direct c = false := by
    cases hx : s.direct c with
    | false => rfl
    | true => have := h.directFile c hx; simp [hd] at this
  refine ⟨h.uniq.erase _, fun a ha => ?_, fun a ha => ?_, fun a ha => ?_, fun a ha => ?_,
    fun a ha => ?_⟩
  · have hac : a ≠ c := by rintro rfl; simp [Pins.after] at ha
    simp only [Pins.after, if_neg hac] at ha
    rw [AMap.get_erase_ne _ (by simp [hac])]; exact h.rootFile a ha
  · by_cases hac : a = c
    · subst hac; exact AMap.get_erase_eq _ _
    · simp only [Pins.after, if_neg hac] at ha
      rw [AMap.get_erase_ne _ (by simp [hac])]; exact h.noRootFile a ha
  · have hac : a ≠ c := by rintro rfl; simp [Pins.after] at ha
    simp only [Pins.after, if_neg hac] at ha
    rw [isFile_erase]
    simp [h.directFile a ha]
  · have hac : a ≠ c := by rintro rfl; simp [Pins.after] at ha
    simp only [Pins.after, if_neg hac] at ha ⊢
    exact h.excl a ha
  · rw [isFile_erase] at ha
    simp only [Prod.mk.injEq, reduceCtorEq, and_false, decide_false, Bool.not_false,
      Bool.true_and] at ha
    have hac : a ≠ c := by rintro rfl; simp [hd] at ha
    simp only [Pins.after, if_neg hac]
    exact h.leftOver a ha

theorem mapM_id_map_some (l : List Cid) : (l.map some).mapM id = some l := by
  induction l with
  | nil => rfl
  | cons x xs ih => simp [List.mapM_cons, ih]

theorem collectRefs_ok (le : Cid → Cid → Bool) (l : List Cid) :
    collectRefs le (l.map some) = .ok (toSet le l) := by
  unfold collectRefs; rw [mapM_id_map_some]

end Verif.Repo
