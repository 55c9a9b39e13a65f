import Verif.Repo.MemPins

/-! # The documents of the in-memory pin store hold a direct set, a recursive map and an indirect
relation -/

namespace Verif.Repo

open Verif

theorem mem_insertSorted (le : Cid → Cid → Bool) (x y : Cid) (l : List Cid) :
    y ∈ insertSorted le x l ↔ y = x ∨ y ∈ l := by
  induction l with
  | nil => simp [insertSorted]
  | cons z zs ih =>
    simp only [insertSorted]
    split
    · rename_i h; subst h; simp only [List.mem_cons]; constructor
      · intro h; right; exact h
      · rintro (h | h)
        · left; exact h
        · exact h
    · split
      · simp
      · simp only [List.mem_cons, ih]
        constructor
        · rintro (h | h | h) <;> simp [h]
        · rintro (h | h | h) <;> simp [h]

theorem mem_toSet (le : Cid → Cid → Bool) (y : Cid) (l : List Cid) : y ∈ toSet le l ↔ y ∈ l := by
  have : ∀ (l acc : List Cid), y ∈ l.foldl (fun s x => insertSorted le x s) acc ↔ y ∈ acc ∨ y ∈ l := by
    intro l
    induction l with
    | nil => intro acc; simp
    | cons x xs ih =>
      intro acc
      simp only [List.foldl_cons, ih, mem_insertSorted, List.mem_cons]
      constructor
      · rintro ((h | h) | h) <;> simp [h]
      · rintro (h | h | h) <;> simp [h]
  simp [toSet, this]

/-- What the store knows: which cids are pinned directly, the recursive state of each, and through
which roots each is pinned indirectly. -/
structure View where
  D : Cid → Bool
  R : Cid → Recursive
  I : Cid → Cid → Prop

/-- The document `o` of a cid says what the view says about it. -/
def DocRel (o : Option PinDocument) (d : Bool) (r : Recursive) (i : Cid → Prop) : Prop :=
  match o with
  | none => d = false ∧ r = .not ∧ ∀ x, ¬ i x
  | some doc => doc.direct = d ∧ doc.recursive = r ∧ (∀ x, x ∈ doc.indirectBy ↔ i x) ∧
      doc.canRemove = false

/-- The store represents the view. -/
structure Rel (g : MemPins) (v : View) : Prop where
  uniq : AMap.Uniq g
  doc : ∀ c, DocRel (g.get c) (v.D c) (v.R c) (v.I c)

theorem Rel.nil : Rel [] ⟨fun _ => false, fun _ => .not, fun _ _ => False⟩ :=
  ⟨AMap.uniq_nil, fun c => by simp [DocRel, AMap.get]⟩

theorem Rel.isPinned {g : MemPins} {v : View} (h : Rel g v) (c : Cid) :
    g.isPinned c = true ↔ v.D c = true ∨ (v.R c).isSet = true ∨ ∃ x, v.I c x := by
  have hd := h.doc c
  unfold MemPins.isPinned
  cases hg : g.get c with
  | none =>
    rw [hg] at hd
    obtain ⟨h1, h2, h3⟩ := hd
    simp [h1, h2, Recursive.isSet, h3]
  | some doc =>
    rw [hg] at hd
    obtain ⟨h1, h2, h3, h4⟩ := hd
    simp only [Option.isSome_some, true_iff]
    simp only [PinDocument.canRemove, h1, h2] at h4
    cases hD : v.D c with
    | true => simp
    | false =>
      cases hR : (v.R c).isSet with
      | true => simp
      | false =>
        simp only [hD, hR, Bool.not_false, Bool.true_and] at h4
        right; right
        cases hl : doc.indirectBy with
        | nil => simp [hl] at h4
        | cons x xs => exact ⟨x, (h3 x).mp (by simp [hl])⟩

/-- Changing the document of one cid. -/
theorem Rel.change {g : MemPins} {v v' : View} (h : Rel g v) (c : Cid) (doc : PinDocument)
    (hc : DocRel (some doc) (v'.D c) (v'.R c) (v'.I c))
    (ho : ∀ a, a ≠ c → v'.D a = v.D a ∧ v'.R a = v.R a ∧ ∀ x, v'.I a x ↔ v.I a x) :
    Rel (g.set c doc) v' := by
  refine ⟨h.uniq.set c doc, fun a => ?_⟩
  rw [AMap.get_set]
  by_cases ha : a = c
  · subst ha; simpa using hc
  · simp only [if_neg ha]
    obtain ⟨h1, h2, h3⟩ := ho a ha
    have := h.doc a
    rw [h1, h2, show v'.I a = v.I a from funext fun x => propext (h3 x)]
    exact this

theorem Rel.drop {g : MemPins} {v v' : View} (h : Rel g v) (c : Cid)
    (hc : DocRel none (v'.D c) (v'.R c) (v'.I c))
    (ho : ∀ a, a ≠ c → v'.D a = v.D a ∧ v'.R a = v.R a ∧ ∀ x, v'.I a x ↔ v.I a x) :
    Rel (g.erase c) v' := by
  refine ⟨h.uniq.erase c, fun a => ?_⟩
  rw [AMap.get_erase]
  by_cases ha : a = c
  · subst ha; simpa using hc
  · simp only [if_neg ha]
    obtain ⟨h1, h2, h3⟩ := ho a ha
    have := h.doc a
    rw [h1, h2, show v'.I a = v.I a from funext fun x => propext (h3 x)]
    exact this

theorem Rel.same {g : MemPins} {v v' : View} (h : Rel g v)
    (hd : ∀ a, v'.D a = v.D a) (hr : ∀ a, v'.R a = v.R a) (hi : ∀ a x, v'.I a x ↔ v.I a x) :
    Rel g v' := by
  refine ⟨h.uniq, fun a => ?_⟩
  have := h.doc a
  rw [hd, hr, show v'.I a = v.I a from funext fun x => propext (hi a x)]
  exact this

/-! ## Views after an update -/

/-- The view with the direct pin of `c` set to `b`. -/
def View.setD (v : View) (c : Cid) (b : Bool) : View :=
  { v with D := fun a => if a = c then b else v.D a }

/-- The view with the recursive state of `c` set to `r`. -/
def View.setR (v : View) (c : Cid) (r : Recursive) : View :=
  { v with R := fun a => if a = c then r else v.R a }

/-- The view with `c` pinned indirectly by `x` too. -/
def View.addI (v : View) (c x : Cid) : View :=
  { v with I := fun a y => v.I a y ∨ (a = c ∧ y = x) }

/-- The view with `c` no longer pinned indirectly by `x`. -/
def View.delI (v : View) (c x : Cid) : View :=
  { v with I := fun a y => v.I a y ∧ ¬ (a = c ∧ y = x) }

/-- The document to be updated: the stored one or a fresh one. -/
theorem insertPin_eq (le : Cid → Cid → Bool) (g : MemPins) (c : Cid) (kind : PinKind) :
    g.insertPin le c kind =
      match g.get c, PinDocument.update le ((g.get c).getD {}) true kind with
      | some _, .error e => .error e
      | none, .error _ => .error .panic
      | some _, .ok (true, doc) => .ok (true, g.set c doc)
      | some _, .ok (false, _) => .ok (false, g)
      | none, .ok (_, doc) => .ok (true, g.set c doc) := by
  unfold MemPins.insertPin
  cases g.get c with
  | none =>
    simp only [Option.getD_none]
    cases PinDocument.update le {} true kind with
    | error e => rfl
    | ok p => rfl
  | some doc =>
    simp only [Option.getD_some]
    cases PinDocument.update le doc true kind with
    | error e => rfl
    | ok p => obtain ⟨b, d⟩ := p; cases b <;> rfl

/-- If updating yields a document that fits the new view (the same document when nothing was
modified), inserting succeeds. -/
theorem Rel.insertPin {g : MemPins} {v v' : View} (h : Rel g v) (le : Cid → Cid → Bool) (c : Cid)
    (kind : PinKind)
    (hu : ∀ d0 : PinDocument, d0.direct = v.D c → d0.recursive = v.R c →
      (∀ x, x ∈ d0.indirectBy ↔ v.I c x) → ∃ b d, d0.update le true kind = .ok (b, d) ∧
        d.direct = v'.D c ∧ d.recursive = v'.R c ∧ (∀ x, x ∈ d.indirectBy ↔ v'.I c x) ∧
        d.canRemove = false ∧
        (b = false → (∀ x, v'.I c x ↔ v.I c x) ∧ v'.D c = v.D c ∧ v'.R c = v.R c))
    (ho : ∀ a, a ≠ c → v'.D a = v.D a ∧ v'.R a = v.R a ∧ ∀ x, v'.I a x ↔ v.I a x) :
    ∃ b g', g.insertPin le c kind = .ok (b, g') ∧ Rel g' v' := by
  have hd := h.doc c
  rw [insertPin_eq]
  cases hg : g.get c with
  | none =>
    rw [hg] at hd
    obtain ⟨h1, h2, h3⟩ := hd
    obtain ⟨b, d, e, e1, e2, e3, e4, _⟩ := hu {} (by simp [h1]) (by simp [h2]) (by simp [h3])
    simp only [Option.getD_none, e]
    exact ⟨true, g.set c d, rfl, h.change c d ⟨e1, e2, e3, e4⟩ ho⟩
  | some doc =>
    rw [hg] at hd
    obtain ⟨h1, h2, h3, h4⟩ := hd
    obtain ⟨b, d, e, e1, e2, e3, e4, e5⟩ := hu doc h1 h2 h3
    simp only [Option.getD_some, e]
    cases b with
    | true => exact ⟨true, g.set c d, rfl, h.change c d ⟨e1, e2, e3, e4⟩ ho⟩
    | false =>
      obtain ⟨i1, i2, i3⟩ := e5 rfl
      refine ⟨false, g, rfl, h.same (fun a => ?_) (fun a => ?_) (fun a x => ?_)⟩
      · by_cases ha : a = c
        · subst ha; exact i2
        · exact (ho a ha).1
      · by_cases ha : a = c
        · subst ha; exact i3
        · exact (ho a ha).2.1
      · by_cases ha : a = c
        · subst ha; exact i1 x
        · exact (ho a ha).2.2 x

/-- If updating the stored document modifies it to one that fits the new view, removing succeeds. -/
theorem Rel.removePin {g : MemPins} {v v' : View} (h : Rel g v) (le : Cid → Cid → Bool) (c : Cid)
    (kind : PinKind) (hp : g.isPinned c = true)
    (hu : ∀ d0 : PinDocument, d0.direct = v.D c → d0.recursive = v.R c →
      (∀ x, x ∈ d0.indirectBy ↔ v.I c x) → ∃ d, d0.update le false kind = .ok (true, d) ∧
        d.direct = v'.D c ∧ d.recursive = v'.R c ∧ (∀ x, x ∈ d.indirectBy ↔ v'.I c x))
    (ho : ∀ a, a ≠ c → v'.D a = v.D a ∧ v'.R a = v.R a ∧ ∀ x, v'.I a x ↔ v.I a x) :
    ∃ g', g.removePin le c kind = .ok (true, g') ∧ Rel g' v' := by
  have hd := h.doc c
  unfold MemPins.removePin
  unfold MemPins.isPinned at hp
  cases hg : g.get c with
  | none => simp [hg] at hp
  | some doc =>
    rw [hg] at hd
    obtain ⟨h1, h2, h3, h4⟩ := hd
    obtain ⟨d, e, e1, e2, e3⟩ := hu doc h1 h2 h3
    simp only [e]
    cases hr : d.canRemove with
    | true =>
      refine ⟨g.erase c, by simp, h.drop c ?_ ho⟩
      simp only [PinDocument.canRemove, Bool.and_eq_true, Bool.not_eq_true'] at hr
      obtain ⟨⟨r1, r2⟩, r3⟩ := hr
      refine ⟨by rw [← e1, r1], ?_, fun x hx => ?_⟩
      · rw [← e2]
        cases hrec : d.recursive <;> simp [hrec, Recursive.isSet] at r2 ⊢
      · have := (e3 x).mpr hx
        simp at r3
        simp [r3] at this
    | false =>
      exact ⟨g.set c d, by simp, h.change c d ⟨e1, e2, e3, hr⟩ ho⟩

theorem canRemove_of_mem {d : PinDocument} {x : Cid} (h : x ∈ d.indirectBy) :
    d.canRemove = false := by
  cases hl : d.indirectBy with
  | nil => simp [hl] at h
  | cons y ys => simp [PinDocument.canRemove, hl]

/-- Pinning `c` indirectly through `r`. -/
theorem Rel.insertIndirect {g : MemPins} {v : View} (h : Rel g v) (le : Cid → Cid → Bool)
    (c r : Cid) :
    ∃ b g', g.insertPin le c (.indirectFrom r) = .ok (b, g') ∧ Rel g' (v.addI c (Cid.asV1 r)) := by
  refine h.insertPin le c _ ?_ ?_
  · intro d0 h1 h2 h3
    simp only [PinDocument.update]
    by_cases he : d0.indirectBy = []
    · simp only [he, List.isEmpty_nil, if_true]
      have hne : ∀ x, ¬ v.I c x := fun x hx => by have := (h3 x).mpr hx; simp [he] at this
      refine ⟨_, _, rfl, ?_, ?_, ?_, ?_, by simp⟩
      · simp [View.addI, h1]
      · simp [View.addI, h2]
      · intro x; simp [View.addI, hne]
      · exact canRemove_of_mem (x := Cid.asV1 r) (by simp)
    · have : d0.indirectBy.isEmpty = false := by simpa using he
      simp only [this, if_true, Bool.false_eq_true, if_false]
      refine ⟨_, _, rfl, ?_, ?_, ?_, ?_, ?_⟩
      · simp [View.addI, h1]
      · simp [View.addI, h2]
      · intro x
        simp only [mem_insertSorted, mem_toSet, View.addI, h3, true_and]
        exact Or.comm
      · exact canRemove_of_mem (x := Cid.asV1 r) (by simp [mem_insertSorted])
      · intro hb
        simp only [Bool.not_eq_false', List.contains_iff_mem, mem_toSet] at hb
        refine ⟨fun x => ?_, by simp [View.addI], by simp [View.addI]⟩
        simp only [View.addI, true_and]
        constructor
        · rintro (hx | hx)
          · exact hx
          · subst hx; exact (h3 _).mp hb
        · exact Or.inl
  · intro a ha; simp [View.addI, ha]

/-- Unpinning `c` indirectly through `r`. -/
theorem Rel.removeIndirect {g : MemPins} {v : View} (h : Rel g v) (le : Cid → Cid → Bool)
    (c r : Cid) (hi : v.I c (Cid.asV1 r)) :
    ∃ g', g.removePin le c (.indirectFrom r) = .ok (true, g') ∧
      Rel g' (v.delI c (Cid.asV1 r)) := by
  refine h.removePin le c _ ((h.isPinned c).mpr (Or.inr (Or.inr ⟨_, hi⟩))) ?_ ?_
  · intro d0 h1 h2 h3
    have hm : Cid.asV1 r ∈ d0.indirectBy := (h3 _).mpr hi
    have : d0.indirectBy.isEmpty = false := by
      cases hl : d0.indirectBy with
      | nil => simp [hl] at hm
      | cons y ys => rfl
    simp only [PinDocument.update, this, Bool.false_eq_true, if_false]
    refine ⟨{ d0 with indirectBy := (toSet le d0.indirectBy).filter (fun x => decide (x ≠ Cid.asV1 r)) }, ?_, ?_, ?_, ?_⟩
    · have : (toSet le d0.indirectBy).contains (Cid.asV1 r) = true := by
        simpa [mem_toSet] using hm
      rw [this]
    · simp [View.delI, h1]
    · simp [View.delI, h2]
    · intro x
      simp [View.delI, mem_toSet, h3]
  · intro a ha; simp [View.delI, ha]

/-- Pinning directly works unless the cid is pinned recursively (and not directly). -/
theorem Rel.insertDirect {g : MemPins} {v : View} (h : Rel g v) (le : Cid → Cid → Bool) (c : Cid)
    (hr : (v.R c).isSet = false) :
    ∃ b g', g.insertPin le c .direct = .ok (b, g') ∧ Rel g' (v.setD c true) := by
  refine h.insertPin le c _ ?_ ?_
  · intro d0 h1 h2 h3
    simp only [PinDocument.update, h2, hr, Bool.false_and, Bool.false_eq_true, if_false,
      Bool.not_true]
    refine ⟨_, _, rfl, by simp [View.setD], by simp [View.setD], by simpa [View.setD] using h3,
      by simp [PinDocument.canRemove], ?_⟩
    intro hb
    refine ⟨by simp [View.setD], ?_, by simp [View.setD]⟩
    simp only [View.setD, if_true]
    rw [← h1]
    cases hd : d0.direct <;> simp [hd] at hb ⊢
  · intro a ha; simp [View.setD, ha]

/-- Unpinning directly. -/
theorem Rel.removeDirect {g : MemPins} {v : View} (h : Rel g v) (le : Cid → Cid → Bool) (c : Cid)
    (hd : v.D c = true) :
    ∃ g', g.removePin le c .direct = .ok (true, g') ∧ Rel g' (v.setD c false) := by
  refine h.removePin le c _ ((h.isPinned c).mpr (Or.inl hd)) ?_ ?_
  · intro d0 h1 h2 h3
    rw [hd] at h1
    simp only [PinDocument.update, h1]
    refine ⟨{ d0 with direct := false }, by simp, by simp [View.setD], by simp [View.setD, h2],
      by simpa [View.setD] using h3⟩
  · intro a ha; simp [View.setD, ha]

/-- Recording the intent to pin recursively. -/
theorem Rel.insertIntent {g : MemPins} {v : View} (h : Rel g v) (le : Cid → Cid → Bool) (c : Cid)
    (hr : v.R c = .not) :
    ∃ b g', g.insertPin le c .recursiveIntention = .ok (b, g') ∧
      Rel g' ((v.setR c .intent).setD c false) := by
  refine h.insertPin le c _ ?_ ?_
  · intro d0 h1 h2 h3
    simp only [PinDocument.update, if_true, h2, hr]
    exact ⟨_, _, rfl, by simp [View.setD, View.setR], by simp [View.setD, View.setR],
      by simpa [View.setD, View.setR] using h3, by simp [PinDocument.canRemove, Recursive.isSet],
      by simp⟩
  · intro a ha; simp [View.setD, View.setR, ha]

/-- Turning the intent into a counted recursive pin. -/
theorem Rel.insertCount {g : MemPins} {v : View} (h : Rel g v) (le : Cid → Cid → Bool) (c : Cid)
    (n : Nat) (hr : v.R c = .intent) :
    ∃ b g', g.insertPin le c (.recursive n) = .ok (b, g') ∧
      Rel g' ((v.setR c (.count n)).setD c false) := by
  refine h.insertPin le c _ ?_ ?_
  · intro d0 h1 h2 h3
    simp only [PinDocument.update, if_true, h2, hr]
    exact ⟨_, _, rfl, by simp [View.setD, View.setR], by simp [View.setD, View.setR],
      by simpa [View.setD, View.setR] using h3, by simp [PinDocument.canRemove, Recursive.isSet],
      by simp⟩
  · intro a ha; simp [View.setD, View.setR, ha]

/-- Removing a counted recursive pin. -/
theorem Rel.removeCount {g : MemPins} {v : View} (h : Rel g v) (le : Cid → Cid → Bool) (c : Cid)
    (n : Nat) (hr : v.R c = .count n) :
    ∃ g', g.removePin le c (.recursive n) = .ok (true, g') ∧ Rel g' (v.setR c .not) := by
  refine h.removePin le c _ ((h.isPinned c).mpr (Or.inr (Or.inl (by simp [hr, Recursive.isSet])))) ?_ ?_
  · intro d0 h1 h2 h3
    simp only [PinDocument.update, h2, hr]
    exact ⟨{ d0 with recursive := .not }, by simp, by simp [View.setR, h1], by simp [View.setR],
      by simpa [View.setR] using h3⟩
  · intro a ha; simp [View.setR, ha]

/-- Removing an intended recursive pin. -/
theorem Rel.removeIntent {g : MemPins} {v : View} (h : Rel g v) (le : Cid → Cid → Bool) (c : Cid)
    (hr : v.R c = .intent) :
    ∃ g', g.removePin le c .recursiveIntention = .ok (true, g') ∧ Rel g' (v.setR c .not) := by
  refine h.removePin le c _ ((h.isPinned c).mpr (Or.inr (Or.inl (by simp [hr, Recursive.isSet])))) ?_ ?_
  · intro d0 h1 h2 h3
    simp only [PinDocument.update, h2, hr]
    exact ⟨{ d0 with recursive := .not }, by simp, by simp [View.setR, h1], by simp [View.setR],
      by simpa [View.setR] using h3⟩
  · intro a ha; simp [View.setR, ha]

/-- Pinning indirectly a whole list. -/
theorem Rel.insertRefs {g : MemPins} {v : View} (h : Rel g v) (le : Cid → Cid → Bool) (r : Cid)
    (l : List Cid) (n : Nat) :
    ∃ g', MemPins.insertRefs le (.indirectFrom r) g (l.map some) n = (.ok (n + l.length), g') ∧
      Rel g' { v with I := fun a y => v.I a y ∨ (a ∈ l ∧ y = Cid.asV1 r) } := by
  induction l generalizing g v n with
  | nil => exact ⟨g, by simp [MemPins.insertRefs], h.same (by simp) (by simp) (by simp)⟩
  | cons c cs ih =>
    obtain ⟨b, g1, e1, r1⟩ := h.insertIndirect le c r
    obtain ⟨g2, e2, r2⟩ := ih r1 (n + 1)
    refine ⟨g2, ?_, r2.same (by simp [View.addI]) (by simp [View.addI]) ?_⟩
    · simp only [List.map_cons, MemPins.insertRefs, e1, e2, List.length_cons]
      congr 2; omega
    · intro a x
      simp only [View.addI, List.mem_cons]
      constructor
      · rintro (h | ⟨h | h, e⟩)
        · simp [h]
        · simp [h, e]
        · simp [h, e]
      · rintro ((h | ⟨h, e⟩) | ⟨h, e⟩)
        · simp [h]
        · simp [h, e]
        · simp [h, e]

/-- Unpinning indirectly a whole list without repetitions. -/
theorem Rel.removeRefs {g : MemPins} {v : View} (h : Rel g v) (le : Cid → Cid → Bool) (r : Cid)
    (l : List Cid) (hn : l.Nodup) (hi : ∀ c ∈ l, v.I c (Cid.asV1 r)) :
    ∃ g', MemPins.removeRefs le (.indirectFrom r) g (l.map some) = (.ok (), g') ∧
      Rel g' { v with I := fun a y => v.I a y ∧ ¬ (a ∈ l ∧ y = Cid.asV1 r) } := by
  induction l generalizing g v with
  | nil => exact ⟨g, by simp [MemPins.removeRefs], h.same (by simp) (by simp) (by simp)⟩
  | cons c cs ih =>
    obtain ⟨g1, e1, r1⟩ := h.removeIndirect le c r (hi c (by simp))
    rw [List.nodup_cons] at hn
    obtain ⟨g2, e2, r2⟩ := ih r1 hn.2 (fun a ha => by
      refine ⟨hi a (by simp [ha]), ?_⟩
      rintro ⟨rfl, _⟩
      exact hn.1 ha)
    refine ⟨g2, ?_, r2.same (by simp [View.delI]) (by simp [View.delI]) ?_⟩
    · simp only [List.map_cons, MemPins.removeRefs, e1, e2]
    · intro a x
      simp only [View.delI, List.mem_cons]
      constructor
      · rintro ⟨h, h2⟩
        exact ⟨⟨h, fun ⟨h3, h4⟩ => h2 ⟨Or.inl h3, h4⟩⟩, fun ⟨h3, h4⟩ => h2 ⟨Or.inr h3, h4⟩⟩
      · rintro ⟨⟨h, h2⟩, h3⟩
        refine ⟨h, ?_⟩
        rintro ⟨h4 | h4, h5⟩
        · exact h2 ⟨h4, h5⟩
        · exact h3 ⟨h4, h5⟩

end Verif.Repo
