import Verif.Repo.MemPinsLemmas
import Verif.Spec.Pins

/-! # C30: the in-memory pin store tracks exactly the pinned blocks -/

namespace Verif.Props

open Verif Verif.Repo Verif.Spec

/-- One user operation on the in-memory store; the stream of descendants is complete. -/
def memStep (le : Cid → Cid → Bool) (refs : Cid → List Cid) (g : MemPins) :
    PinOp → Except PinErr Unit × MemPins
  | .insertDirect c => g.insertDirect le c
  | .removeDirect c => g.removeDirect le c
  | .insertRecursive c => g.insertRecursive le c ((refs c).map some)
  | .removeRecursive c => g.removeRecursive le c ((refs c).map some)

/-- When an operation succeeds. -/
def MemAllows (refs : Cid → List Cid) (s : Pins) : PinOp → Prop
  | .insertDirect c => s.root c = false
  | .removeDirect c => s.direct c = true
  | .insertRecursive c => s.root c = false
  | .removeRecursive c => s.root c = true ∨ (s.direct c = true ∧ ¬ s.Indirect refs c)

/-- The roots in use are told apart by their version 1 form (`C30_v0_v1_fails` shows why). -/
def Apart (ops : List PinOp) : Prop :=
  ∀ a ∈ ops, ∀ b ∈ ops, ∀ x y, a.root? = some x → b.root? = some y →
    Cid.asV1 x = Cid.asV1 y → x = y

/-- The view that the specification state stands for. -/
def memView (refs : Cid → List Cid) (s : Pins) : View where
  D := s.direct
  R := fun c => if s.root c then .count (refs c).length else .not
  I := fun c x => ∃ r, s.root r = true ∧ c ∈ refs r ∧ x = Cid.asV1 r

/-- The invariant: the store represents the specification state, whose roots are among the targets,
and a recursive pin is not also direct. -/
structure MemInv (refs : Cid → List Cid) (T : Cid → Prop) (g : MemPins) (s : Pins) : Prop where
  rel : Rel g (memView refs s)
  roots : ∀ r, s.root r = true → T r
  excl : ∀ r, s.root r = true → s.direct r = false

theorem MemInv.nil (refs : Cid → List Cid) (T : Cid → Prop) : MemInv refs T [] Pins.none :=
  ⟨Rel.nil.same (by simp [memView, Pins.none]) (by simp [memView, Pins.none])
    (by simp [memView, Pins.none]), by simp [Pins.none], by simp [Pins.none]⟩

theorem memView_isSet (refs : Cid → List Cid) (s : Pins) (c : Cid) :
    ((memView refs s).R c).isSet = s.root c := by
  simp only [memView]
  split <;> simp_all [Recursive.isSet]

theorem MemInv.isPinned {refs : Cid → List Cid} {T : Cid → Prop} {g : MemPins} {s : Pins}
    (h : MemInv refs T g s) (c : Cid) : g.isPinned c = true ↔ s.Pinned refs c := by
  rw [h.rel.isPinned, memView_isSet]
  simp only [memView, Pins.Pinned, Pins.Indirect]
  constructor
  · rintro (h1 | h1 | ⟨x, r, h1, h2, _⟩)
    · exact Or.inl h1
    · exact Or.inr (Or.inl h1)
    · exact Or.inr (Or.inr ⟨r, h1, h2⟩)
  · rintro (h1 | h1 | ⟨r, h1, h2⟩)
    · exact Or.inl h1
    · exact Or.inr (Or.inl h1)
    · exact Or.inr (Or.inr ⟨_, r, h1, h2, rfl⟩)

theorem MemInv.docSome {refs : Cid → List Cid} {T : Cid → Prop} {g : MemPins} {s : Pins}
    (h : MemInv refs T g s) {c : Cid} {doc : PinDocument} (hg : g.get c = some doc) :
    doc.direct = s.direct c ∧
    doc.recursive = (if s.root c then .count (refs c).length else .not) ∧
    (∀ x, x ∈ doc.indirectBy ↔ ∃ r, s.root r = true ∧ c ∈ refs r ∧ x = Cid.asV1 r) ∧
    doc.canRemove = false := by
  have := h.rel.doc c
  rw [hg] at this
  exact this

theorem MemInv.docNone {refs : Cid → List Cid} {T : Cid → Prop} {g : MemPins} {s : Pins}
    (h : MemInv refs T g s) {c : Cid} (hg : g.get c = none) :
    s.direct c = false ∧ s.root c = false ∧ ¬ s.Indirect refs c := by
  have := mt (h.isPinned c).mpr (by simp [MemPins.isPinned, hg])
  simp only [Pins.Pinned, not_or, Bool.not_eq_true] at this
  exact this

/-- Every operation succeeds exactly when allowed; then the invariant holds for the new
specification state, otherwise nothing changes. -/
theorem mem_step {le : Cid → Cid → Bool} {refs : Cid → List Cid} (hn : ∀ c, (refs c).Nodup)
    {T : Cid → Prop} (hT : ∀ a b, T a → T b → Cid.asV1 a = Cid.asV1 b → a = b)
    {g : MemPins} {s : Pins} (h : MemInv refs T g s) (op : PinOp)
    (ho : ∀ c, op.root? = some c → T c) :
    (MemAllows refs s op ∧ ∃ g', memStep le refs g op = (.ok (), g') ∧
      MemInv refs T g' (s.after op)) ∨
    (¬ MemAllows refs s op ∧ ∃ e, memStep le refs g op = (.error e, g)) := by
  cases op with
  | insertDirect c =>
    simp only [memStep, MemPins.insertDirect, MemAllows]
    cases hr : s.root c with
    | false =>
      obtain ⟨b, g', e, r⟩ := h.rel.insertDirect le c (by rw [memView_isSet, hr])
      refine Or.inl ⟨rfl, g', by rw [e], r.same ?_ ?_ ?_, h.roots, ?_⟩
      · intro a; simp [memView, View.setD, Pins.after]
      · intro a; simp [memView, View.setD, Pins.after]
      · intro a x; simp [memView, View.setD, Pins.after]
      · intro r hr'
        have : r ≠ c := by rintro rfl; simp [Pins.after, hr] at hr'
        simp only [Pins.after, if_neg this]
        exact h.excl r hr'
    | true =>
      refine Or.inr ⟨by simp, ?_⟩
      have hd := h.excl c hr
      have : ∃ doc, g.get c = some doc := by
        cases hg : g.get c with
        | none => have := (h.docNone hg).2.1; simp [hr] at this
        | some doc => exact ⟨doc, rfl⟩
      obtain ⟨doc, hg⟩ := this
      obtain ⟨h1, h2, _, _⟩ := h.docSome hg
      refine ⟨.alreadyPinnedRecursive, ?_⟩
      simp [MemPins.insertPin, hg, PinDocument.update, h1, h2, hr, hd, Recursive.isSet]
  | removeDirect c =>
    simp only [memStep, MemPins.removeDirect, MemAllows]
    cases hd : s.direct c with
    | true =>
      obtain ⟨g', e, r⟩ := h.rel.removeDirect le c hd
      refine Or.inl ⟨rfl, g', by rw [e], r.same ?_ ?_ ?_, h.roots, ?_⟩
      · intro a; simp [memView, View.setD, Pins.after]
      · intro a; simp [memView, View.setD, Pins.after]
      · intro a x; simp [memView, View.setD, Pins.after]
      · intro r hr'
        simp only [Pins.after] at hr' ⊢
        split
        · rfl
        · exact h.excl r hr'
    | false =>
      refine Or.inr ⟨by simp, ?_⟩
      cases hg : g.get c with
      | none => exact ⟨.notPinned, by simp [MemPins.removePin, hg]⟩
      | some doc =>
        obtain ⟨h1, h2, _, _⟩ := h.docSome hg
        cases hr : s.root c with
        | true =>
          exact ⟨.cannotUnpinDirectOnRecursivelyPinned,
            by simp [MemPins.removePin, hg, PinDocument.update, h1, h2, hr, hd, Recursive.isSet]⟩
        | false =>
          exact ⟨.cannotUnpinUnpinned,
            by simp [MemPins.removePin, hg, PinDocument.update, h1, h2, hr, hd, Recursive.isSet]⟩
  | insertRecursive c =>
    simp only [memStep, MemPins.insertRecursive, MemAllows]
    cases hr : s.root c with
    | true =>
      refine Or.inr ⟨by simp, .alreadyPinnedRecursive, ?_⟩
      have : ∃ doc, g.get c = some doc := by
        cases hg : g.get c with
        | none => have := (h.docNone hg).2.1; simp [hr] at this
        | some doc => exact ⟨doc, rfl⟩
      obtain ⟨doc, hg⟩ := this
      obtain ⟨h1, h2, _, _⟩ := h.docSome hg
      simp [MemPins.insertPin, hg, PinDocument.update, h2, hr]
    | false =>
      obtain ⟨b1, g1, e1, r1⟩ := h.rel.insertIntent le c (by simp [memView, hr])
      obtain ⟨g2, e2, r2⟩ := r1.insertRefs le (Cid.asV1 c) (refs c) 0
      obtain ⟨b3, g3, e3, r3⟩ := r2.insertCount le c (0 + (refs c).length)
        (by simp [View.setD, View.setR])
      refine Or.inl ⟨rfl, g3, by rw [e1]; simp only []; rw [e2]; simp only []; rw [e3],
        r3.same ?_ ?_ ?_, ?_, ?_⟩
      · intro a; simp only [memView, View.setD, View.setR, Pins.after]; split <;> simp_all
      · intro a; simp only [memView, View.setD, View.setR, Pins.after]; split <;> simp_all
      · intro a x
        simp only [memView, View.setD, View.setR, Pins.after]
        constructor
        · rintro ⟨r, hr1, hr2, hr3⟩
          by_cases hrc : r = c
          · subst hrc
            exact Or.inr ⟨hr2, by simp [hr3, Cid.asV1]⟩
          · simp only [if_neg hrc] at hr1
            exact Or.inl ⟨r, hr1, hr2, hr3⟩
        · rintro (⟨r, hr1, hr2, hr3⟩ | ⟨hr2, hr3⟩)
          · exact ⟨r, by split <;> simp [hr1], hr2, hr3⟩
          · exact ⟨c, by simp, hr2, by simp [hr3, Cid.asV1]⟩
      · intro r hr1
        by_cases hrc : r = c
        · subst hrc; exact ho r rfl
        · simp only [Pins.after, if_neg hrc] at hr1
          exact h.roots r hr1
      · intro r hr1
        by_cases hrc : r = c
        · subst hrc; simp [Pins.after]
        · simp only [Pins.after, if_neg hrc] at hr1 ⊢
          exact h.excl r hr1
  | removeRecursive c =>
    simp only [memStep, MemPins.removeRecursive, MemAllows]
    cases hg : g.get c with
    | none =>
      obtain ⟨h1, h2, h3⟩ := h.docNone hg
      exact Or.inr ⟨by simp [h1, h2], .notPinnedOrIndirect, rfl⟩
    | some doc =>
      obtain ⟨h1, h2, h3, h4⟩ := h.docSome hg
      cases hr : s.root c with
      | true =>
        have hk : doc.pickKind = some (.recursive (refs c).length) := by
          simp [PinDocument.pickKind, PinDocument.mode, h2, hr, Recursive.isSet]
        obtain ⟨g1, e1, r1⟩ := h.rel.removeCount le c (refs c).length (by simp [memView, hr])
        obtain ⟨g2, e2, r2⟩ := r1.removeRefs le (Cid.asV1 c) (refs c) (hn c) (by
          intro a ha
          simp only [View.setR, memView]
          exact ⟨c, hr, ha, by simp [Cid.asV1]⟩)
        refine Or.inl ⟨Or.inl rfl, g2, ?_, r2.same ?_ ?_ ?_, ?_, ?_⟩
        · simp only [hk, e1, e2]
        · intro a; simp only [memView, View.setR, Pins.after]
          split
          · rename_i ha; subst ha; exact (h.excl a hr).symm
          · rfl
        · intro a; simp only [memView, View.setR, Pins.after]; split <;> simp_all
        · intro a x
          simp only [memView, View.setR, Pins.after]
          constructor
          · rintro ⟨r, hr1, hr2, hr3⟩
            have hrc : r ≠ c := by rintro rfl; simp at hr1
            simp only [if_neg hrc] at hr1
            refine ⟨⟨r, hr1, hr2, hr3⟩, ?_⟩
            rintro ⟨_, h5⟩
            exact hrc (hT r c (h.roots r hr1) (ho c rfl) (by rw [← hr3, h5]; simp [Cid.asV1]))
          · rintro ⟨⟨r, hr1, hr2, hr3⟩, h5⟩
            refine ⟨r, ?_, hr2, hr3⟩
            have hrc : r ≠ c := by
              rintro rfl
              exact h5 ⟨hr2, by simp [hr3, Cid.asV1]⟩
            simp [hrc, hr1]
        · intro r hr1
          have hrc : r ≠ c := by rintro rfl; simp [Pins.after] at hr1
          simp only [Pins.after, if_neg hrc] at hr1
          exact h.roots r hr1
        · intro r hr1
          have hrc : r ≠ c := by rintro rfl; simp [Pins.after] at hr1
          simp only [Pins.after, if_neg hrc] at hr1 ⊢
          exact h.excl r hr1
      | false =>
        have hset : doc.recursive.isSet = false := by simp [h2, hr, Recursive.isSet]
        cases hl : doc.indirectBy with
        | cons x xs =>
          have hind : s.Indirect refs c := by
            obtain ⟨r, i1, i2, _⟩ := (h3 x).mp (by simp [hl])
            exact ⟨r, i1, i2⟩
          have hk : doc.pickKind = some (.indirectFrom x) := by
            simp [PinDocument.pickKind, PinDocument.mode, hset, hl]
          refine Or.inr ⟨?_, .pinnedIndirectlyThrough x, by simp only [hk]⟩
          rintro (h5 | h5)
          · simp at h5
          · exact h5.2 hind
        | nil =>
          have hind : ¬ s.Indirect refs c := by
            rintro ⟨r, i1, i2⟩
            have := (h3 (Cid.asV1 r)).mpr ⟨r, i1, i2, rfl⟩
            simp [hl] at this
          have hd : s.direct c = true := by
            simp only [PinDocument.canRemove, hset, hl, h1] at h4
            simpa using h4
          have hk : doc.pickKind = some .direct := by
            simp [PinDocument.pickKind, PinDocument.mode, hset, hl, h1, hd]
          obtain ⟨g', e, r⟩ := h.rel.removeDirect le c hd
          refine Or.inl ⟨Or.inr ⟨hd, hind⟩, g', by simp only [hk, e], r.same ?_ ?_ ?_, ?_, ?_⟩
          · intro a; simp [memView, View.setD, Pins.after]
          · intro a; simp only [memView, View.setD, Pins.after]; split <;> simp_all
          · intro a x
            simp only [memView, View.setD, Pins.after]
            constructor
            · rintro ⟨r, hr1, hr2, hr3⟩
              have hrc : r ≠ c := by rintro rfl; simp at hr1
              exact ⟨r, by simpa [hrc] using hr1, hr2, hr3⟩
            · rintro ⟨r, hr1, hr2, hr3⟩
              have hrc : r ≠ c := by rintro rfl; simp [hr] at hr1
              exact ⟨r, by simpa [hrc] using hr1, hr2, hr3⟩
          · intro r hr1
            have hrc : r ≠ c := by rintro rfl; simp [Pins.after] at hr1
            simp only [Pins.after, if_neg hrc] at hr1
            exact h.roots r hr1
          · intro r hr1
            have hrc : r ≠ c := by rintro rfl; simp [Pins.after] at hr1
            simp only [Pins.after, if_neg hrc] at hr1 ⊢
            exact h.excl r hr1

/-- The invariant after every history. -/
theorem mem_reachable (le : Cid → Cid → Bool) (refs : Cid → List Cid) (hn : ∀ c, (refs c).Nodup)
    (ops : List PinOp) (ha : Apart ops) :
    MemInv refs (fun c => ∃ op ∈ ops, op.root? = some c)
      (track (memStep le refs) [] Pins.none ops).1
      (track (memStep le refs) [] Pins.none ops).2 := by
  have hT : ∀ a b, (∃ op ∈ ops, op.root? = some a) → (∃ op ∈ ops, op.root? = some b) →
      Cid.asV1 a = Cid.asV1 b → a = b := by
    rintro a b ⟨o1, m1, e1⟩ ⟨o2, m2, e2⟩ e
    exact ha o1 m1 o2 m2 a b e1 e2 e
  refine track_inv (P := MemInv refs (fun c => ∃ op ∈ ops, op.root? = some c))
    (A := fun op => op ∈ ops) ?_ (fun op h => h) (MemInv.nil _ _)
  intro g s op hop h
  rcases mem_step (le := le) hn hT h op (fun c hc => ⟨op, hop, hc⟩) with ⟨_, g', e, i⟩ | ⟨_, e', e⟩
  · refine ⟨fun u g2 e2 => ?_, fun er g2 e2 => ?_⟩
    · rw [e] at e2; cases e2; exact i
    · rw [e] at e2; cases e2
  · refine ⟨fun u g2 e2 => ?_, fun er g2 e2 => ?_⟩
    · rw [e] at e2; cases e2
    · rw [e] at e2; cases e2; exact h

/-- **C30**: after every history of pin operations on the in-memory store, exactly the cids that are
pinned directly, recursively, or are descendants of a recursive root are reported as pinned. -/
theorem C30_mem_tracks (le : Cid → Cid → Bool) (refs : Cid → List Cid)
    (hn : ∀ c, (refs c).Nodup) (ops : List PinOp) (ha : Apart ops) (c : Cid) :
    (track (memStep le refs) [] Pins.none ops).1.isPinned c = true ↔
      (track (memStep le refs) [] Pins.none ops).2.Pinned refs c :=
  (mem_reachable le refs hn ops ha).isPinned c

/-- **C30**: after every history, the next operation succeeds exactly when the rules allow it. -/
theorem C30_mem_answers (le : Cid → Cid → Bool) (refs : Cid → List Cid)
    (hn : ∀ c, (refs c).Nodup) (ops : List PinOp) (op : PinOp) (ha : Apart (ops ++ [op])) :
    (∃ g', memStep le refs (track (memStep le refs) [] Pins.none ops).1 op = (.ok (), g')) ↔
      MemAllows refs (track (memStep le refs) [] Pins.none ops).2 op := by
  have hT : ∀ a b, (∃ o ∈ ops ++ [op], o.root? = some a) → (∃ o ∈ ops ++ [op], o.root? = some b) →
      Cid.asV1 a = Cid.asV1 b → a = b := by
    rintro a b ⟨o1, m1, e1⟩ ⟨o2, m2, e2⟩ e
    exact ha o1 m1 o2 m2 a b e1 e2 e
  have hi := mem_reachable le refs hn ops (fun a ma b mb =>
    ha a (by simp [ma]) b (by simp [mb]))
  have hi' : MemInv refs (fun c => ∃ o ∈ ops ++ [op], o.root? = some c)
      (track (memStep le refs) [] Pins.none ops).1
      (track (memStep le refs) [] Pins.none ops).2 :=
    ⟨hi.rel, fun r hr => by
      obtain ⟨o, m, e⟩ := hi.roots r hr
      exact ⟨o, by simp [m], e⟩, hi.excl⟩
  rcases mem_step (le := le) hn hT hi' op (fun c hc => ⟨op, by simp, hc⟩) with ⟨h1, g', e, _⟩ | ⟨h1, e', e⟩
  · exact ⟨fun _ => h1, fun _ => ⟨g', e⟩⟩
  · refine ⟨fun ⟨g', e2⟩ => ?_, fun h2 => absurd h2 h1⟩
    rw [e] at e2
    cases e2

/-! ## Example: two roots sharing a descendant -/

/-- A cid of the given version and digest. -/
def pcid (v : Version) (n : Nat) : Cid := ⟨v, codecDagPb, mhSha256, List.replicate 32 (UInt8.ofNat n)⟩

/-- Roots 1 and 2 share descendant 9; root 1 also has 8, which is under 2's child 7. -/
def exRefs (c : Cid) : List Cid :=
  if c.digest = (pcid .v1 1).digest then [pcid .v1 9, pcid .v1 8]
  else if c.digest = (pcid .v1 2).digest then [pcid .v1 7, pcid .v1 9]
  else []

/-- No order on the texts is assumed; any will do. -/
def exLe : Cid → Cid → Bool := fun _ _ => true

/-- A history with every kind of operation, some of them refused. -/
def exOps : List PinOp :=
  [.insertDirect (pcid .v1 9), .insertRecursive (pcid .v1 1), .insertRecursive (pcid .v1 2),
   .insertDirect (pcid .v1 2), .removeDirect (pcid .v1 9), .removeRecursive (pcid .v1 1),
   .removeRecursive (pcid .v1 9)]

theorem exRefs_nodup (c : Cid) : (exRefs c).Nodup := by
  unfold exRefs
  split
  · decide +kernel
  · split
    · decide +kernel
    · exact List.nodup_nil

example : Apart exOps := by
  have hv : ∀ a ∈ exOps, ∀ x, a.root? = some x → x.version = .v1 := by
    intro a ha x hx
    simp only [exOps, List.mem_cons, List.not_mem_nil, or_false] at ha
    rcases ha with h | h | h | h | h | h | h <;> subst h <;> simp [PinOp.root?] at hx <;>
      subst hx <;> rfl
  intro a ha b hb x y hx hy e
  have h1 := hv a ha x hx
  have h2 := hv b hb y hy
  cases x; cases y
  simp_all [Cid.asV1]

-- the shared descendant stays pinned, the other one goes
example : (track (memStep exLe exRefs) [] Pins.none exOps).1.isPinned (pcid .v1 9) = true ∧
    (track (memStep exLe exRefs) [] Pins.none exOps).1.isPinned (pcid .v1 8) = false ∧
    (track (memStep exLe exRefs) [] Pins.none exOps).2.root (pcid .v1 2) = true := by
  decide +kernel

/-! ## Why `Apart` is needed -/

/-- **C30 fails** for a root pinned in both versions: the indirect pins are recorded under the
version 1 form, so unpinning the version 0 form unpins the descendants of the version 1 form, which
is still pinned recursively. -/
theorem C30_v0_v1_fails :
    let ops : List PinOp := [.insertRecursive (pcid .v0 1), .insertRecursive (pcid .v1 1),
      .removeRecursive (pcid .v0 1)]
    let p := track (memStep exLe exRefs) [] Pins.none ops
    p.2.root (pcid .v1 1) = true ∧ pcid .v1 9 ∈ exRefs (pcid .v1 1) ∧
      p.1.isPinned (pcid .v1 9) = false := by
  decide +kernel

/-- **C30**: what one change of a document does when it is accepted, in every state of the document: taking away a recursive pin, or the
intention of one, leaves none; adding one leaves it and no direct pin, or what was there if that is as much already; a direct pin is there
afterwards just if it was added; pins through others stay. It says that something changed exactly if it did. -/
theorem C30_document (le : Cid → Cid → Bool) (d d' : PinDocument) (add m : Bool) (kind : PinKind) (hk : ∀ c, kind ≠ .indirectFrom c)
    (h : d.update le add kind = .ok (m, d')) :
    d'.indirectBy = d.indirectBy ∧ (m = true ↔ d' ≠ d) ∧
    (kind = .direct → d' = { d with direct := add }) ∧
    (kind ≠ .direct → add = false → d' = { d with recursive := .not }) ∧
    (kind ≠ .direct → add = true → d'.recursive.isSet = true ∧ (d' = d ∨ d'.direct = false)) ∧
    (∀ n, kind = .recursive n → add = true → d'.recursive = .count n) := by
  rcases d with ⟨di, re, ib⟩
  cases kind with
  | indirectFrom c => exact absurd rfl (hk c)
  | direct =>
    simp only [PinDocument.update] at h
    split at h
    · cases h
    · split at h
      · split at h <;> cases h
      · cases h
        cases di <;> cases add <;> simp
  | recursiveIntention =>
    cases add <;> cases re <;> simp only [PinDocument.update, if_true, Bool.false_eq_true, if_false] at h <;> cases h <;>
      simp [Recursive.isSet]
  | recursive n =>
    cases add <;> cases re <;> simp only [PinDocument.update, if_true, Bool.false_eq_true, if_false] at h
    all_goals (try split at h)
    all_goals cases h
    all_goals simp [Recursive.isSet]
    all_goals (rename_i hn; simpa using hn)

example : (PinDocument.update (fun _ _ => true) { recursive := .intent } false (.recursive 3)) = .ok (true, {}) := rfl

/-- **C30**: when a change of a document is refused, and what is told then. -/
theorem C30_refused (le : Cid → Cid → Bool) (d : PinDocument) (add : Bool) (kind : PinKind) (e : PinErr) :
    d.update le add kind = .error e ↔
      (∃ n found, kind = .recursive n ∧ d.recursive = .count found ∧ found ≠ n ∧ e = .unexpectedNumberOfDescendants found n) ∨
      (∃ n, kind = .recursive n ∧ add = false ∧ d.recursive = .not ∧ e = .notPinnedRecursive) ∨
      (kind = .recursiveIntention ∧ add = true ∧ (∃ n, d.recursive = .count n) ∧ e = .alreadyPinnedRecursive) ∨
      (kind = .direct ∧ add = true ∧ d.direct = false ∧ d.recursive ≠ .not ∧ e = .alreadyPinnedRecursive) ∨
      (kind = .direct ∧ add = false ∧ d.direct = false ∧
        e = if d.recursive = .not then .cannotUnpinUnpinned else .cannotUnpinDirectOnRecursivelyPinned) := by
  rcases d with ⟨di, re, ib⟩
  cases kind with
  | indirectFrom c =>
    simp only [PinDocument.update]
    constructor
    · intro h
      repeat' split at h
      all_goals cases h
    · rintro (⟨n, f, h, -⟩ | ⟨n, h, -⟩ | ⟨h, -⟩ | ⟨h, -⟩ | ⟨h, -⟩) <;> cases h
  | direct => cases di <;> cases add <;> cases re <;> simp [PinDocument.update, Recursive.isSet, eq_comm]
  | recursiveIntention => cases add <;> cases re <;> simp [PinDocument.update, eq_comm]
  | recursive n =>
    cases add <;> cases re <;> simp [PinDocument.update, eq_comm]
    all_goals
      rename_i f
      by_cases h : n = f
      · simp [h]
      · simp [h]

example : PinDocument.update (fun _ _ => true) { recursive := .count 2 } true (.recursive 3) =
    .error (.unexpectedNumberOfDescendants 2 3) := rfl

end Verif.Props
