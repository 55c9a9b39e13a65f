import Verif.Props.PinsList

/-! # C34: a failed pin operation and the pins -/

namespace Verif.Props

open Verif Verif.Repo Verif.Spec

/-- A request as the stores receive it: the stream of descendants may be anything and may fail. -/
inductive PinReq where
  | insertDirect (c : Cid)
  | removeDirect (c : Cid)
  | insertRecursive (c : Cid) (refs : Refs)
  | removeRecursive (c : Cid) (refs : Refs)

/-- The request on the filesystem store. -/
def fsReqSteps (le : Cid → Cid → Bool) (g : FsPins) : PinReq → Except PinErr (List DiskStep)
  | .insertDirect c => g.insertDirect c
  | .removeDirect c => g.removeDirect c
  | .insertRecursive c refs => g.insertRecursive le c refs
  | .removeRecursive c _ => g.removeRecursive c

/-- Its result and the directory after it. -/
def fsReq (le : Cid → Cid → Bool) (g : FsPins) (r : PinReq) : Except PinErr Unit × FsPins :=
  match fsReqSteps le g r with
  | .error e => (.error e, g)
  | .ok st => (.ok (), runSteps g st)

/-- The request on the key-value store. -/
def kvReq (le : Cid → Cid → Bool) (t : KvPins) : PinReq → Except PinErr Unit × KvPins
  | .insertDirect c => t.insertDirect c
  | .removeDirect c => t.removeDirect c
  | .insertRecursive c refs => t.insertRecursive le c refs
  | .removeRecursive c refs => t.removeRecursive le c refs

/-- The request on the in-memory store. -/
def memReq (le : Cid → Cid → Bool) (g : MemPins) : PinReq → Except PinErr Unit × MemPins
  | .insertDirect c => g.insertDirect le c
  | .removeDirect c => g.removeDirect le c
  | .insertRecursive c refs => g.insertRecursive le c refs
  | .removeRecursive c refs => g.removeRecursive le c refs

/-- The stream fails at some point. -/
def StreamFails (refs : Refs) : Prop := none ∈ refs

theorem mapM_id_none (refs : Refs) (h : StreamFails refs) : refs.mapM id = none := by
  induction refs with
  | nil => simp [StreamFails] at h
  | cons x xs ih =>
    simp only [List.mapM_cons, id]
    cases x with
    | none => rfl
    | some c =>
      have : StreamFails xs := by simpa [StreamFails] using h
      have := ih this
      simp [this]

theorem collectRefs_fails (le : Cid → Cid → Bool) (refs : Refs) (h : StreamFails refs) :
    collectRefs le refs = .error .refs := by
  simp [collectRefs, mapM_id_none refs h]

/-- **C34** (filesystem, key-value): a request that fails, whatever the state and the stream of
descendants, leaves the store as it was; and a recursive insertion whose stream fails does fail. -/
theorem C34_fs_kv (le : Cid → Cid → Bool) (g : FsPins) (t : KvPins) (r : PinReq) :
    (∀ e g', fsReq le g r = (.error e, g') → g' = g) ∧
    (∀ e t', kvReq le t r = (.error e, t') → t' = t) ∧
    (∀ c refs, r = .insertRecursive c refs → StreamFails refs →
      (fsReq le g r).1 = .error .refs ∧ (kvReq le t r).1 = .error .refs) := by
  refine ⟨fun e g' h => ?_, fun e t' h => ?_, fun c refs hr hs => ?_⟩
  · unfold fsReq at h
    split at h
    · cases h; rfl
    · cases h
  · cases r with
    | insertDirect c =>
      simp only [kvReq, KvPins.insertDirect] at h
      split at h <;> cases h
      rfl
    | removeDirect c =>
      simp only [kvReq, KvPins.removeDirect] at h
      split at h <;> cases h
      rfl
    | insertRecursive c refs =>
      simp only [kvReq, KvPins.insertRecursive] at h
      split at h
      · cases h; rfl
      · split at h <;> cases h
    | removeRecursive c refs =>
      simp only [kvReq, KvPins.removeRecursive] at h
      split at h
      · cases h; rfl
      · split at h <;> cases h
        rfl
  · subst hr
    refine ⟨?_, ?_⟩
    · simp [fsReq, fsReqSteps, FsPins.insertRecursive, collectRefs_fails le refs hs]
    · simp [kvReq, KvPins.insertRecursive, collectRefs_fails le refs hs]

/-- **C34** (filesystem): when writing the file of a recursive pin fails, what is pinned does not
change, although the directory was written to. -/
theorem C34_fs_botched_write (le : Cid → Cid → Bool) (refs : Cid → List Cid) (ops : List PinOp)
    (c : Cid) :
    let p := track (fsStep le refs) [] Pins.none ops
    ∀ x, ∃ b, (runSteps p.1 (FsPins.botchedInsert c)).isPinned x = .ok b ∧
      (b = true ↔ p.2.Pinned refs x) := by
  intro p x
  have h : FsInv refs p.1 p.2 := fs_reachable le refs ops
  have h2 : FsInv refs (runSteps p.1 (FsPins.botchedInsert c)) p.2 := by
    simp only [FsPins.botchedInsert, runSteps, List.foldl_cons, List.foldl_nil, DiskStep.run]
    have h1 := h.temp c .torn
    refine ⟨h1.uniq.erase _, fun a ha => ?_, fun a ha => ?_, fun a ha => ?_, h.excl, fun a ha => ?_⟩
    · rw [AMap.get_erase_ne _ (by simp)]; exact h1.rootFile a ha
    · rw [AMap.get_erase_ne _ (by simp)]; exact h1.noRootFile a ha
    · rw [isFile_erase]; simp [h1.directFile a ha]
    · rw [isFile_erase] at ha; exact h1.leftOver a (by simpa using ha)
  exact h2.isPinned x

example : runSteps [((pcid .v1 3, .direct), .empty)] (FsPins.botchedInsert (pcid .v1 3)) =
    [((pcid .v1 3, .direct), .empty)] := by
  decide +kernel

/-- **C34** (memory): with complete streams a failed request leaves the store as it was. -/
theorem C34_mem_complete_streams (le : Cid → Cid → Bool) (refs : Cid → List Cid)
    (hn : ∀ c, (refs c).Nodup) (ops : List PinOp) (op : PinOp) (ha : Apart (ops ++ [op])) :
    let p := track (memStep le refs) [] Pins.none ops
    ∀ e g', memStep le refs p.1 op = (.error e, g') → g' = p.1 := by
  intro p e g' he
  have hT : ∀ a b, (∃ o ∈ ops ++ [op], o.root? = some a) → (∃ o ∈ ops ++ [op], o.root? = some b) →
      Cid.asV1 a = Cid.asV1 b → a = b := by
    rintro a b ⟨o1, h1, e1⟩ ⟨o2, h2, e2⟩ hab
    exact ha o1 h1 o2 h2 a b e1 e2 hab
  have h : MemInv refs (fun a => ∃ o ∈ ops ++ [op], o.root? = some a) p.1 p.2 := by
    refine track_inv (P := MemInv refs (fun a => ∃ o ∈ ops ++ [op], o.root? = some a))
      (A := fun o => o ∈ ops ++ [op]) ?_ (fun o ho => by simp [ho]) (MemInv.nil refs _)
    intro g s o ho h
    have hs := mem_step (le := le) hn hT h o (fun c hc => ⟨o, ho, hc⟩)
    rcases hs with ⟨_, g1, e1, h1⟩ | ⟨_, e1, e2⟩
    · refine ⟨fun u g2 e3 => ?_, fun u g2 e3 => ?_⟩
      · rw [e1] at e3; cases e3; exact h1
      · rw [e1] at e3; cases e3
    · refine ⟨fun u g2 e3 => ?_, fun u g2 e3 => ?_⟩
      · rw [e2] at e3; cases e3
      · rw [e2] at e3; cases e3; exact h
  rcases mem_step (le := le) hn hT h op (fun c hc => ⟨op, by simp, hc⟩) with
    ⟨_, g1, e1, _⟩ | ⟨_, e1, e2⟩
  · rw [e1] at he; cases he
  · rw [e2] at he; cases he; rfl

theorem insertPin_keeps {le : Cid → Cid → Bool} {g g' : MemPins} {x : Cid} {k : PinKind} {b : Bool}
    (h : g.insertPin le x k = .ok (b, g')) (c : Cid) (hc : g.isPinned c = true) :
    g'.isPinned c = true := by
  have hset : ∀ d, MemPins.isPinned (g.set x d) c = true := by
    intro d
    unfold MemPins.isPinned at hc ⊢
    rw [AMap.get_set]
    split
    · rfl
    · exact hc
  unfold MemPins.insertPin at h
  split at h
  · split at h <;> cases h
    · exact hset _
    · exact hc
  · split at h <;> cases h
    exact hset _

theorem insertRefs_keeps {le : Cid → Cid → Bool} {k : PinKind} (refs : Refs) (g : MemPins) (n : Nat)
    (c : Cid) (hc : g.isPinned c = true) : (MemPins.insertRefs le k g refs n).2.isPinned c = true := by
  induction refs generalizing g n with
  | nil => exact hc
  | cons r rs ih =>
    cases r with
    | none => exact hc
    | some x =>
      simp only [MemPins.insertRefs]
      split
      · exact hc
      · rename_i h
        exact ih _ _ (insertPin_keeps h c hc)

/-- **C34** (memory, failing streams, in part): an insertion never unpins anything, whatever the
state, however the stream of descendants ends. Missing: that nothing else is pinned afterwards,
which `C34_mem_fails` shows to be false. -/
theorem C34_mem_insert_keeps_partial (le : Cid → Cid → Bool) (g : MemPins) (x : Cid) (refs : Refs)
    (c : Cid) (hc : g.isPinned c = true) :
    (g.insertRecursive le x refs).2.isPinned c = true ∧ (g.insertDirect le x).2.isPinned c = true := by
  refine ⟨?_, ?_⟩
  · unfold MemPins.insertRecursive
    split
    · exact hc
    · rename_i g1 h1
      have h2 := insertRefs_keeps (le := le) (k := .indirectFrom (Cid.asV1 x)) refs g1 0 c
        (insertPin_keeps h1 c hc)
      split
      · rename_i h3; rw [h3] at h2; exact h2
      · rename_i h3; rw [h3] at h2
        split
        · exact h2
        · rename_i h4
          exact insertPin_keeps h4 c h2
  · unfold MemPins.insertDirect
    split
    · exact hc
    · rename_i h1
      exact insertPin_keeps h1 c hc

/-- Pinning indirectly a list of cids before the stream fails. -/
theorem insertRefs_failing {g : MemPins} {v : View} (h : Rel g v) (le : Cid → Cid → Bool) (r : Cid)
    (l : List Cid) (rest : Refs) (n : Nat) :
    ∃ g', MemPins.insertRefs le (.indirectFrom r) g (l.map some ++ none :: rest) n =
        (.error .refs, g') ∧
      Rel g' { v with I := fun a y => v.I a y ∨ (a ∈ l ∧ y = Cid.asV1 r) } := by
  induction l generalizing g v n with
  | nil => exact ⟨g, by simp [MemPins.insertRefs], h.same (by simp) (by simp) (by simp)⟩
  | cons c cs ih =>
    obtain ⟨b, g1, e1, r1⟩ := h.insertIndirect le c r
    obtain ⟨g2, e2, r2⟩ := ih r1 (n + 1)
    refine ⟨g2, ?_, r2.same (by simp [View.addI]) (by simp [View.addI]) ?_⟩
    · simp only [List.map_cons, List.cons_append, MemPins.insertRefs, e1, e2]
    · intro a x
      simp only [View.addI, List.mem_cons]
      constructor
      · rintro (h | ⟨h | h, e⟩)
        · simp [h]
        · simp [h, e]
        · simp [h, e]
      · rintro ((h | ⟨h, e⟩) | ⟨h, e⟩)
        · simp [h]
        · simp [h, e]
        · simp [h, e]

/-- Recording the intent a second time changes nothing. -/
theorem insertIntent_again {g : MemPins} {v : View} (h : Rel g v) (le : Cid → Cid → Bool) (c : Cid)
    (hr : v.R c = .intent) : ∃ b g', g.insertPin le c .recursiveIntention = .ok (b, g') ∧ Rel g' v := by
  refine h.insertPin le c _ ?_ (fun a _ => by simp)
  intro d0 h1 h2 h3
  simp only [PinDocument.update, if_true, h2, hr]
  exact ⟨_, _, rfl, h1, h2.trans hr, h3, by simp [PinDocument.canRemove, Recursive.isSet, h2, hr],
    by simp⟩

/-- The invariant after a history, with room for one more root. -/
theorem mem_reachable_with (le : Cid → Cid → Bool) (refs : Cid → List Cid) (hn : ∀ c, (refs c).Nodup)
    (ops : List PinOp) (op : PinOp) (ha : Apart (ops ++ [op])) :
    MemInv refs (fun a => ∃ o ∈ ops ++ [op], o.root? = some a)
      (track (memStep le refs) [] Pins.none ops).1
      (track (memStep le refs) [] Pins.none ops).2 := by
  have hi := mem_reachable le refs hn ops (fun a ma b mb => ha a (by simp [ma]) b (by simp [mb]))
  exact ⟨hi.rel, fun r hr => by
    obtain ⟨o, m, e⟩ := hi.roots r hr
    exact ⟨o, by simp [m], e⟩, hi.excl⟩

/-- What a failed recursive pin leaves behind. -/
theorem mem_failed_view {le : Cid → Cid → Bool} {refs : Cid → List Cid} {T : Cid → Prop}
    {g : MemPins} {s : Pins} (h : MemInv refs T g s) (c : Cid) (seen : List Cid) (rest : Refs)
    (hr : s.root c = false) :
    ∃ g', g.insertRecursive le c (seen.map some ++ none :: rest) = (.error .refs, g') ∧
      Rel g' ⟨fun a => if a = c then false else s.direct a,
        fun a => if a = c then .intent else (memView refs s).R a,
        fun a y => (memView refs s).I a y ∨ (a ∈ seen ∧ y = Cid.asV1 c)⟩ := by
  obtain ⟨b1, g1, e1, r1⟩ := h.rel.insertIntent le c (by simp [memView, hr])
  obtain ⟨g2, e2, r2⟩ := insertRefs_failing r1 le (Cid.asV1 c) seen rest 0
  refine ⟨g2, by simp only [MemPins.insertRecursive, e1, e2], r2.same ?_ ?_ ?_⟩
  · intro a; simp [View.setD, View.setR, memView]
  · intro a; simp [View.setD, View.setR, memView]
  · intro a x; simp [View.setD, View.setR, memView, Cid.asV1]

/-- **C34** (memory, failing streams): when the stream of descendants fails after the cids `seen`,
the insertion fails, and exactly the target and `seen` are pinned in addition. -/
theorem C34_mem_failed_insert (le : Cid → Cid → Bool) (refs : Cid → List Cid)
    (hn : ∀ c, (refs c).Nodup) (ops : List PinOp) (c : Cid)
    (ha : Apart (ops ++ [.insertRecursive c])) (seen : List Cid) (rest : Refs) :
    let p := track (memStep le refs) [] Pins.none ops
    p.2.root c = false →
    (p.1.insertRecursive le c (seen.map some ++ none :: rest)).1 = .error .refs ∧
    ∀ a, (p.1.insertRecursive le c (seen.map some ++ none :: rest)).2.isPinned a = true ↔
      p.2.Pinned refs a ∨ a = c ∨ a ∈ seen := by
  intro p hr
  have hi : MemInv refs (fun a => ∃ o ∈ ops ++ [.insertRecursive c], o.root? = some a) p.1 p.2 :=
    mem_reachable_with le refs hn ops _ ha
  obtain ⟨g', e, r⟩ := mem_failed_view (le := le) hi c seen rest hr
  refine ⟨by rw [e], fun a => ?_⟩
  rw [e, r.isPinned, ← hi.isPinned, hi.rel.isPinned]
  simp only [memView]
  by_cases hac : a = c
  · subst hac; simp [Recursive.isSet]
  · simp only [hac, false_or]
    constructor
    · rintro (h1 | h1 | ⟨x, h1 | ⟨h1, _⟩⟩)
      · exact Or.inl (Or.inl h1)
      · exact Or.inl (Or.inr (Or.inl h1))
      · exact Or.inl (Or.inr (Or.inr ⟨x, h1⟩))
      · exact Or.inr h1
    · rintro ((h1 | h1 | ⟨x, h1⟩) | h1)
      · exact Or.inl h1
      · exact Or.inr (Or.inl h1)
      · exact Or.inr (Or.inr ⟨x, Or.inl h1⟩)
      · exact Or.inr (Or.inr ⟨_, Or.inr ⟨h1, rfl⟩⟩)

/-- **C34** (memory, failing streams): a recursive pin that failed can be repeated; once it goes
through, the pins are those of a pin that never failed. -/
theorem C34_mem_retry (le : Cid → Cid → Bool) (refs : Cid → List Cid)
    (hn : ∀ c, (refs c).Nodup) (ops : List PinOp) (c : Cid)
    (ha : Apart (ops ++ [.insertRecursive c])) (seen : List Cid) (rest : Refs)
    (hs : ∀ a ∈ seen, a ∈ refs c) :
    let p := track (memStep le refs) [] Pins.none ops
    p.2.root c = false →
    let g := (p.1.insertRecursive le c (seen.map some ++ none :: rest)).2
    (g.insertRecursive le c ((refs c).map some)).1 = .ok () ∧
    ∀ a, (g.insertRecursive le c ((refs c).map some)).2.isPinned a = true ↔
      (p.2.after (.insertRecursive c)).Pinned refs a := by
  intro p hr g
  have hi : MemInv refs (fun a => ∃ o ∈ ops ++ [.insertRecursive c], o.root? = some a) p.1 p.2 :=
    mem_reachable_with le refs hn ops _ ha
  obtain ⟨g', e, r⟩ := mem_failed_view (le := le) hi c seen rest hr
  have hg : g = g' := by simp only [g]; rw [e]
  rw [hg]
  obtain ⟨b1, g1, e1, r1⟩ := insertIntent_again r le c (by simp)
  obtain ⟨g2, e2, r2⟩ := r1.insertRefs le (Cid.asV1 c) (refs c) 0
  obtain ⟨b3, g3, e3, r3⟩ := r2.insertCount le c (0 + (refs c).length) (by simp)
  have e4 : g'.insertRecursive le c ((refs c).map some) = (.ok (), g3) := by
    simp only [MemPins.insertRecursive, e1, e2, e3]
  rw [e4]
  refine ⟨rfl, fun a => ?_⟩
  rw [r3.isPinned]
  simp only [View.setD, View.setR, memView, Pins.Pinned, Pins.Indirect, Pins.after]
  by_cases hac : a = c
  · subst hac; simp [Recursive.isSet]
  · simp only [if_neg hac]
    constructor
    · rintro (h1 | h1 | ⟨x, (⟨r, h1, h2, _⟩ | ⟨h1, _⟩) | ⟨h1, _⟩⟩)
      · exact Or.inl h1
      · refine Or.inr (Or.inl ?_)
        split at h1
        · assumption
        · cases h1
      · exact Or.inr (Or.inr ⟨r, by split <;> simp [h1], h2⟩)
      · exact Or.inr (Or.inr ⟨c, by simp, hs a h1⟩)
      · exact Or.inr (Or.inr ⟨c, by simp, h1⟩)
    · rintro (h1 | h1 | ⟨r, h1, h2⟩)
      · exact Or.inl h1
      · exact Or.inr (Or.inl (by simp [h1, Recursive.isSet]))
      · refine Or.inr (Or.inr ?_)
        by_cases hrc : r = c
        · subst hrc; exact ⟨_, Or.inr ⟨h2, rfl⟩⟩
        · simp only [if_neg hrc] at h1
          exact ⟨_, Or.inl (Or.inl ⟨r, h1, h2, rfl⟩)⟩

/-- **C34** (memory, failing streams): a recursive pin that failed can be taken back with a stream of
exactly the descendants seen; a direct pin of the target is then gone, all else is as before. -/
theorem C34_mem_undo (le : Cid → Cid → Bool) (refs : Cid → List Cid)
    (hn : ∀ c, (refs c).Nodup) (ops : List PinOp) (c : Cid)
    (ha : Apart (ops ++ [.insertRecursive c])) (seen : List Cid) (rest : Refs)
    (hs : seen.Nodup) :
    let p := track (memStep le refs) [] Pins.none ops
    p.2.root c = false →
    let g := (p.1.insertRecursive le c (seen.map some ++ none :: rest)).2
    (g.removeRecursive le c (seen.map some)).1 = .ok () ∧
    ∀ a, (g.removeRecursive le c (seen.map some)).2.isPinned a = true ↔
      (p.2.after (.removeDirect c)).Pinned refs a := by
  intro p hr g
  have hi : MemInv refs (fun a => ∃ o ∈ ops ++ [.insertRecursive c], o.root? = some a) p.1 p.2 :=
    mem_reachable_with le refs hn ops _ ha
  obtain ⟨g', e, r⟩ := mem_failed_view (le := le) hi c seen rest hr
  have hg : g = g' := by simp only [g]; rw [e]
  rw [hg]
  obtain ⟨g1, e1, r1⟩ := r.removeIntent le c (by simp)
  obtain ⟨g2, e2, r2⟩ := r1.removeRefs le (Cid.asV1 c) seen hs (by
    intro a ha
    simp only [View.setR]
    exact Or.inr ⟨ha, by simp [Cid.asV1]⟩)
  have e4 : g'.removeRecursive le c (seen.map some) = (.ok (), g2) := by
    have hd := r.doc c
    cases hgc : g'.get c with
    | none => rw [hgc] at hd; simp [DocRel] at hd
    | some doc =>
      rw [hgc] at hd
      obtain ⟨_, h2, _, _⟩ := hd
      have hk : doc.pickKind = some .recursiveIntention := by
        simp [PinDocument.pickKind, PinDocument.mode, h2, Recursive.isSet]
      simp only [MemPins.removeRecursive, hgc, hk, e1, e2]
  rw [e4]
  refine ⟨rfl, fun a => ?_⟩
  rw [r2.isPinned]
  have hsame : ∀ x, (((memView refs p.2).I a x ∨ (a ∈ seen ∧ x = Cid.asV1 c)) ∧
      ¬ (a ∈ seen ∧ x = Cid.asV1 (Cid.asV1 c))) ↔ (memView refs p.2).I a x := by
    intro x
    have e5 : Cid.asV1 (Cid.asV1 c) = Cid.asV1 c := by simp [Cid.asV1]
    rw [e5]
    constructor
    · rintro ⟨h1 | h1, h2⟩
      · exact h1
      · exact absurd h1 h2
    · intro h1
      refine ⟨Or.inl h1, ?_⟩
      rintro ⟨_, h3⟩
      obtain ⟨r', h4, h5, h6⟩ := h1
      obtain ⟨o, m, eo⟩ := hi.roots r' h4
      have : r' = c := ha o m (.insertRecursive c) (by simp) r' c eo rfl (by rw [← h6, h3])
      rw [this] at h4
      rw [hr] at h4
      cases h4
  simp only [View.setR]
  rw [show (∃ x, ((memView refs p.2).I a x ∨ (a ∈ seen ∧ x = Cid.asV1 c)) ∧
      ¬ (a ∈ seen ∧ x = Cid.asV1 (Cid.asV1 c))) ↔ ∃ x, (memView refs p.2).I a x from
    exists_congr hsame]
  simp only [memView, Pins.Pinned, Pins.Indirect, Pins.after]
  have hI : (∃ x r, p.2.root r = true ∧ a ∈ refs r ∧ x = Cid.asV1 r) ↔
      ∃ r, p.2.root r = true ∧ a ∈ refs r :=
    ⟨fun ⟨_, r, h1, h2, _⟩ => ⟨r, h1, h2⟩, fun ⟨r, h1, h2⟩ => ⟨_, r, h1, h2, rfl⟩⟩
  rw [hI]
  by_cases hac : a = c
  · subst hac; simp [Recursive.isSet, hr]
  · simp only [if_neg hac]
    cases hra : p.2.root a <;> simp [Recursive.isSet]

example : Apart [.insertDirect (pcid .v1 1), .insertRecursive (pcid .v1 2), .insertRecursive (pcid .v1 1)] ∧
    (track (memStep exLe exRefs) [] Pins.none
      [.insertDirect (pcid .v1 1), .insertRecursive (pcid .v1 2)]).2.root (pcid .v1 1) = false := by
  refine ⟨?_, by decide +kernel⟩
  intro a ha b hb x y hx hy
  simp only [List.mem_cons, List.not_mem_nil, or_false] at ha hb
  rcases ha with rfl | rfl | rfl <;> rcases hb with rfl | rfl | rfl <;>
    (simp only [PinOp.root?, Option.some.injEq] at hx hy; try subst hx; try subst hy) <;>
    first | (intro _; rfl) | (intro h; exact absurd h (by decide +kernel)) | (cases hx; done) | (cases hy; done) | trivial

/-- **C34 fails** (memory): when the stream of descendants fails, the insertion fails but its target
and the descendants seen so far are reported as pinned, the target as recursively pinned. -/
theorem C34_mem_fails :
    let g : MemPins := []
    let r := memReq exLe g (.insertRecursive (pcid .v1 1) [some (pcid .v1 9), none])
    r.1 = .error .refs ∧ g.isPinned (pcid .v1 9) = false ∧ r.2.isPinned (pcid .v1 9) = true ∧
      r.2.list none = [.ok (pcid .v1 1, .recursive), .ok (pcid .v1 9, .indirect)] := by
  decide +kernel

/-- **C34 fails** (memory): a removal whose stream fails has unpinned the root but leaves the
descendants pinned through it, and cannot be repeated. -/
theorem C34_mem_removal_fails :
    let g := (memReq exLe [] (.insertRecursive (pcid .v1 1) [some (pcid .v1 9), some (pcid .v1 8)])).2
    let r := memReq exLe g (.removeRecursive (pcid .v1 1) [some (pcid .v1 9), none])
    r.1 = .error .refs ∧ r.2.isPinned (pcid .v1 1) = false ∧ r.2.isPinned (pcid .v1 9) = false ∧
      r.2.isPinned (pcid .v1 8) = true ∧
      (memReq exLe r.2 (.removeRecursive (pcid .v1 1) [some (pcid .v1 9), some (pcid .v1 8)])).1 =
        .error .notPinnedOrIndirect := by
  decide +kernel

end Verif.Props
