import Verif.Props.PinsKv

/-! # C33: listing and querying pins -/

namespace Verif.Props

open Verif Verif.Repo Verif.Spec

/-! ## In memory -/

/-- The mode under which the in-memory store shows a cid: recursive over indirect over direct. -/
def MemMode (refs : Cid → List Cid) (s : Pins) (c : Cid) : PinMode → Prop
  | .recursive => s.root c = true
  | .indirect => s.root c = false ∧ s.Indirect refs c
  | .direct => s.root c = false ∧ ¬ s.Indirect refs c ∧ s.direct c = true

/-- A kind fits a cid: the count is the number of descendants, the root named is one. -/
def KindFits (refs : Cid → List Cid) (s : Pins) (c : Cid) : PinKind → Prop
  | .recursive n => s.root c = true ∧ n = (refs c).length
  | .recursiveIntention => False
  | .indirectFrom x => s.root c = false ∧ ∃ r, s.root r = true ∧ c ∈ refs r ∧ x = Cid.asV1 r
  | .direct => s.root c = false ∧ ¬ s.Indirect refs c ∧ s.direct c = true

/-- The mode of a kind. -/
def kindMode : PinKind → PinMode
  | .recursive _ => .recursive
  | .recursiveIntention => .recursive
  | .indirectFrom _ => .indirect
  | .direct => .direct

/-- A cid is pinned as required. -/
def PinnedAs (M : Cid → PinMode → Prop) (req : Option PinMode) (c : Cid) : Prop :=
  ∃ m, M c m ∧ (req = none ∨ req = some m)

theorem reqMode_iff (req : Option PinMode) (m : PinMode) :
    reqMode req m = true ↔ req = none ∨ req = some m := by
  cases req with
  | none => simp [reqMode]
  | some o =>
    simp [reqMode]
    exact eq_comm

theorem eqMode_iff (k : PinKind) (m : PinMode) : k.eqMode m = true ↔ kindMode k = m := by
  cases k <;> cases m <;> simp [PinKind.eqMode, kindMode]

theorem reqKind_iff (req : Option PinMode) (k : PinKind) :
    reqKind req k = true ↔ req = none ∨ req = some (kindMode k) := by
  cases req with
  | none => simp [reqKind]
  | some o =>
    simp only [reqKind, eqMode_iff, reduceCtorEq, Option.some.injEq, false_or]
    exact eq_comm

theorem MemInv.kind {refs : Cid → List Cid} {T : Cid → Prop} {g : MemPins} {s : Pins}
    (h : MemInv refs T g s) {c : Cid} {doc : PinDocument} (hg : g.get c = some doc) :
    ∃ k, doc.pickKind = some k ∧ doc.mode = some (kindMode k) ∧ KindFits refs s c k := by
  obtain ⟨h1, h2, h3, h4⟩ := h.docSome hg
  cases hr : s.root c with
  | true =>
    refine ⟨.recursive (refs c).length, ?_, ?_, hr, rfl⟩
    · simp [PinDocument.pickKind, PinDocument.mode, h2, hr, Recursive.isSet]
    · simp [PinDocument.mode, h2, hr, Recursive.isSet, kindMode]
  | false =>
    have hset : doc.recursive.isSet = false := by simp [h2, hr, Recursive.isSet]
    cases hl : doc.indirectBy with
    | cons x xs =>
      refine ⟨.indirectFrom x, ?_, ?_, hr, (h3 x).mp (by simp [hl])⟩
      · simp [PinDocument.pickKind, PinDocument.mode, hset, hl]
      · simp [PinDocument.mode, hset, hl, kindMode]
    | nil =>
      have hind : ¬ s.Indirect refs c := by
        rintro ⟨r, i1, i2⟩
        have := (h3 (Cid.asV1 r)).mpr ⟨r, i1, i2, rfl⟩
        simp [hl] at this
      have hd : s.direct c = true := by
        simp only [PinDocument.canRemove, hset, hl, h1] at h4
        simpa using h4
      refine ⟨.direct, ?_, ?_, hr, hind, hd⟩
      · simp [PinDocument.pickKind, PinDocument.mode, hset, hl, h1, hd]
      · simp [PinDocument.mode, hset, hl, h1, hd, kindMode]

theorem KindFits.mode {refs : Cid → List Cid} {s : Pins} {c : Cid} {k : PinKind}
    (h : KindFits refs s c k) : MemMode refs s c (kindMode k) := by
  cases k with
  | recursive n => exact h.1
  | recursiveIntention => exact h.elim
  | indirectFrom x => obtain ⟨h1, r, h2, h3, _⟩ := h; exact ⟨h1, r, h2, h3⟩
  | direct => exact h

theorem MemMode.unique {refs : Cid → List Cid} {s : Pins} {c : Cid} {m n : PinMode}
    (h1 : MemMode refs s c m) (h2 : MemMode refs s c n) : m = n := by
  cases m <;> cases n <;> simp_all [MemMode]

theorem MemMode.pinned {refs : Cid → List Cid} {s : Pins} {c : Cid} {m : PinMode}
    (h : MemMode refs s c m) : s.Pinned refs c := by
  cases m with
  | recursive => exact Or.inr (Or.inl h)
  | indirect => exact Or.inr (Or.inr h.2)
  | direct => exact Or.inl h.2.2

theorem filter_ok {α ε : Type} (l : List α) (p : α → Bool) (q : Except ε α → Bool)
    (hq : ∀ a, q (.ok a) = p a) :
    (l.map Except.ok).filter q = (l.filter p).map (Except.ok (ε := ε)) := by
  induction l with
  | nil => rfl
  | cons x xs ih =>
    simp only [List.map_cons, List.filter_cons, hq]
    split <;> simp [ih]

theorem MemInv.list {refs : Cid → List Cid} {T : Cid → Prop} {g : MemPins} {s : Pins}
    (h : MemInv refs T g s) (req : Option PinMode) :
    ∃ l : List (Cid × PinMode), g.list req = l.map Except.ok ∧ (l.map Prod.fst).Nodup ∧
      ∀ c m, (c, m) ∈ l ↔ MemMode refs s c m ∧ (req = none ∨ req = some m) := by
  have hmode : ∀ e ∈ g, e.2.mode = some ((e.2.mode).getD .direct) := by
    rintro ⟨c, doc⟩ he
    obtain ⟨k, _, hm, _⟩ := h.kind ((AMap.mem_iff_get h.rel.uniq c doc).mp he)
    simp [hm]
  let all : List (Cid × PinMode) := g.map (fun e => (e.1, (e.2.mode).getD .direct))
  have hall : g.map MemPins.listItem = all.map Except.ok := by
    simp only [all, List.map_map]
    apply List.map_congr_left
    intro e he
    unfold MemPins.listItem
    rw [hmode e he]
    simp
  refine ⟨all.filter (fun e => reqMode req e.2), ?_, ?_, ?_⟩
  · unfold MemPins.list
    rw [hall]
    exact filter_ok _ _ _ (fun _ => rfl)
  · have hk : all.map Prod.fst = AMap.keys g := by simp [all, AMap.keys, List.map_map]
    have hn : (all.map Prod.fst).Nodup := by rw [hk]; exact h.rel.uniq
    exact List.Nodup.sublist (List.Sublist.map _ List.filter_sublist) hn
  · intro c m
    simp only [List.mem_filter, reqMode_iff]
    refine and_congr_left (fun _ => ?_)
    simp only [all, List.mem_map, Prod.mk.injEq]
    constructor
    · rintro ⟨⟨c', doc⟩, he, rfl, hm⟩
      obtain ⟨k, _, hm2, hf⟩ := h.kind ((AMap.mem_iff_get h.rel.uniq c' doc).mp he)
      simp only [hm2, Option.getD_some] at hm
      rw [← hm]
      exact hf.mode
    · intro hm
      have hp := (h.isPinned c).mpr hm.pinned
      unfold MemPins.isPinned at hp
      cases hg : g.get c with
      | none => simp [hg] at hp
      | some doc =>
        obtain ⟨k, _, hm2, hf⟩ := h.kind hg
        refine ⟨(c, doc), AMap.mem_of_get hg, rfl, ?_⟩
        simp only [hm2, Option.getD_some]
        exact hf.mode.unique hm

/-- **C33** (memory): after every history, `list` yields no errors and exactly the pinned cids that
match the filter, once each, with recursive over indirect over direct. -/
theorem C33_mem_list (le : Cid → Cid → Bool) (refs : Cid → List Cid) (hn : ∀ c, (refs c).Nodup)
    (ops : List PinOp) (ha : Apart ops) (req : Option PinMode) :
    let p := track (memStep le refs) [] Pins.none ops
    ∃ l : List (Cid × PinMode), p.1.list req = l.map Except.ok ∧ (l.map Prod.fst).Nodup ∧
      ∀ c m, (c, m) ∈ l ↔ MemMode refs p.2 c m ∧ (req = none ∨ req = some m) :=
  (mem_reachable le refs hn ops ha).list req

theorem MemInv.queryOne {refs : Cid → List Cid} {T : Cid → Prop} {g : MemPins} {s : Pins}
    (h : MemInv refs T g s) (req : Option PinMode) (c : Cid) :
    (PinnedAs (MemMode refs s) req c ∧ ∃ k, g.queryOne req c = .ok (c, k) ∧ KindFits refs s c k ∧
      (req = none ∨ req = some (kindMode k))) ∨
    (¬ PinnedAs (MemMode refs s) req c ∧ ∃ e, g.queryOne req c = .error e) := by
  unfold MemPins.queryOne
  cases hg : g.get c with
  | none =>
    refine Or.inr ⟨?_, _, rfl⟩
    rintro ⟨m, hm, _⟩
    obtain ⟨h1, h2, h3⟩ := h.docNone hg
    have := hm.pinned
    simp [Pins.Pinned, h1, h2, h3] at this
  | some doc =>
    obtain ⟨k, hk, _, hf⟩ := h.kind hg
    simp only [hk]
    by_cases hr : reqKind req k = true
    · rw [if_pos hr]
      rw [reqKind_iff] at hr
      exact Or.inl ⟨⟨_, hf.mode, hr⟩, k, rfl, hf, hr⟩
    · rw [if_neg hr]
      rw [reqKind_iff] at hr
      refine Or.inr ⟨?_, ?_⟩
      · rintro ⟨m, hm, hq⟩
        rw [hm.unique hf.mode] at hq
        exact hr hq
      · cases req with
        | none => simp at hr
        | some m => exact ⟨_, rfl⟩

/-- **C33** (memory): after every history, `query` succeeds exactly when all the cids are pinned as
required, and then answers for each of them in order with a fitting kind. -/
theorem C33_mem_query (le : Cid → Cid → Bool) (refs : Cid → List Cid) (hn : ∀ c, (refs c).Nodup)
    (ops : List PinOp) (ha : Apart ops) (req : Option PinMode) (cids : List Cid) :
    let p := track (memStep le refs) [] Pins.none ops
    ((∀ c ∈ cids, PinnedAs (MemMode refs p.2) req c) →
      ∃ l, p.1.query cids req = .ok l ∧ l.map Prod.fst = cids ∧
        ∀ e ∈ l, KindFits refs p.2 e.1 e.2 ∧ (req = none ∨ req = some (kindMode e.2))) ∧
    ((∃ c ∈ cids, ¬ PinnedAs (MemMode refs p.2) req c) → ∃ e, p.1.query cids req = .error e) := by
  intro p
  have h := mem_reachable le refs hn ops ha
  show _ ∧ _
  unfold MemPins.query
  induction cids with
  | nil => exact ⟨fun _ => ⟨[], rfl, rfl, by simp⟩, by simp⟩
  | cons c cs ih =>
    rcases h.queryOne req c with ⟨hp, k, hk, hf, hr⟩ | ⟨hp, e, he⟩
    · refine ⟨fun hall => ?_, fun hex => ?_⟩
      · obtain ⟨l, h1, h2, h3⟩ := ih.1 (fun a ha => hall a (by simp [ha]))
        refine ⟨(c, k) :: l, ?_, by simp [h2], ?_⟩
        · simp only [List.mapM_cons, p, hk]
          simp only [p] at h1
          rw [h1]; rfl
        · intro e he
          rcases List.mem_cons.mp he with rfl | he
          · exact ⟨hf, hr⟩
          · exact h3 e he
      · have : ∃ c ∈ cs, ¬ PinnedAs (MemMode refs p.2) req c := by
          obtain ⟨a, ha, hna⟩ := hex
          rcases List.mem_cons.mp ha with rfl | ha
          · exact absurd hp hna
          · exact ⟨a, ha, hna⟩
        obtain ⟨e, he⟩ := ih.2 this
        refine ⟨e, ?_⟩
        simp only [List.mapM_cons, p, hk]
        simp only [p] at he
        rw [he]; rfl
    · refine ⟨fun hall => absurd (hall c (by simp)) hp, fun _ => ⟨e, ?_⟩⟩
      simp only [List.mapM_cons, p, he]; rfl

example : (track (memStep exLe exRefs) [] Pins.none exOps).1.query [pcid .v1 9, pcid .v1 2] none =
    .ok [(pcid .v1 9, .indirectFrom (pcid .v1 2)), (pcid .v1 2, .recursive 2)] := by
  decide +kernel

/-! ## On the filesystem -/

/-- The mode under which the filesystem store shows a cid: recursive over direct over indirect. -/
def FsMode (refs : Cid → List Cid) (s : Pins) (c : Cid) : PinMode → Prop
  | .recursive => s.root c = true
  | .direct => s.root c = false ∧ s.direct c = true
  | .indirect => s.root c = false ∧ s.direct c = false ∧ s.Indirect refs c

theorem yieldNew_spec (mode : PinMode) (l returned : List Cid) :
    (∀ c m, (c, m) ∈ (yieldNew mode l returned).1 ↔ m = mode ∧ c ∈ l ∧ c ∉ returned) ∧
    ((yieldNew mode l returned).1.map Prod.fst).Nodup ∧
    (∀ c, c ∈ (yieldNew mode l returned).2 ↔ c ∈ l ∨ c ∈ returned) := by
  induction l generalizing returned with
  | nil => simp [yieldNew]
  | cons x xs ih =>
    simp only [yieldNew]
    split
    · rename_i hx
      obtain ⟨h1, h2, h3⟩ := ih returned
      refine ⟨fun c m => ?_, h2, fun c => ?_⟩
      · rw [h1]
        simp only [List.mem_cons]
        constructor
        · rintro ⟨a, b, c⟩; exact ⟨a, Or.inr b, c⟩
        · rintro ⟨a, b | b, c⟩
          · subst b; exact absurd hx c
          · exact ⟨a, b, c⟩
      · rw [h3]
        simp only [List.mem_cons]
        constructor
        · rintro (h | h)
          · exact Or.inl (Or.inr h)
          · exact Or.inr h
        · rintro ((h | h) | h)
          · subst h; exact Or.inr hx
          · exact Or.inl h
          · exact Or.inr h
    · rename_i hx
      obtain ⟨h1, h2, h3⟩ := ih (x :: returned)
      refine ⟨fun c m => ?_, ?_, fun c => ?_⟩
      · simp only [List.mem_cons, Prod.mk.injEq, h1, not_or]
        constructor
        · rintro (⟨a, b⟩ | ⟨a, b, c, d⟩)
          · subst a; exact ⟨b, Or.inl rfl, hx⟩
          · exact ⟨a, Or.inr b, d⟩
        · rintro ⟨a, b, d⟩
          by_cases hc : c = x
          · exact Or.inl ⟨hc, a⟩
          · rcases b with b | b
            · exact absurd b hc
            · exact Or.inr ⟨a, b, hc, d⟩
      · simp only [List.map_cons, List.nodup_cons]
        refine ⟨?_, h2⟩
        intro hm
        obtain ⟨⟨c, m⟩, he, rfl⟩ := List.mem_map.mp hm
        rw [h1] at he
        exact he.2.2 (by simp)
      · rw [h3]
        simp only [List.mem_cons]
        constructor
        · rintro (h | h | h)
          · exact Or.inl (Or.inr h)
          · exact Or.inl (Or.inl h)
          · exact Or.inr h
        · rintro ((h | h) | h)
          · exact Or.inr (Or.inl h)
          · exact Or.inl h
          · exact Or.inr (Or.inr h)

theorem _root_.Verif.Repo.FsInv.readAll {refs : Cid → List Cid} {g : FsPins} {s : Pins} (h : FsInv refs g s)
    (rs : List Cid) (hrs : ∀ r ∈ rs, s.root r = true) :
    ∃ b, g.readAll rs = .ok b ∧ (∀ r l, (r, l) ∈ b → r ∈ rs ∧ ∀ x, x ∈ l ↔ x ∈ refs r) ∧
      (∀ r ∈ rs, ∃ l, (r, l) ∈ b) := by
  induction rs with
  | nil => exact ⟨[], rfl, by simp, by simp⟩
  | cons r rs ih =>
    obtain ⟨b, e, h1, h2⟩ := ih (fun a ha => hrs a (by simp [ha]))
    obtain ⟨l, el, hl⟩ := h.read r (hrs r (by simp))
    refine ⟨(r, l) :: b, ?_, ?_, ?_⟩
    · unfold FsPins.readAll at e ⊢
      simp only [List.mapM_cons, el]
      rw [e]; rfl
    · intro r' l' hm
      rcases List.mem_cons.mp hm with hm | hm
      · cases hm; exact ⟨by simp, hl⟩
      · obtain ⟨a1, a2⟩ := h1 r' l' hm
        exact ⟨by simp [a1], a2⟩
    · intro r' hr'
      rcases List.mem_cons.mp hr' with rfl | hr'
      · exact ⟨l, by simp⟩
      · obtain ⟨l', hl'⟩ := h2 r' hr'
        exact ⟨l', by simp [hl']⟩

/-- What the filesystem store lists: with the filter "indirect" every descendant of a root, also
those which are pinned directly or recursively themselves. -/
def FsListed (refs : Cid → List Cid) (s : Pins) (req : Option PinMode) (c : Cid) (m : PinMode) : Prop :=
  match req with
  | some .indirect => m = .indirect ∧ s.Indirect refs c
  | some o => m = o ∧ FsMode refs s c m
  | none => FsMode refs s c m

/-- No direct pin file is left over beside a recursive one. -/
def Tidy (g : FsPins) (s : Pins) : Prop := ∀ c, g.isFile c .direct = true → s.direct c = true

theorem mem_directs (g : FsPins) (req : Option PinMode) (c : Cid) :
    c ∈ g.listDirect req ↔ reqMode req .direct = true ∧ g.isFile c .direct = true := by
  unfold FsPins.listDirect
  simp only [List.mem_filterMap]
  constructor
  · rintro ⟨⟨c', m⟩, hm, he⟩
    simp only at he
    split at he
    · rename_i h2
      simp at he; subst he
      rw [mem_listPinfiles] at hm
      rcases hm with ⟨h3, _⟩ | ⟨_, h3⟩
      · simp [h2.1] at h3
      · exact ⟨h2.2, h3⟩
    · simp at he
  · rintro ⟨h1, h2⟩
    exact ⟨(c, .direct), (mem_listPinfiles g c _).mpr (Or.inr ⟨rfl, h2⟩), by simp [h1]⟩

theorem _root_.Verif.Repo.FsInv.list {refs : Cid → List Cid} {g : FsPins} {s : Pins}
    (h : FsInv refs g s) (ht : Tidy g s) (req : Option PinMode) :
    ∃ l, g.list req = .ok l ∧ (l.map Prod.fst).Nodup ∧
      ∀ c m, (c, m) ∈ l ↔ FsListed refs s req c m := by
  obtain ⟨b, eb, b1, b2⟩ := h.readAll g.listRecursive (fun r hr => by
    rw [mem_listRecursive, h.isRoot] at hr; exact hr)
  have hflat : ∀ c, c ∈ (b.map Prod.snd).flatten ↔ s.Indirect refs c := by
    intro c
    simp only [List.mem_flatten, List.mem_map]
    constructor
    · rintro ⟨l, ⟨⟨r, l'⟩, hm, rfl⟩, hc⟩
      obtain ⟨a1, a2⟩ := b1 r l' hm
      rw [mem_listRecursive, h.isRoot] at a1
      exact ⟨r, a1, (a2 c).mp hc⟩
    · rintro ⟨r, hr, hc⟩
      obtain ⟨l, hl⟩ := b2 r (by rw [mem_listRecursive, h.isRoot]; exact hr)
      exact ⟨l, ⟨(r, l), hl, rfl⟩, ((b1 r l hl).2 c).mpr hc⟩
  have hdir : ∀ c, g.isFile c .direct = true ↔ s.direct c = true :=
    fun c => ⟨ht c, h.directFile c⟩
  have hrec : ∀ c, c ∈ (if reqMode req .recursive = true then g.listRecursive else []) ↔
      reqMode req .recursive = true ∧ s.root c = true := by
    intro c
    split
    · rename_i hq; simp [hq, mem_listRecursive, h.isRoot]
    · rename_i hq; simp [hq]
  obtain ⟨p1, n1, r1⟩ := yieldNew_spec .recursive
    (if reqMode req .recursive = true then g.listRecursive else []) []
  obtain ⟨p2, n2, r2⟩ := yieldNew_spec .direct (g.listDirect req)
    (yieldNew .recursive (if reqMode req .recursive = true then g.listRecursive else []) []).2
  unfold FsPins.list
  simp only [eb]
  generalize yieldNew .recursive (if reqMode req .recursive = true then g.listRecursive else []) []
    = o1 at *
  obtain ⟨p3, n3, r3⟩ := yieldNew_spec .indirect (b.map Prod.snd).flatten
    (yieldNew .direct (g.listDirect req) o1.2).2
  generalize yieldNew .direct (g.listDirect req) o1.2 = o2 at *
  generalize yieldNew .indirect (b.map Prod.snd).flatten o2.2 = o3 at *
  have n12 : ((o1.1 ++ o2.1).map Prod.fst).Nodup := by
    rw [List.map_append, List.nodup_append]
    refine ⟨n1, n2, ?_⟩
    intro a ha a' ha' heq
    subst heq
    obtain ⟨⟨c, m⟩, he, rfl⟩ := List.mem_map.mp ha
    obtain ⟨⟨c', m'⟩, he', heq⟩ := List.mem_map.mp ha'
    simp only at heq; subst heq
    rw [p1] at he; rw [p2, r1] at he'
    exact he'.2.2 (Or.inl he.2.1)
  have n123 : ((o1.1 ++ o2.1 ++ o3.1).map Prod.fst).Nodup := by
    rw [List.map_append, List.nodup_append]
    refine ⟨n12, n3, ?_⟩
    intro a ha a' ha' heq
    subst heq
    obtain ⟨⟨c, m⟩, he, rfl⟩ := List.mem_map.mp ha
    obtain ⟨⟨c', m'⟩, he', heq⟩ := List.mem_map.mp ha'
    simp only at heq; subst heq
    rw [p3, r2, r1] at he'
    rcases List.mem_append.mp he with he | he
    · rw [p1] at he; exact he'.2.2 (Or.inr (Or.inl he.2.1))
    · rw [p2] at he; exact he'.2.2 (Or.inl he.2.1)
  have m1 : ∀ c m, (c, m) ∈ o1.1 ↔ m = .recursive ∧ reqMode req .recursive = true ∧
      s.root c = true := by
    intro c m; rw [p1, hrec]; simp
  have m2 : ∀ c m, (c, m) ∈ o2.1 ↔ m = .direct ∧ reqMode req .direct = true ∧
      s.direct c = true := by
    intro c m
    rw [p2, r1, hrec, mem_directs, hdir]
    constructor
    · rintro ⟨a, b, _⟩; exact ⟨a, b⟩
    · rintro ⟨a, b, d⟩
      refine ⟨a, ⟨b, d⟩, ?_⟩
      rintro (⟨_, h1⟩ | h1)
      · have := h.excl c d; simp [h1] at this
      · simp at h1
  have m3 : ∀ c m, (c, m) ∈ o3.1 ↔ m = .indirect ∧ s.Indirect refs c ∧
      ¬ (reqMode req .recursive = true ∧ s.root c = true) ∧
      ¬ (reqMode req .direct = true ∧ s.direct c = true) := by
    intro c m
    rw [p3, r2, r1, hrec, mem_directs, hdir, hflat]
    simp only [not_or, List.not_mem_nil, not_false_eq_true, and_true]
    constructor
    · rintro ⟨a, b, c, d⟩; exact ⟨a, b, d, c⟩
    · rintro ⟨a, b, c, d⟩; exact ⟨a, b, d, c⟩
  have ex : ∀ c, s.direct c = true → s.root c = false := h.excl
  cases req with
  | none =>
    refine ⟨_, rfl, n123, fun c m => ?_⟩
    rw [List.mem_append, List.mem_append, m1, m2, m3]
    simp only [reqMode, FsListed]
    cases m with
    | recursive => simp [FsMode]
    | direct =>
      simp only [FsMode]
      constructor
      · rintro ((⟨h1, _⟩ | ⟨_, _, h1⟩) | ⟨h1, _⟩)
        · cases h1
        · exact ⟨ex c h1, h1⟩
        · cases h1
      · rintro ⟨_, h1⟩; exact Or.inl (Or.inr (by simp [h1]))
    | indirect =>
      simp only [FsMode]
      constructor
      · rintro ((⟨h1, _⟩ | ⟨h1, _⟩) | ⟨_, h1, h2, h3⟩)
        · cases h1
        · cases h1
        · exact ⟨by simpa using h2, by simpa using h3, h1⟩
      · rintro ⟨h1, h2, h3⟩
        exact Or.inr (by simp [h1, h2, h3])
  | some o =>
    cases o with
    | indirect =>
      refine ⟨_, rfl, n123, fun c m => ?_⟩
      rw [List.mem_append, List.mem_append, m1, m2, m3]
      simp only [reqMode, FsListed]
      constructor
      · rintro ((⟨_, h1, _⟩ | ⟨_, h1, _⟩) | ⟨h1, h2, _⟩)
        · cases h1
        · cases h1
        · exact ⟨h1, h2⟩
      · rintro ⟨h1, h2⟩
        exact Or.inr ⟨h1, h2, by simp, by simp⟩
    | recursive =>
      refine ⟨_, rfl, n12, fun c m => ?_⟩
      rw [List.mem_append, m1, m2]
      simp only [reqMode, FsListed]
      constructor
      · rintro (⟨h1, _, h2⟩ | ⟨_, h1, _⟩)
        · subst h1; exact ⟨rfl, h2⟩
        · cases h1
      · rintro ⟨rfl, h2⟩
        exact Or.inl ⟨rfl, rfl, h2⟩
    | direct =>
      refine ⟨_, rfl, n12, fun c m => ?_⟩
      rw [List.mem_append, m1, m2]
      simp only [reqMode, FsListed]
      constructor
      · rintro (⟨_, h1, _⟩ | ⟨h1, _, h2⟩)
        · cases h1
        · subst h1; exact ⟨rfl, ex c h2, h2⟩
      · rintro ⟨rfl, _, h2⟩
        exact Or.inr ⟨rfl, rfl, h2⟩

theorem tidy_steps {le : Cid → Cid → Bool} {refs : Cid → List Cid} {g : FsPins} {s : Pins} (h : FsInv refs g s)
    (ht : Tidy g s) (op : PinOp) {st : List DiskStep} (e : fsSteps le refs g op = .ok st)
    (i : FsInv refs (runSteps g st) (s.after op)) : Tidy (runSteps g st) (s.after op) := by
  intro c hc
  rcases i.leftOver c hc with hd | hr
  · exact hd
  · exfalso
    cases op with
    | insertDirect a =>
      simp only [fsSteps, FsPins.insertDirect] at e
      split at e
      · cases e
      · rename_i hf
        cases e
        simp only [runSteps, List.foldl_cons, List.foldl_nil, DiskStep.run, isFile_set] at hc
        simp only [Pins.after] at hr
        by_cases hca : c = a
        · subst hca; rw [h.isRoot] at hf; exact hf hr
        · have := ht c (by simpa [hca] using hc)
          have := h.excl c this
          simp [hr] at this
    | removeDirect a =>
      simp only [fsSteps, FsPins.removeDirect] at e
      split at e
      · cases e
      · split at e
        · cases e
          simp only [runSteps, List.foldl_cons, List.foldl_nil, DiskStep.run, isFile_erase] at hc
          simp only [Pins.after] at hr
          have := ht c (by simp only [Bool.and_eq_true] at hc; exact hc.2)
          have := h.excl c this
          simp [hr] at this
        · cases e
    | insertRecursive a =>
      simp only [fsSteps, FsPins.insertRecursive, collectRefs_ok] at e
      cases e
      simp only [runSteps, List.foldl_cons, List.foldl_nil] at hc
      rw [show ∀ g', DiskStep.run g' (.remove a .direct) = g'.erase (a, .direct) from fun _ => rfl,
        isFile_erase] at hc
      simp only [DiskStep.run, AMap.get_set_eq] at hc
      rw [isFile_set, isFile_erase, isFile_set, isFile_set] at hc
      simp only [Prod.mk.injEq, and_true, Bool.and_eq_true, Bool.not_eq_true',
        decide_eq_false_iff_not, reduceCtorEq, and_false, decide_false, Bool.false_or,
        Bool.not_false, Bool.true_and] at hc
      simp only [Pins.after, if_neg hc.1] at hr
      have := h.excl c (ht c (by simpa using hc.2))
      simp [hr] at this
    | removeRecursive a =>
      simp only [fsSteps, FsPins.removeRecursive] at e
      split at e
      · cases e
        simp only [runSteps, List.foldl_cons, List.foldl_nil, DiskStep.run, isFile_erase] at hc
        simp only [Prod.mk.injEq, and_true, Bool.and_eq_true, Bool.not_eq_true',
          decide_eq_false_iff_not] at hc
        simp only [Pins.after, if_neg hc.2.1] at hr
        have := h.excl c (ht c hc.2.2)
        simp [hr] at this
      · cases e

theorem fs_tidy (le : Cid → Cid → Bool) (refs : Cid → List Cid) (ops : List PinOp) :
    Tidy (track (fsStep le refs) [] Pins.none ops).1
      (track (fsStep le refs) [] Pins.none ops).2 := by
  suffices FsInv refs (track (fsStep le refs) [] Pins.none ops).1
      (track (fsStep le refs) [] Pins.none ops).2 ∧
      Tidy (track (fsStep le refs) [] Pins.none ops).1
      (track (fsStep le refs) [] Pins.none ops).2 from this.2
  refine track_inv (P := fun g s => FsInv refs g s ∧ Tidy g s) (A := fun _ => True) ?_
    (fun _ _ => trivial) ⟨FsInv.nil refs, by intro c hc; simp [FsPins.isFile, AMap.get] at hc⟩
  rintro g s op _ ⟨h, ht⟩
  rcases fs_steps (le := le) h op with ⟨_, st, e, i, _⟩ | ⟨_, e', e⟩
  · refine ⟨fun u g2 e2 => ?_, fun er g2 e2 => ?_⟩
    · simp only [fsStep, e] at e2; cases e2
      exact ⟨i, tidy_steps h ht op e i⟩
    · simp only [fsStep, e] at e2; cases e2
  · refine ⟨fun u g2 e2 => ?_, fun er g2 e2 => ?_⟩
    · simp only [fsStep, e] at e2; cases e2
    · simp only [fsStep, e] at e2; cases e2; exact ⟨h, ht⟩

/-- **C33** (filesystem): after every history, `list` without a filter yields exactly the pinned
cids, once each, with recursive over direct over indirect; with the filter recursive or direct
exactly those of that mode; with the filter indirect exactly the descendants of the roots. -/
theorem C33_fs_list_partial (le : Cid → Cid → Bool) (refs : Cid → List Cid) (ops : List PinOp)
    (req : Option PinMode) :
    let p := track (fsStep le refs) [] Pins.none ops
    ∃ l, p.1.list req = .ok l ∧ (l.map Prod.fst).Nodup ∧
      ∀ c m, (c, m) ∈ l ↔ FsListed refs p.2 req c m :=
  (fs_reachable le refs ops).list (fs_tidy le refs ops) req

/-- **C33 fails** for the filesystem store: filtering by "indirect" lists a cid which the listing
without filter shows as direct. -/
theorem C33_fs_indirect_filter :
    let g := (track (fsStep exLe exRefs) [] Pins.none
      [.insertRecursive (pcid .v1 1), .insertDirect (pcid .v1 9)]).1
    (g.list none).toOption.map (fun l => decide ((pcid .v1 9, .direct) ∈ l)) = some true ∧
    (g.list (some .indirect)).toOption.map (fun l => decide ((pcid .v1 9, .indirect) ∈ l)) = some true := by
  decide +kernel

/-- **C33 fails** after a crash between writing the recursive pin file and removing the direct one:
the cid is recursive in the listing without filter, yet listed with the filter "direct". -/
theorem C33_fs_left_over :
    ∃ g, FsRun exLe exRefs [(.insertRecursive (pcid .v1 3), .crashed),
      (.insertDirect (pcid .v1 3), .ok)] g ∧
      g.list none = .ok [(pcid .v1 3, .recursive)] ∧
      g.list (some .direct) = .ok [(pcid .v1 3, .direct)] :=
  ⟨_, .crashed 3 (.ok .nil rfl) rfl, by decide +kernel, by decide +kernel⟩

/-! ## Querying the filesystem store -/

/-- An answer fits: the cid is listed under that mode, and the root named is one. -/
def FsFits (refs : Cid → List Cid) (s : Pins) (req : Option PinMode) (c : Cid) (k : PinKind) : Prop :=
  FsListed refs s req c (kindMode k) ∧
    (∀ r, k = .indirectFrom r → s.root r = true ∧ c ∈ refs r)

/-- Not pinned as the files of the cid itself would show. -/
def NotByFile (s : Pins) (req : Option PinMode) (c : Cid) : Prop :=
  req = none → s.root c = false ∧ s.direct c = false

structure QueryInv (refs : Cid → List Cid) (s : Pins) (req : Option PinMode) (ids : List Cid)
    (done : List Cid) (q : FsQuery) : Prop where
  len : q.response.length = ids.length
  fits : ∀ (j : Nat) e, q.response[j]? = some (some e) → ids[j]? = some e.1 ∧ FsFits refs s req e.1 e.2
  place : ∀ c j, q.remaining.get c = some j → ids[j]? = some c ∧ NotByFile s req c
  all : ∀ c ∈ done, (q.remaining.get c).isSome = true ∨
    ∃ (j : Nat) (k : PinKind), q.response[j]? = some (some (c, k))

theorem QueryInv.answer {refs : Cid → List Cid} {s : Pins} {req : Option PinMode} {ids done : List Cid}
    {q : FsQuery} (h : QueryInv refs s req ids done q) {i : Nat} {c : Cid} {k : PinKind}
    (hi : ids[i]? = some c) (hk : FsFits refs s req c k) :
    (∀ (j : Nat) e, (q.response.set i (some (c, k)))[j]? = some (some e) →
      ids[j]? = some e.1 ∧ FsFits refs s req e.1 e.2) ∧
    (∀ c', (∃ (j : Nat) (k' : PinKind), q.response[j]? = some (some (c', k'))) →
      ∃ (j : Nat) (k' : PinKind), (q.response.set i (some (c, k)))[j]? = some (some (c', k'))) ∧
    (∃ (j : Nat) (k' : PinKind), (q.response.set i (some (c, k)))[j]? = some (some (c, k'))) := by
  have hlt : i < q.response.length := by
    rw [h.len]
    exact (List.getElem?_eq_some_iff.mp hi).1
  have hset : (q.response.set i (some (c, k)))[i]? = some (some (c, k)) := by
    simp [hlt]
  refine ⟨fun j e he => ?_, ?_, i, k, hset⟩
  · by_cases hj : i = j
    · subst hj
      rw [hset] at he
      simp only [Option.some.injEq] at he
      subst he
      exact ⟨hi, hk⟩
    · rw [List.getElem?_set_ne hj] at he
      exact h.fits j e he
  · rintro c' ⟨j, k', hj⟩
    by_cases hij : i = j
    · subst hij
      have := (h.fits i _ hj).1
      rw [hi] at this
      simp only [Option.some.injEq] at this
      subst this
      exact ⟨i, k, hset⟩
    · exact ⟨j, k', by rw [List.getElem?_set_ne hij]; exact hj⟩

theorem FsMode.unique {refs : Cid → List Cid} {s : Pins} {c : Cid} {m n : PinMode}
    (h1 : FsMode refs s c m) (h2 : FsMode refs s c n) : m = n := by
  cases m <;> cases n <;> simp_all [FsMode]

/-- What the first loop finds for a cid. -/
def foundByFile (g : FsPins) (req : Option PinMode) (c : Cid) : Option PinKind :=
  if (queryParams req).1 then
    match g.readDirectOrRecursive c with
    | some m =>
      if reqMode (queryParams req).2.1 m then
        some (match m with
          | .direct => .direct
          | _ => .recursive 0)
      else none
    | none => none
  else none

theorem foundByFile_spec {refs : Cid → List Cid} {g : FsPins} {s : Pins} (h : FsInv refs g s)
    (req : Option PinMode) (c : Cid) :
    (∀ k, foundByFile g req c = some k → FsFits refs s req c k) ∧
    (foundByFile g req c = none → NotByFile s req c ∧
      ((queryParams req).2.2 = false → ∀ m, ¬ FsListed refs s req c m)) := by
  unfold foundByFile
  rw [h.mode]
  have hex := h.excl c
  cases req with
  | none =>
    cases hr : s.root c <;> cases hd : s.direct c <;>
      simp_all [queryParams, reqMode, FsFits, FsListed, FsMode, kindMode, NotByFile]
  | some o =>
    cases o <;> cases hr : s.root c <;> cases hd : s.direct c <;>
      simp_all [queryParams, reqMode, FsFits, FsListed, FsMode, kindMode, NotByFile]

theorem queryFiles_spec {refs : Cid → List Cid} {g : FsPins} {s : Pins} (h : FsInv refs g s)
    (req : Option PinMode) (ids : List Cid) (pre cs : List Cid) (hids : ids = pre ++ cs) (q : FsQuery)
    (hq : QueryInv refs s req ids pre q) (hq0 : (queryParams req).2.2 = false → q.remaining = []) :
    (∃ q', g.queryFiles (queryParams req).1 (queryParams req).2.1 (queryParams req).2.2 cs pre.length q
        = .ok q' ∧ QueryInv refs s req ids ids q' ∧
        ((queryParams req).2.2 = false → q'.remaining = [])) ∨
    (∃ e, g.queryFiles (queryParams req).1 (queryParams req).2.1 (queryParams req).2.2 cs pre.length q
        = .error e ∧ ∃ c ∈ ids, ∀ m, ¬ FsListed refs s req c m) := by
  induction cs generalizing pre q with
  | nil =>
    simp only [List.append_nil] at hids
    subst hids
    exact Or.inl ⟨q, rfl, hq, hq0⟩
  | cons c cs ih =>
    have hi : ids[pre.length]? = some c := by rw [hids]; simp
    have hmem : c ∈ ids := by rw [hids]; simp
    have hids' : ids = (pre ++ [c]) ++ cs := by rw [hids]; simp
    have hlen : (pre ++ [c]).length = pre.length + 1 := by simp
    obtain ⟨f1, f2⟩ := foundByFile_spec h req c
    have heq : g.queryFiles (queryParams req).1 (queryParams req).2.1 (queryParams req).2.2 (c :: cs)
        pre.length q = match foundByFile g req c with
        | some k => g.queryFiles (queryParams req).1 (queryParams req).2.1 (queryParams req).2.2 cs
            (pre.length + 1) { q with response := q.response.set pre.length (some (c, k)) }
        | none =>
          if (queryParams req).1 && !(queryParams req).2.2 then .error (.isNotPinned c)
          else g.queryFiles (queryParams req).1 (queryParams req).2.1 (queryParams req).2.2 cs
            (pre.length + 1)
            { q with remaining := if (q.remaining.get c).isSome then q.remaining
                else q.remaining.set c pre.length } := rfl
    rw [heq]
    cases hf : foundByFile g req c with
    | some k =>
      obtain ⟨a1, a2, a3⟩ := hq.answer hi (f1 k hf)
      have := ih (pre ++ [c]) hids' { q with response := q.response.set pre.length (some (c, k)) }
        ⟨by simp [hq.len], a1, hq.place, fun c' hc' => by
          rcases List.mem_append.mp hc' with hc' | hc'
          · rcases hq.all c' hc' with h1 | h1
            · exact Or.inl h1
            · exact Or.inr (a2 c' h1)
          · simp only [List.mem_singleton] at hc'
            subst hc'
            exact Or.inr a3⟩ hq0
      rw [hlen] at this
      exact this
    | none =>
      obtain ⟨n1, n2⟩ := f2 hf
      simp only
      by_cases hb : ((queryParams req).1 && !(queryParams req).2.2) = true
      · rw [if_pos hb]
        refine Or.inr ⟨_, rfl, c, hmem, n2 ?_⟩
        simp only [Bool.and_eq_true, Bool.not_eq_true'] at hb
        exact hb.2
      · rw [if_neg hb]
        have hind : (queryParams req).2.2 = true := by
          cases req with
          | none => rfl
          | some o => cases o <;> simp_all [queryParams]
        have := ih (pre ++ [c]) hids' { q with
            remaining := if (q.remaining.get c).isSome then q.remaining
              else q.remaining.set c pre.length }
          ⟨hq.len, hq.fits, fun c' j hj => by
            simp only at hj
            split at hj
            · exact hq.place c' j hj
            · by_cases hc : c' = c
              · subst hc
                rw [AMap.get_set_eq] at hj
                cases hj
                exact ⟨hi, n1⟩
              · rw [AMap.get_set_ne _ _ hc] at hj
                exact hq.place c' j hj, fun c' hc' => by
            simp only
            by_cases hc : c' = c
            · subst hc
              left
              split
              · assumption
              · rw [AMap.get_set_eq]; rfl
            · rcases List.mem_append.mp hc' with hc' | hc'
              · rcases hq.all c' hc' with h1 | h1
                · left
                  split
                  · exact h1
                  · rw [AMap.get_set_ne _ _ hc]; exact h1
                · exact Or.inr h1
              · simp only [List.mem_singleton] at hc'
                exact absurd hc' hc⟩ (fun h0 => by simp [h0] at hind)
        rw [hlen] at this
        exact this

theorem queryRefs_spec {refs : Cid → List Cid} {s : Pins} {req : Option PinMode} {ids : List Cid}
    (hreq : (queryParams req).2.2 = true) (r : Cid) (hr : s.root r = true) (l : List Cid)
    (hl : ∀ x ∈ l, x ∈ refs r) (q : FsQuery) (hq : QueryInv refs s req ids ids q) :
    QueryInv refs s req ids ids (queryRefs r l q) ∧
      ∀ c j, (queryRefs r l q).remaining.get c = some j → q.remaining.get c = some j ∧ c ∉ l := by
  induction l generalizing q with
  | nil => exact ⟨hq, fun c j hj => ⟨hj, by simp⟩⟩
  | cons x xs ih =>
    simp only [queryRefs]
    cases hx : q.remaining.get x with
    | none =>
      obtain ⟨i1, i2⟩ := ih (fun y hy => hl y (by simp [hy])) q hq
      refine ⟨i1, fun c j hj => ⟨(i2 c j hj).1, ?_⟩⟩
      simp only [List.mem_cons, not_or]
      refine ⟨?_, (i2 c j hj).2⟩
      rintro rfl
      rw [(i2 c j hj).1] at hx
      cases hx
    | some i =>
      obtain ⟨p1, p2⟩ := hq.place x i hx
      have hfit : FsFits refs s req x (.indirectFrom r) := by
        have hxr := hl x (by simp)
        refine ⟨?_, fun r' e => by cases e; exact ⟨hr, hxr⟩⟩
        cases req with
        | none => exact ⟨(p2 rfl).1, (p2 rfl).2, r, hr, hxr⟩
        | some o => cases o <;> simp_all [queryParams, FsListed, kindMode]; exact ⟨r, hr, hxr⟩
      obtain ⟨a1, a2, a3⟩ := hq.answer p1 hfit
      obtain ⟨i1, i2⟩ := ih (fun y hy => hl y (by simp [hy]))
        ⟨q.response.set i (some (x, .indirectFrom r)), q.remaining.erase x⟩
        ⟨by simp [hq.len], a1, fun c j hj => by
          simp only [AMap.get_erase] at hj
          split at hj
          · cases hj
          · exact hq.place c j hj, fun c hc => by
          simp only [AMap.get_erase]
          by_cases hcx : c = x
          · subst hcx; exact Or.inr a3
          · rcases hq.all c hc with h1 | h1
            · left; rw [if_neg hcx]; exact h1
            · exact Or.inr (a2 c h1)⟩
      refine ⟨i1, fun c j hj => ?_⟩
      obtain ⟨h1, h2⟩ := i2 c j hj
      simp only [AMap.get_erase] at h1
      split at h1
      · cases h1
      · rename_i hcx
        exact ⟨h1, by simp [hcx, h2]⟩

theorem response_sublist : ∀ (resp : List (Option (Cid × PinKind))) (ids : List Cid),
    resp.length = ids.length → (∀ (j : Nat) e, resp[j]? = some (some e) → ids[j]? = some e.1) →
    ((resp.filterMap id).map Prod.fst).Sublist ids
  | [], [], _, _ => by simp
  | [], _ :: _, h, _ => by simp at h
  | _ :: _, [], h, _ => by simp at h
  | r :: resp, c :: ids, h, hf => by
    have ih := response_sublist resp ids (by simpa using h) (fun j e he => by
      have := hf (j + 1) e (by simpa using he)
      simpa using this)
    cases r with
    | none => simpa using ih.cons c
    | some e =>
      have : c = e.1 := by simpa using hf 0 e (by simp)
      subst this
      simpa using ih

theorem QueryInv.finish {refs : Cid → List Cid} {s : Pins} {req : Option PinMode} {ids : List Cid}
    {q : FsQuery} (h : QueryInv refs s req ids ids q) (h0 : q.remaining = []) :
    ((q.response.filterMap id).map Prod.fst).Sublist ids ∧
    (∀ c ∈ ids, c ∈ (q.response.filterMap id).map Prod.fst) ∧
    (∀ e ∈ q.response.filterMap id, FsFits refs s req e.1 e.2) := by
  refine ⟨response_sublist _ _ h.len (fun j e he => (h.fits j e he).1), fun c hc => ?_, fun e he => ?_⟩
  · rcases h.all c hc with h1 | ⟨j, k, h1⟩
    · simp [h0, AMap.get] at h1
    · simp only [List.mem_map, List.mem_filterMap, id]
      exact ⟨(c, k), ⟨some (c, k), List.mem_of_getElem? h1, rfl⟩, rfl⟩
  · simp only [List.mem_filterMap, id] at he
    obtain ⟨o, ho, rfl⟩ := he
    obtain ⟨j, hj⟩ := List.getElem?_of_mem ho
    exact (h.fits j e hj).2

theorem _root_.Verif.Repo.FsInv.query {refs : Cid → List Cid} {g : FsPins} {s : Pins}
    (h : FsInv refs g s) (ids : List Cid) (req : Option PinMode) :
    (∃ l, g.query ids req = .ok l ∧ (l.map Prod.fst).Sublist ids ∧ (∀ c ∈ ids, c ∈ l.map Prod.fst) ∧
      ∀ e ∈ l, FsFits refs s req e.1 e.2) ∨
    (∃ e, g.query ids req = .error e ∧ ∃ c ∈ ids, ∀ m, ¬ FsListed refs s req c m) := by
  unfold FsPins.query
  simp only
  have h0 : QueryInv refs s req ids [] ⟨List.replicate ids.length none, []⟩ :=
    ⟨by simp, fun j e he => by
      have := List.mem_of_getElem? he
      simp at this, by simp [AMap.get], by simp⟩
  rcases queryFiles_spec h req ids [] ids rfl _ h0 (fun _ => rfl) with
    ⟨q, e, hq, hrem⟩ | ⟨e, he, hc⟩
  · simp only [List.length_nil] at e
    simp only [e]
    by_cases hemp : q.remaining.isEmpty = true
    · rw [if_pos hemp]
      exact Or.inl ⟨_, rfl, hq.finish (List.isEmpty_iff.mp hemp)⟩
    · rw [if_neg hemp]
      have hreq : (queryParams req).2.2 = true := by
        cases hb : (queryParams req).2.2 with
        | true => rfl
        | false => exact absurd (List.isEmpty_iff.mpr (hrem hb)) hemp
      obtain ⟨b, eb, b1, b2⟩ := h.readAll g.listRecursive (fun r hr => by
        rw [mem_listRecursive, h.isRoot] at hr; exact hr)
      simp only [eb]
      have hb1 : ∀ r l, (r, l) ∈ b → s.root r = true ∧ ∀ x, x ∈ l ↔ x ∈ refs r := by
        intro r l hm
        obtain ⟨a1, a2⟩ := b1 r l hm
        rw [mem_listRecursive, h.isRoot] at a1
        exact ⟨a1, a2⟩
      have hfold : ∀ (bs : List (Cid × List Cid)) (q : FsQuery), (∀ p ∈ bs, p ∈ b) →
          QueryInv refs s req ids ids q →
          QueryInv refs s req ids ids
            (bs.foldl (fun q (b : Cid × List Cid) => queryRefs b.1 b.2 q) q) ∧
          ∀ c j, (bs.foldl (fun q (b : Cid × List Cid) => queryRefs b.1 b.2 q) q).remaining.get c = some j →
            q.remaining.get c = some j ∧ ∀ p ∈ bs, c ∉ p.2 := by
        intro bs
        induction bs with
        | nil => intro q _ hq; exact ⟨hq, fun c j hj => ⟨hj, by simp⟩⟩
        | cons p bs ih =>
          intro q hbs hq
          obtain ⟨p1, p2⟩ := hb1 p.1 p.2 (hbs p (by simp))
          obtain ⟨i1, i2⟩ := queryRefs_spec hreq p.1 p1 p.2 (fun x hx => (p2 x).mp hx) q hq
          obtain ⟨j1, j2⟩ := ih (queryRefs p.1 p.2 q) (fun p' hp' => hbs p' (by simp [hp'])) i1
          refine ⟨j1, fun c j hj => ?_⟩
          obtain ⟨k1, k2⟩ := j2 c j hj
          obtain ⟨l1, l2⟩ := i2 c j k1
          refine ⟨l1, fun p' hp' => ?_⟩
          rcases List.mem_cons.mp hp' with rfl | hp'
          · exact l2
          · exact k2 p' hp'
      obtain ⟨f1, f2⟩ := hfold b q (fun _ h => h) hq
      generalize b.foldl (fun q (b : Cid × List Cid) => queryRefs b.1 b.2 q) q = q' at *
      cases hr : q'.remaining with
      | nil => exact Or.inl ⟨_, rfl, f1.finish hr⟩
      | cons x xs =>
        obtain ⟨c, j⟩ := x
        have hget : q'.remaining.get c = some j := by rw [hr]; simp [AMap.get]
        refine Or.inr ⟨_, rfl, c, List.mem_of_getElem? (f1.place c j hget).1, ?_⟩
        have hni : ¬ s.Indirect refs c := by
          rintro ⟨r, hr1, hr2⟩
          obtain ⟨l, hl⟩ := b2 r (by rw [mem_listRecursive, h.isRoot]; exact hr1)
          exact (f2 c j hget).2 (r, l) hl (((hb1 r l hl).2 c).mpr hr2)
        have hnf := (f1.place c j hget).2
        intro m
        cases req with
        | none =>
          obtain ⟨n1, n2⟩ := hnf rfl
          cases m <;> simp [FsListed, FsMode, n1, n2, hni]
        | some o => cases o <;> simp_all [queryParams, FsListed]
  · simp only [List.length_nil] at he
    simp only [he]
    exact Or.inr ⟨e, rfl, hc⟩

theorem sublist_cover_eq : ∀ {l ids : List Cid}, ids.Nodup → l.Sublist ids → (∀ c ∈ ids, c ∈ l) →
    l = ids
  | _, [], _, hs, _ => by simpa using hs
  | l, c :: ids, hn, hs, hc => by
    obtain ⟨n1, n2⟩ := List.nodup_cons.mp hn
    cases hs with
    | cons _ hs => exact absurd (hs.subset (hc c (by simp))) n1
    | cons_cons _ hs =>
      rw [sublist_cover_eq n2 hs (fun a ha => by
        rcases List.mem_cons.mp (hc a (by simp [ha])) with rfl | h
        · exact absurd ha n1
        · exact h)]

/-- **C33** (filesystem): after every history, `query` for distinct cids succeeds exactly when all of
them are listed under the required mode, and then answers each of them in order with a fitting
kind. -/
theorem C33_fs_query (le : Cid → Cid → Bool) (refs : Cid → List Cid) (ops : List PinOp)
    (req : Option PinMode) (ids : List Cid) (hn : ids.Nodup) :
    let p := track (fsStep le refs) [] Pins.none ops
    ((∀ c ∈ ids, ∃ m, FsListed refs p.2 req c m) →
      ∃ l, p.1.query ids req = .ok l ∧ l.map Prod.fst = ids ∧
        ∀ e ∈ l, FsFits refs p.2 req e.1 e.2) ∧
    ((∃ c ∈ ids, ∀ m, ¬ FsListed refs p.2 req c m) → ∃ e, p.1.query ids req = .error e) := by
  intro p
  have h : FsInv refs p.1 p.2 := fs_reachable le refs ops
  rcases h.query ids req with ⟨l, e, h1, h2, h3⟩ | ⟨e, he, c, hc, hnl⟩
  · refine ⟨fun _ => ⟨l, e, sublist_cover_eq hn h1 h2, h3⟩, ?_⟩
    rintro ⟨c, hc, hnl⟩
    obtain ⟨x, hx, rfl⟩ := List.mem_map.mp (h2 c hc)
    exact absurd (h3 x hx).1 (hnl _)
  · refine ⟨fun hall => ?_, fun _ => ⟨e, he⟩⟩
    obtain ⟨m, hm⟩ := hall c hc
    exact absurd hm (hnl m)

example : (track (fsStep exLe exRefs) [] Pins.none
      [.insertRecursive (pcid .v1 1), .insertDirect (pcid .v1 3)]).1.query
      [pcid .v1 9, pcid .v1 3, pcid .v1 1] none =
    .ok [(pcid .v1 9, .indirectFrom (pcid .v1 1)), (pcid .v1 3, .direct),
      (pcid .v1 1, .recursive 0)] := by
  decide +kernel

/-- A repeated cid which is pinned indirectly is answered only once. -/
theorem C33_fs_query_repeated :
    (track (fsStep exLe exRefs) [] Pins.none [.insertRecursive (pcid .v1 1)]).1.query
      [pcid .v1 9, pcid .v1 9] none = .ok [(pcid .v1 9, .indirectFrom (pcid .v1 1))] := by
  decide +kernel

/-! ## The key-value store -/

theorem KvInv.get_iff {refs : Cid → List Cid} {t : KvPins} {s : Pins} (h : KvInv refs t s) (c : Cid)
    (m : PinMode) : (t.get (m, c)).isSome = true ↔ t.getPinnedMode c = some m := by
  rw [h.mode]
  have hd := h.dir c
  have hr := h.rct c
  have hex := h.excl c
  have hi := h.ind c
  cases m with
  | direct => rw [hd]; cases s.direct c <;> cases s.root c <;> simp
  | recursive =>
    rw [hr]
    cases hd2 : s.direct c <;> cases hr2 : s.root c <;> simp_all
  | indirect =>
    cases hg : t.get (.indirect, c) with
    | none => cases s.direct c <;> cases s.root c <;> simp
    | some v =>
      obtain ⟨r, _, _, _, h1, h2⟩ := hi v hg
      simp [h1, h2]

theorem KvInv.list {refs : Cid → List Cid} {t : KvPins} {s : Pins} (h : KvInv refs t s)
    (req : Option PinMode) :
    ((t.list req).map Prod.fst).Nodup ∧
    ∀ c m, (c, m) ∈ t.list req ↔ t.getPinnedMode c = some m ∧ (req = none ∨ req = some m) := by
  have hmem : ∀ c m, (c, m) ∈ t.list req ↔ t.getPinnedMode c = some m ∧ (req = none ∨ req = some m) := by
    intro c m
    unfold KvPins.list
    rw [← reqMode_iff, ← h.get_iff]
    simp only [List.mem_filterMap]
    constructor
    · rintro ⟨⟨⟨m', c'⟩, v⟩, he, h1⟩
      simp only at h1
      split at h1
      · rename_i hq
        cases h1
        exact ⟨by rw [(AMap.mem_iff_get h.uniq _ _).mp he]; rfl, hq⟩
      · cases h1
    · rintro ⟨h1, h2⟩
      cases hg : t.get (m, c) with
      | none => simp [hg] at h1
      | some v => exact ⟨((m, c), v), AMap.mem_of_get hg, by simp [h2]⟩
  refine ⟨?_, hmem⟩
  have key : ∀ (t' : KvPins), (∀ e ∈ t', t.getPinnedMode e.1.2 = some e.1.1) → AMap.Uniq t' →
      ((KvPins.list t' req).map Prod.fst).Nodup := by
    intro t'
    induction t' with
    | nil => intro _ _; simp [KvPins.list]
    | cons e t' ih =>
      intro hm hu
      obtain ⟨u1, u2⟩ := List.nodup_cons.mp (show (e.1 :: AMap.keys t').Nodup from hu)
      have ih' := ih (fun x hx => hm x (by simp [hx])) u2
      unfold KvPins.list at ih' ⊢
      rw [List.filterMap_cons]
      split
      · exact ih'
      · rename_i b hb
        split at hb
        · cases hb
          rw [List.map_cons, List.nodup_cons]
          refine ⟨?_, ih'⟩
          intro hin
          obtain ⟨⟨c, m⟩, h1, h2⟩ := List.mem_map.mp hin
          obtain ⟨e', h3, h4⟩ := List.mem_filterMap.mp h1
          split at h4
          · cases h4
            simp only at h2
            have a1 := hm e (by simp)
            have a2 := hm e' (by simp [h3])
            rw [h2, a1] at a2
            have : e'.1 = e.1 := Prod.ext (by simpa using a2.symm) h2
            exact u1 (this ▸ List.mem_map_of_mem h3)
          · cases h4
        · cases hb
  exact key t (fun e he => by
    rw [← h.get_iff]
    rw [show t.get (e.1.1, e.1.2) = some e.2 from (AMap.mem_iff_get h.uniq _ _).mp he]; rfl) h.uniq

/-- **C33** (key-value): after every history, `list` yields each cid that `is_pinned` reports, once,
with its mode, restricted to the filter; direct and recursive modes are exactly the pins made. -/
theorem C33_kv_list (le : Cid → Cid → Bool) (refs : Cid → List Cid) (ops : List PinOp)
    (req : Option PinMode) :
    let p := trackBy kvAfter (kvStep le refs) [] Pins.none ops
    ((p.1.list req).map Prod.fst).Nodup ∧
    (∀ c m, (c, m) ∈ p.1.list req ↔ (c, m) ∈ p.1.list none ∧ (req = none ∨ req = some m)) ∧
    (∀ c, (∃ m, (c, m) ∈ p.1.list none) ↔ p.1.isPinned c = true) ∧
    (∀ c, (c, .direct) ∈ p.1.list none ↔ p.2.direct c = true) ∧
    (∀ c, (c, .recursive) ∈ p.1.list none ↔ p.2.root c = true) ∧
    (∀ c, (c, .indirect) ∈ p.1.list none →
      p.2.direct c = false ∧ p.2.root c = false ∧ p.2.Indirect refs c) := by
  intro p
  have h : KvInv refs p.1 p.2 := kv_reachable le refs ops
  have hl := fun req => (h.list req).2
  refine ⟨(h.list req).1, fun c m => ?_, fun c => ?_, fun c => ?_, fun c => ?_, fun c hc => ?_⟩
  · rw [hl, hl]; simp
  · simp only [hl]
    unfold KvPins.isPinned
    rw [Option.isSome_iff_exists]
    simp
  · rw [hl, ← h.get_iff, h.dir]; simp
  · rw [hl, ← h.get_iff, h.rct]; simp
  · rw [hl, ← h.get_iff] at hc
    cases hg : p.1.get (.indirect, c) with
    | none => simp [hg] at hc
    | some v =>
      obtain ⟨r, _, h1, h2, h3, h4⟩ := h.ind c v hg
      exact ⟨h3, h4, r, h1, h2⟩

/-- An answer of the key-value store fits. -/
def KvFits (refs : Cid → List Cid) (s : Pins) (c : Cid) : PinKind → Prop
  | .recursive n => s.root c = true ∧ n = 0
  | .recursiveIntention => False
  | .indirectFrom r => s.root r = true ∧ c ∈ refs r ∧ s.root c = false ∧ s.direct c = false
  | .direct => s.direct c = true

theorem KvInv.queryOne {refs : Cid → List Cid} {t : KvPins} {s : Pins} (h : KvInv refs t s)
    (req : Option PinMode) (c : Cid) :
    (∀ k, t.queryOne req c = some k → t.getPinnedMode c = some (kindMode k) ∧
      (req = none ∨ req = some (kindMode k)) ∧ KvFits refs s c k) ∧
    (t.queryOne req c = none → ∀ m, t.getPinnedMode c = some m → ¬ (req = none ∨ req = some m)) := by
  unfold KvPins.queryOne
  cases hm : t.getPinnedMode c with
  | none => simp
  | some m =>
    have hg := (h.get_iff c m).mpr hm
    have hd := h.dir c
    have hr := h.rct c
    simp only
    by_cases hq : reqMode req m = true
    · rw [if_pos hq]
      rw [reqMode_iff] at hq
      cases m with
      | direct =>
        refine ⟨fun k e => ?_, by simp⟩
        cases e
        exact ⟨rfl, hq, by rw [KvFits, ← hd]; exact hg⟩
      | recursive =>
        refine ⟨fun k e => ?_, by simp⟩
        cases e
        exact ⟨rfl, hq, by rw [← hr]; exact hg, rfl⟩
      | indirect =>
        cases hv : t.get (.indirect, c) with
        | none => simp [hv] at hg
        | some v =>
          obtain ⟨r, rfl, h1, h2, h3, h4⟩ := h.ind c v hv
          refine ⟨fun k e => ?_, by simp⟩
          simp only [Option.getD_some, Option.map_some, Option.some.injEq] at e
          subst e
          exact ⟨rfl, hq, h1, h2, h4, h3⟩
    · rw [if_neg hq]
      rw [reqMode_iff] at hq
      refine ⟨by simp, fun _ m' e => ?_⟩
      cases e
      exact hq

/-- **C33** (key-value): after every history, `query` answers in order exactly the asked cids which
`list` with the same filter shows, with fitting kinds. -/
theorem C33_kv_query_partial (le : Cid → Cid → Bool) (refs : Cid → List Cid) (ops : List PinOp)
    (req : Option PinMode) (ids : List Cid) :
    let p := trackBy kvAfter (kvStep le refs) [] Pins.none ops
    (∀ e ∈ p.1.query ids req, (e.1, kindMode e.2) ∈ p.1.list req ∧ KvFits refs p.2 e.1 e.2) ∧
    ((p.1.query ids req).map Prod.fst) =
      ids.filter (fun c => decide (∃ e ∈ p.1.list req, e.1 = c)) := by
  intro p
  have h : KvInv refs p.1 p.2 := kv_reachable le refs ops
  refine ⟨fun e he => ?_, ?_⟩
  · unfold KvPins.query at he
    obtain ⟨c, _, he⟩ := List.mem_filterMap.mp he
    obtain ⟨k, hk, rfl⟩ := Option.map_eq_some_iff.mp he
    obtain ⟨h1, h2, h3⟩ := (h.queryOne req c).1 k hk
    exact ⟨((h.list req).2 _ _).mpr ⟨h1, h2⟩, h3⟩
  · unfold KvPins.query
    induction ids with
    | nil => rfl
    | cons c cs ih =>
      rw [List.filterMap_cons, List.filter_cons]
      cases hk : p.1.queryOne req c with
      | none =>
        have hno : ¬ ∃ e ∈ p.1.list req, e.1 = c := by
          rintro ⟨⟨c', m⟩, he, rfl⟩
          obtain ⟨h1, h2⟩ := ((h.list req).2 _ _).mp he
          exact (h.queryOne req c').2 hk m h1 h2
        rw [if_neg (by simpa using hno)]
        simpa using ih
      | some k =>
        obtain ⟨h1, h2, _⟩ := (h.queryOne req c).1 k hk
        have hyes : ∃ e ∈ p.1.list req, e.1 = c :=
          ⟨(c, kindMode k), ((h.list req).2 _ _).mpr ⟨h1, h2⟩, rfl⟩
        rw [if_pos (by simpa using hyes)]
        simpa using ih

/-- **C33 fails** for the key-value store: querying a cid that is not pinned succeeds with no
answer, while the in-memory store reports an error. -/
theorem C33_kv_query_never_fails :
    KvPins.query [] [pcid .v1 9] none = [] ∧
    MemPins.query [] [pcid .v1 9] none = .error (.isNotPinned (pcid .v1 9)) := by
  decide +kernel

end Verif.Props
