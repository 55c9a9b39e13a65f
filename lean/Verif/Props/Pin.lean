import Verif.Ipfs.Pin
import Verif.Props.Refs
import Verif.Props.RemoveBlock
import Verif.Props.PinsFail

/-!
# C69: what is pinned stays, with everything below it

Blocks, the walk over their links, the pin stores and the removal of blocks together.
-/

namespace Verif.Props

open Verif Verif.Ipld Verif.Repo Verif.Spec Verif.Ipfs.Refs Verif.Ipfs.Pin

variable {σ ε : Type}

/-! ### Specification -/

/-- The block of `c` has a link to `d`; `content` is the data of every block. -/
def LinkTo (env : PinEnv) (content : Cid → Bytes) (c d : Cid) : Prop :=
  ∃ name, DocLink env.ipld env.size c (content c) name d

/-- `d` is below `c`. -/
inductive Below (env : PinEnv) (content : Cid → Bytes) (c : Cid) : Cid → Prop
  | link {d} : LinkTo env content c d → Below env content c d
  | step {d d'} : Below env content c d → LinkTo env content d d' → Below env content c d'

/-- The cids in use: no two have the same hash, links lead from them to them, and requests are about
them and what they stand for. -/
structure InUse (env : PinEnv) (content : Cid → Bytes) (U : Cid → Prop) (ops : List NodeOp) : Prop where
  apart : ∀ a b, U a → U b → a.mh = b.mh → a = b
  closed : ∀ a b, U a → LinkTo env content a b → U b
  put : ∀ b, .put b ∈ ops → U b.cid ∧ b.data = content b.cid
  pin : ∀ c r, .pin c r ∈ ops → U c
  unpin : ∀ c r, .unpin c r ∈ ops → U c
  remove : ∀ c, .remove c ∈ ops → U c

/-- A history: the repo after it, and a specification state moved along by the requests and whether
they went well. -/
def nodeRun {S : Type} (env : PinEnv) (st : PinStore σ ε) (after : S → NodeOp → Bool → S) (s : RepoState σ) (k : S) :
    List NodeOp → RepoState σ × S
  | [] => (s, k)
  | op :: ops => nodeRun env st after (nodeStep env st s op).2 (after k op (nodeStep env st s op).1) ops

/-- What a user can rely on being kept. -/
structure KeptPins where
  direct : Cid → Bool := fun _ => false
  root : Cid → Bool := fun _ => false
  /-- pinned directly, but then a recursive pin of it has failed -/
  tried : Cid → Bool := fun _ => false

/-- `f` with the value at `c` changed. -/
def upd (f : Cid → Bool) (c : Cid) (b : Bool) : Cid → Bool := fun a => if a = c then b else f a

/-- What requests change. -/
def KeptPins.after (k : KeptPins) : NodeOp → Bool → KeptPins
  | .pin c false, true => { k with direct := upd k.direct c true }
  | .pin c true, true => ⟨upd k.direct c false, upd k.root c true, upd k.tried c false⟩
  | .pin c true, false => ⟨upd k.direct c false, k.root, upd k.tried c (k.direct c || k.tried c)⟩
  | .unpin c false, true => { k with direct := upd k.direct c false, tried := upd k.tried c false }
  | .unpin c true, true => ⟨upd k.direct c false, upd k.root c false, upd k.tried c false⟩
  | .unpin c true, false => { k with tried := upd k.tried c false }
  | _, _ => k

/-- The pins after a request, if failing means that nothing happens. -/
def pinsMoved (p : Pins) : NodeOp → Bool → Pins
  | .pin c false, true => p.after (.insertDirect c)
  | .pin c true, true => p.after (.insertRecursive c)
  | .unpin c false, true => p.after (.removeDirect c)
  | .unpin c true, true => p.after (.removeRecursive c)
  | _, _ => p

/-! ### The walk -/

/-- Only edges. -/
def AllEdges (items : List Item) : Prop := ∀ i ∈ items, ∃ e, i = .edge e

theorem stream_stopped {o : Opts} {look : Cid → Look} (fuel : Nat) (work : List Work) (vis : List Cid) (items : List Item)
    (h : loop o look fuel work vis = some (items, .stopped)) : ∃ c, Item.notFound c ∈ items := by
  induction fuel generalizing work vis items with
  | zero => simp [loop] at h
  | succ fuel ih =>
    cases work with
    | nil => simp [loop] at h
    | cons w work =>
      have hmap : ∀ (i : Item) (r : Option (List Item × Ending)),
          r.map (fun r => (i :: r.1, r.2)) = some (items, Ending.stopped) → ∃ l, r = some (l, .stopped) ∧ items = i :: l := by
        intro i r hr
        obtain ⟨⟨l, en⟩, h1, h2⟩ := Option.map_eq_some_iff.mp hr
        simp only [Prod.mk.injEq] at h2
        exact ⟨l, by rw [h1, h2.2], h2.1.symm⟩
      have hcons : ∀ (i : Item) (w' : List Work) (v' : List Cid),
          (loop o look fuel w' v').map (fun r => (i :: r.1, r.2)) = some (items, Ending.stopped) →
          ∃ c, Item.notFound c ∈ items := by
        intro i w' v' hr
        obtain ⟨l, h1, rfl⟩ := hmap i _ hr
        obtain ⟨c, hc⟩ := ih _ _ _ h1
        exact ⟨c, List.mem_cons_of_mem _ hc⟩
      rw [loop] at h
      split at h
      · exact ih _ _ _ h
      · cases h
      · split at h
        · split at h
          · exact ih _ _ _ h
          · simp only [Option.some.injEq, Prod.mk.injEq] at h
            exact ⟨_, by rw [← h.1]; exact List.mem_cons_self⟩
        · exact hcons _ _ _ h
        · split at h
          · exact hcons _ _ _ h
          · cases h
        · split at h
          · exact hcons _ _ _ h
          · exact hcons _ _ _ h

theorem refs_walk (look : Cid → Look) (fuel : Nat) (roots : List (Cid × List (Option Bytes × Cid))) :
    refs walkOpts look fuel roots = loop walkOpts look fuel (enqueueRoots true roots []).1 (enqueueRoots true roots []).2 := by
  simp [refs, walkOpts]

/-- A stream without errors comes from a walk that met only readable blocks. -/
theorem stream_ok {look : Cid → Look} {fuel : Nat} {roots : List (Cid × List (Option Bytes × Cid))}
    {r : List Item × Ending} (h : refs walkOpts look fuel roots = some r) (hn : none ∉ stream r) :
    r.2 = .done ∧ AllEdges r.1 := by
  obtain ⟨items, en⟩ := r
  have hall : AllEdges items := by
    intro i hi
    cases i with
    | edge e => exact ⟨e, rfl⟩
    | blockErr e =>
      exact absurd (List.mem_append.mpr (Or.inl (List.mem_map.mpr ⟨_, hi, rfl⟩))) hn
    | notFound c =>
      exact absurd (List.mem_append.mpr (Or.inl (List.mem_map.mpr ⟨_, hi, rfl⟩))) hn
  refine ⟨?_, hall⟩
  cases en with
  | done => rfl
  | panic => exact absurd (by simp [stream]) hn
  | stopped =>
    rw [refs_walk] at h
    obtain ⟨c, hc⟩ := stream_stopped _ _ _ _ h
    obtain ⟨e, he⟩ := hall _ hc
    cases he

theorem stream_edges {items : List Item} (h : AllEdges items) :
    stream (items, .done) = ((edgesOf items).map Edge.destination).map some := by
  simp only [stream, reduceCtorEq, if_false, List.append_nil]
  induction items with
  | nil => rfl
  | cons i items ih =>
    obtain ⟨e, rfl⟩ := h i (by simp)
    have := ih (fun j hj => h j (by simp [hj]))
    simp only [List.map_cons, edgesOf, List.filterMap_cons] at this ⊢
    rw [this]
    simp [destination]

/-- A walk that met only readable blocks goes the same way wherever these blocks are. -/
theorem loop_transfer {o : Opts} {l1 l2 : Cid → Look} {P : Cid → Prop} (hd : o.download = false) (hm : o.maxDepth = none)
    (hu : o.unique = true) (hl : ∀ c ls, P c → l1 c = .links ls → l2 c = .links ls ∧ ∀ l ∈ ls, P l.2)
    (fuel : Nat) (work : List Work) (vis : List Cid) (items : List Item) (hw : ∀ w ∈ work, P w.edge.destination)
    (h : loop o l1 fuel work vis = some (items, .done)) (ha : AllEdges items) (b : Bool) :
    loop { o with download := b } l2 fuel work vis = some (items, .done) := by
  induction fuel generalizing work vis items with
  | zero => simp [loop] at h
  | succ fuel ih =>
    cases work with
    | nil => simpa [loop] using h
    | cons w work =>
      rw [loop] at h ⊢
      simp only [traverse, hm] at h ⊢
      cases hc : l1 w.edge.destination with
      | missing => simp [hc, hd] at h
      | broken x =>
        simp only [hc] at h
        obtain ⟨⟨l, en⟩, h1, h2⟩ := Option.map_eq_some_iff.mp h
        simp only [Prod.mk.injEq] at h2
        rw [← h2.1] at ha
        obtain ⟨e, he⟩ := ha _ List.mem_cons_self
        cases he
      | panic => simp [hc] at h
      | links ls =>
        obtain ⟨g1, g2⟩ := hl _ _ (hw w List.mem_cons_self) hc
        simp only [hc, g1, reduceCtorEq, if_false] at h ⊢
        obtain ⟨⟨l, en⟩, h1, h2⟩ := Option.map_eq_some_iff.mp h
        simp only [Prod.mk.injEq] at h2
        obtain ⟨rfl, rfl⟩ := h2
        have e := ih _ _ _ (by
          intro w' hw'
          rcases List.mem_append.mp hw' with h3 | h3
          · exact hw w' (List.mem_cons_of_mem _ h3)
          · rw [hu] at h3
            obtain ⟨-, -, name, h4, -⟩ := (enqueue_unique _ _ _ _).1 w' h3
            exact g2 _ h4) h1 (fun i hi => ha i (List.mem_cons_of_mem _ hi))
        simp only [hm] at e
        rw [e]
        rfl

/-- Everything queued is reported, with all it links to. -/
theorem loop_covers {look : Cid → Look} (fuel : Nat) (work : List Work) (vis : List Cid) (items : List Item)
    (h : loop walkOpts look fuel work vis = some (items, .done)) (ha : AllEdges items) :
    (∀ w ∈ work, ∃ e ∈ edgesOf items, e.destination = w.edge.destination) ∧
    (∀ e ∈ edgesOf items, ∃ ls, look e.destination = .links ls ∧
      ∀ l ∈ ls, l.2 ∈ vis ∨ ∃ e' ∈ edgesOf items, e'.destination = l.2) ∧
    (∀ P : Cid → Prop, (∀ w ∈ work, P w.edge.destination) → (∀ c ls, P c → look c = .links ls → ∀ l ∈ ls, P l.2) →
      ∀ e ∈ edgesOf items, P e.destination) := by
  induction fuel generalizing work vis items with
  | zero => simp [loop] at h
  | succ fuel ih =>
    cases work with
    | nil =>
      simp only [loop, Option.some.injEq, Prod.mk.injEq, and_true] at h
      subst h
      simp [edgesOf]
    | cons w work =>
      rw [loop] at h
      simp only [traverse, walkOpts] at h
      cases hc : look w.edge.destination with
      | missing => simp [hc] at h
      | broken x =>
        simp only [hc] at h
        obtain ⟨⟨l, en⟩, h1, h2⟩ := Option.map_eq_some_iff.mp h
        simp only [Prod.mk.injEq] at h2
        rw [← h2.1] at ha
        obtain ⟨e, he⟩ := ha _ List.mem_cons_self
        cases he
      | panic => simp [hc] at h
      | links ls =>
        simp only [hc, reduceCtorEq, if_false] at h
        obtain ⟨⟨l, en⟩, h1, h2⟩ := Option.map_eq_some_iff.mp h
        simp only [Prod.mk.injEq] at h2
        obtain ⟨rfl, rfl⟩ := h2
        obtain ⟨i1, i2, i3⟩ := ih _ _ _ h1 (fun i hi => ha i (List.mem_cons_of_mem _ hi))
        have he : edgesOf (Item.edge w.edge :: l) = w.edge :: edgesOf l := by simp [edgesOf]
        obtain ⟨q1, -, q3, q4⟩ := enqueue_unique (w.depth + 1) w.edge.destination ls vis
        rw [he]
        refine ⟨?_, ?_, ?_⟩
        · intro w' hw'
          rcases List.mem_cons.mp hw' with rfl | hw'
          · exact ⟨_, List.mem_cons_self, rfl⟩
          · obtain ⟨e, h3, h4⟩ := i1 w' (List.mem_append.mpr (Or.inl hw'))
            exact ⟨e, List.mem_cons_of_mem _ h3, h4⟩
        · have key : ∀ c, c ∈ (enqueue true (w.depth + 1) w.edge.destination ls vis).2 →
              c ∈ vis ∨ ∃ e' ∈ w.edge :: edgesOf l, e'.destination = c := by
            intro c h3
            rcases (q3 c).mp h3 with h4 | ⟨w', h4, h5⟩
            · exact Or.inl h4
            · obtain ⟨e, h6, h7⟩ := i1 w' (List.mem_append.mpr (Or.inr h4))
              exact Or.inr ⟨e, List.mem_cons_of_mem _ h6, h7.trans h5⟩
          intro e he'
          rcases List.mem_cons.mp he' with rfl | he'
          · exact ⟨ls, hc, fun x hx => key _ (q4 x hx)⟩
          · obtain ⟨ls', h3, h4⟩ := i2 e he'
            refine ⟨ls', h3, fun x hx => ?_⟩
            rcases h4 x hx with h5 | ⟨e', h5, h6⟩
            · exact key _ h5
            · exact Or.inr ⟨e', List.mem_cons_of_mem _ h5, h6⟩
        · intro P hw hP e he'
          rcases List.mem_cons.mp he' with rfl | he'
          · exact hw w List.mem_cons_self
          · refine i3 P ?_ hP e he'
            intro w' hw'
            rcases List.mem_append.mp hw' with h3 | h3
            · exact hw w' (List.mem_cons_of_mem _ h3)
            · obtain ⟨-, -, name, h4, -⟩ := q1 w' h3
              exact hP _ _ (hw w List.mem_cons_self) hc _ h4

/-- The same with panics taken for missing blocks. -/
def calmLook (look : Cid → Look) (c : Cid) : Look :=
  match look c with
  | .panic => .missing
  | x => x

/-- The destinations of a walk. -/
def dests (items : List Item) : List Cid := (edgesOf items).map Edge.destination

/-- What a walk that met only readable blocks has found. -/
theorem walk_found {look : Cid → Look} {fuel : Nat} {c : Cid} {ls : List (Option Bytes × Cid)} {items : List Item}
    (h : refs walkOpts look fuel [(c, ls)] = some (items, .done)) (ha : AllEdges items) :
    (dests items).Nodup ∧ (∀ l ∈ ls, l.2 ∈ dests items) ∧
    (∀ d ∈ dests items, ∃ ls', look d = .links ls' ∧ ∀ l ∈ ls', l.2 ∈ dests items) ∧
    (∀ P : Cid → Prop, (∀ l ∈ ls, P l.2) → (∀ c ls, P c → look c = .links ls → ∀ l ∈ ls, P l.2) →
      ∀ d ∈ dests items, P d) := by
  have h' := h
  rw [refs_walk] at h
  obtain ⟨c1, c2, c3⟩ := loop_covers _ _ _ _ h ha
  obtain ⟨q1, -, q3, q4⟩ := enqueueRoots_unique look [(c, ls)] [(c, ls)] (fun _ h => h) []
  have hvis : ∀ x, x ∈ (enqueueRoots true [(c, ls)] []).2 → x ∈ dests items := by
    intro x hx
    rcases (q3 x).mp hx with h1 | ⟨w, h1, h2⟩
    · cases h1
    · obtain ⟨e, h3, h4⟩ := c1 w h1
      exact List.mem_map.mpr ⟨e, h3, h4.trans h2⟩
  refine ⟨?_, ?_, ?_, ?_⟩
  · have h1 := loop_transfer (o := walkOpts) (l1 := look) (l2 := calmLook look) (P := fun _ => True) rfl rfl rfl (by
      intro x ls' _ hx
      simp [calmLook, hx]) _ _ _ _ (fun _ _ => trivial) h ha true
    have h2 : refs { walkOpts with download := true } (calmLook look) fuel [(c, ls)] = some (items, .done) := by
      rw [refs, if_neg (by simp [walkOpts])]
      exact h1
    refine (C38_unique _ _ _ _ rfl rfl (by simp [walkOpts]) ?_ _ _ h2).2.1
    intro n e _
    unfold calmLook
    split <;> simp_all
  · intro l hl
    exact hvis _ (q4 ⟨c, l.2, l.1⟩ (.root (List.mem_singleton.mpr rfl) hl))
  · intro d hd
    obtain ⟨e, he, rfl⟩ := List.mem_map.mp hd
    obtain ⟨ls', h1, h2⟩ := c2 e he
    refine ⟨ls', h1, fun l hl => ?_⟩
    rcases h2 l hl with h3 | ⟨e', h3, h4⟩
    · exact hvis _ h3
    · exact List.mem_map.mpr ⟨e', h3, h4⟩
  · intro P hr hP d hd
    obtain ⟨e, he, rfl⟩ := List.mem_map.mp hd
    refine c3 P ?_ hP e he
    intro w hw
    have hf := (q1 w hw).2.2
    generalize w.edge = ed at hf
    cases hf with
    | root h1 h2 =>
      obtain ⟨rfl, rfl⟩ := Prod.mk.inj (List.mem_singleton.mp h1)
      exact hr _ h2

/-- A walk in one graph repeated in another. -/
theorem refs_transfer {l1 l2 : Cid → Look} {P : Cid → Prop}
    (hl : ∀ c ls, P c → l1 c = .links ls → l2 c = .links ls ∧ ∀ l ∈ ls, P l.2)
    {fuel : Nat} {c : Cid} {ls : List (Option Bytes × Cid)} {items : List Item} (hw : ∀ l ∈ ls, P l.2)
    (h : refs walkOpts l1 fuel [(c, ls)] = some (items, .done)) (ha : AllEdges items) :
    refs walkOpts l2 fuel [(c, ls)] = some (items, .done) := by
  rw [refs_walk] at h ⊢
  refine loop_transfer (o := walkOpts) rfl rfl rfl hl _ _ _ _ ?_ h ha false
  intro w hw'
  have hf := ((enqueueRoots_unique l1 [(c, ls)] [(c, ls)] (fun _ h => h) []).1 w hw').2.2
  generalize w.edge = ed at hf
  cases hf with
  | root h1 h2 =>
    obtain ⟨rfl, rfl⟩ := Prod.mk.inj (List.mem_singleton.mp h1)
    exact hw _ h2

/-! ### Trees of blocks -/

/-- The graph of all blocks. -/
def fullLook (env : PinEnv) (content : Cid → Bytes) : Cid → Look :=
  look env.ipld env.size (fun c => some (content c))

/-- Whether it is an edge. -/
def isEdge : Item → Bool
  | .edge _ => true
  | _ => false

theorem allEdges_iff (items : List Item) : items.all isEdge = true ↔ AllEdges items := by
  simp only [List.all_eq_true, AllEdges]
  refine forall_congr' fun i => forall_congr' fun _ => ?_
  cases i <;> simp [isEdge]

/-- The result of a walk without errors. -/
def wholeWalk : Option (List Item × Ending) → List Cid
  | some (items, .done) => if items.all isEdge then dests items else []
  | _ => []

/-- What is below a block, if all of it can be read. -/
def treeRefs (env : PinEnv) (content : Cid → Bytes) (c : Cid) : List Cid :=
  match fullLook env content c with
  | .links ls => wholeWalk (refs walkOpts (fullLook env content) env.fuel [(c, ls)])
  | _ => []

/-- Everything below `c` can be read. -/
def Whole (env : PinEnv) (content : Cid → Bytes) (c : Cid) (ls : List (Option Bytes × Cid)) (items : List Item) : Prop :=
  fullLook env content c = .links ls ∧ refs walkOpts (fullLook env content) env.fuel [(c, ls)] = some (items, .done) ∧
    AllEdges items

theorem Whole.treeRefs {env : PinEnv} {content : Cid → Bytes} {c : Cid} {ls : List (Option Bytes × Cid)} {items : List Item}
    (h : Whole env content c ls items) : treeRefs env content c = dests items := by
  obtain ⟨h1, h2, h3⟩ := h
  simp only [Props.treeRefs, h1, h2, wholeWalk]
  rw [if_pos ((allEdges_iff _).mpr h3)]

theorem treeRefs_nodup (env : PinEnv) (content : Cid → Bytes) (c : Cid) : (treeRefs env content c).Nodup := by
  unfold treeRefs
  split
  · unfold wholeWalk
    split
    · rename_i h
      split
      · rename_i ha
        exact (walk_found h ((allEdges_iff _).mp ha)).1
      · exact List.nodup_nil
    · exact List.nodup_nil
  · exact List.nodup_nil

theorem fullLook_links {env : PinEnv} {content : Cid → Bytes} {c : Cid} {ls : List (Option Bytes × Cid)}
    (h : fullLook env content c = .links ls) (d : Cid) : (∃ l ∈ ls, l.2 = d) ↔ LinkTo env content c d := by
  obtain ⟨data, h1, h2⟩ := C38_links _ _ _ _ _ h
  simp only [Option.some.injEq] at h1
  subst h1
  constructor
  · rintro ⟨⟨n, x⟩, h3, rfl⟩
    exact ⟨n, (h2 n x).mp h3⟩
  · rintro ⟨n, h3⟩
    exact ⟨(n, d), (h2 n d).mpr h3, rfl⟩

/-- The walk finds exactly what is below. -/
theorem Whole.below {env : PinEnv} {content : Cid → Bytes} {c : Cid} {ls : List (Option Bytes × Cid)} {items : List Item}
    (h : Whole env content c ls items) (d : Cid) : d ∈ Props.treeRefs env content c ↔ Below env content c d := by
  rw [h.treeRefs]
  obtain ⟨h1, h2, h3⟩ := h
  obtain ⟨-, w2, w3, w4⟩ := walk_found h2 h3
  constructor
  · intro hd
    refine w4 (Below env content c) ?_ ?_ d hd
    · intro l hl
      exact .link ((fullLook_links h1 _).mp ⟨l, hl, rfl⟩)
    · intro x lx hx hlx l hl
      exact .step hx ((fullLook_links hlx _).mp ⟨l, hl, rfl⟩)
  · intro hd
    induction hd with
    | link hl =>
      obtain ⟨l, hm, rfl⟩ := (fullLook_links h1 _).mpr hl
      exact w2 l hm
    | step _ hl ih =>
      obtain ⟨lx, h4, h5⟩ := w3 _ ih
      obtain ⟨l, hm, rfl⟩ := (fullLook_links h4 _).mpr hl
      exact h5 l hm

/-- The blocks of the cids in use are what they stand for. -/
def HoldsData (content : Cid → Bytes) (U : Cid → Prop) (blocks : MemBlocks) : Prop :=
  ∀ c, U c → ∀ b, blocks.getBlock c = some b → b.data = content c

theorem repoLook_full {env : PinEnv} {content : Cid → Bytes} {U : Cid → Prop} {blocks : MemBlocks}
    (hb : HoldsData content U blocks) {c : Cid} (hc : U c) :
    repoLook env blocks c = if (blocks.getBlock c).isSome then fullLook env content c else .missing := by
  unfold repoLook fullLook look
  cases hg : blocks.getBlock c with
  | none => simp [hg]
  | some b => simp [hg, hb c hc b hg]

/-- What the pin store is given for a block of the repo: a stream that fails, or everything below, all of it there. -/
theorem descendants_cases {env : PinEnv} {content : Cid → Bytes} {U : Cid → Prop} {blocks : MemBlocks}
    (hU : ∀ a b, U a → LinkTo env content a b → U b) (hb : HoldsData content U blocks) {c : Cid} (hc : U c) {b : Block}
    (hg : blocks.getBlock c = some b) {L : Repo.Refs} (h : descendants (ε := ε) env blocks c b.data = .ok L) :
    none ∈ L ∨ (L = (treeRefs env content c).map some ∧ (∃ ls items, Whole env content c ls items) ∧
      ∀ d ∈ treeRefs env content c, U d ∧ (blocks.getBlock d).isSome = true) := by
  by_cases hn : none ∈ L
  · exact Or.inl hn
  right
  rw [hb c hc b hg] at h
  unfold descendants at h
  split at h
  · cases h
  rename_i doc hdoc
  split at h
  · cases h
  rename_i ls hls
  have hfull : fullLook env content c = .links ls := by simp [fullLook, look, hdoc, hls]
  split at h
  · cases h
  rename_i r hr
  simp only [Except.ok.injEq] at h
  subst h
  obtain ⟨h1, h2⟩ := stream_ok hr hn
  obtain ⟨items, en⟩ := r
  simp only at h1 h2
  subst h1
  have hroot : ∀ l ∈ ls, U l.2 := fun l hl => hU c _ hc ((fullLook_links hfull _).mp ⟨l, hl, rfl⟩)
  have hstep : ∀ x lx, U x → repoLook env blocks x = .links lx → fullLook env content x = .links lx ∧ ∀ l ∈ lx, U l.2 := by
    intro x lx hx hlx
    rw [repoLook_full hb hx] at hlx
    split at hlx
    · exact ⟨hlx, fun l hl => hU x _ hx ((fullLook_links hlx _).mp ⟨l, hl, rfl⟩)⟩
    · cases hlx
  have hw : Whole env content c ls items := ⟨hfull, refs_transfer hstep hroot hr h2, h2⟩
  rw [hw.treeRefs]
  obtain ⟨-, w2, w3, w4⟩ := walk_found hr h2
  refine ⟨stream_edges h2, ⟨ls, items, hw⟩, fun d hd => ?_⟩
  have hud : U d := w4 U hroot (fun x lx hx hlx => (hstep x lx hx hlx).2) d hd
  refine ⟨hud, ?_⟩
  obtain ⟨ld, h3, -⟩ := w3 d hd
  rw [repoLook_full hb hud] at h3
  split at h3
  · assumption
  · cases h3

/-- If everything below is there, the stream is complete. -/
theorem descendants_whole {env : PinEnv} {content : Cid → Bytes} {U : Cid → Prop} {blocks : MemBlocks}
    (hb : HoldsData content U blocks) {c : Cid} (hc : U c) {ls : List (Option Bytes × Cid)} {items : List Item}
    (hw : Whole env content c ls items) (hp : ∀ d ∈ treeRefs env content c, U d ∧ (blocks.getBlock d).isSome = true)
    {b : Block} (hg : blocks.getBlock c = some b) :
    descendants (ε := ε) env blocks c b.data = .ok ((treeRefs env content c).map some) := by
  have he := hw.treeRefs
  obtain ⟨h1, h2, h3⟩ := hw
  obtain ⟨-, w2, w3, w4⟩ := walk_found h2 h3
  rw [hb c hc b hg]
  have hr : refs walkOpts (repoLook env blocks) env.fuel [(c, ls)] = some (items, .done) := by
    refine refs_transfer (P := fun d => d ∈ dests items) ?_ w2 h2 h3
    intro x lx hx hlx
    obtain ⟨hu, hs⟩ := hp x (by rw [he]; exact hx)
    rw [repoLook_full hb hu, if_pos hs]
    refine ⟨hlx, ?_⟩
    obtain ⟨ly, h4, h5⟩ := w3 x hx
    rw [hlx, Look.links.injEq] at h4
    subst h4
    exact h5
  unfold fullLook look at h1
  simp only at h1
  unfold descendants
  split at h1
  · cases h1
  rename_i doc hdoc
  split at h1
  · cases h1
  rename_i ls' hls
  rw [Look.links.injEq] at h1
  subst h1
  simp only [hdoc, hls, hr, he]
  rw [stream_edges h3]
  rfl

/-- A walk over readable blocks meets no error. -/
theorem walk_fine {look : Cid → Look} {P : Cid → Prop}
    (hP : ∀ c, P c → ∃ ls, look c = .links ls ∧ ∀ l ∈ ls, P l.2) {fuel : Nat} {c : Cid} {ls : List (Option Bytes × Cid)}
    (hw : ∀ l ∈ ls, P l.2) {r : List Item × Ending} (h : refs walkOpts look fuel [(c, ls)] = some r) : none ∉ stream r := by
  have key : ∀ (fuel : Nat) (work : List Work) (vis : List Cid) (r : List Item × Ending),
      (∀ w ∈ work, P w.edge.destination) → loop walkOpts look fuel work vis = some r → r.2 = .done ∧ AllEdges r.1 := by
    intro fuel
    induction fuel with
    | zero => intro work vis r _ h; simp [loop] at h
    | succ fuel ih =>
      intro work vis r hw h
      cases work with
      | nil =>
        simp only [loop, Option.some.injEq] at h
        subst h
        exact ⟨rfl, by simp [AllEdges]⟩
      | cons w work =>
        obtain ⟨lx, h1, h2⟩ := hP _ (hw w List.mem_cons_self)
        rw [loop] at h
        simp only [traverse, walkOpts, h1, reduceCtorEq, if_false] at h
        obtain ⟨⟨l, en⟩, h3, h4⟩ := Option.map_eq_some_iff.mp h
        subst h4
        obtain ⟨i1, i2⟩ := ih _ _ _ (by
          intro w' hw'
          rcases List.mem_append.mp hw' with h5 | h5
          · exact hw w' (List.mem_cons_of_mem _ h5)
          · obtain ⟨-, -, name, h6, -⟩ := (enqueue_unique _ _ _ _).1 w' h5
            exact h2 _ h6) h3
        refine ⟨i1, fun i hi => ?_⟩
        rcases List.mem_cons.mp hi with rfl | hi
        · exact ⟨_, rfl⟩
        · exact i2 i hi
  rw [refs_walk] at h
  obtain ⟨k1, k2⟩ := key _ _ _ r (by
    intro w hw'
    have hf := ((enqueueRoots_unique look [(c, ls)] [(c, ls)] (fun _ h => h) []).1 w hw').2.2
    generalize w.edge = ed at hf
    cases hf with
    | root h1 h2 =>
      obtain ⟨rfl, rfl⟩ := Prod.mk.inj (List.mem_singleton.mp h1)
      exact hw _ h2) h
  obtain ⟨items, en⟩ := r
  simp only at k1 k2
  subst k1
  rw [stream_edges k2]
  simp

/-! ### Any pin store that keeps its promises -/

/-- A pin store that says what is to be kept according to a specification state; `cut` allows for streams that fail. -/
structure Guard {S : Type} (st : PinStore σ ε) (refs : Cid → List Cid) (U : Cid → Prop) (cut : Prop)
    (after : S → NodeOp → Bool → S) (root keeps : S → Cid → Prop) (Inv : σ → S → Prop) : Prop where
  pinned : ∀ g k c, Inv g k → keeps k c → st.isPinned g c = true
  insertDirect : ∀ g k c, U c → Inv g k →
    Inv (st.insertDirect g c).2 (after k (.pin c false) (st.insertDirect g c).1.isOk)
  removeDirect : ∀ g k c, U c → Inv g k →
    Inv (st.removeDirect g c).2 (after k (.unpin c false) (st.removeDirect g c).1.isOk)
  insertRecursive : ∀ g k c L, U c → Inv g k → (L = (refs c).map some ∨ (cut ∧ none ∈ L)) →
    Inv (st.insertRecursive g c L).2 (after k (.pin c true) (st.insertRecursive g c L).1.isOk)
  insertCut : ∀ g c L, none ∈ L → (st.insertRecursive g c L).1.isOk = false
  removeRecursive : ∀ g k c L, U c → Inv g k → (root k c → L = (refs c).map some) →
    Inv (st.removeRecursive g c L).2 (after k (.unpin c true) (st.removeRecursive g c L).1.isOk)
  early : ∀ g k op, Inv g k → Inv g (after k op false)
  put : ∀ k b ok, after k (.put b) ok = k
  remove : ∀ k c ok, after k (.remove c) ok = k
  keepsPin : ∀ k c d, keeps (after k (.pin c false) true) d → d = c ∨ keeps k d
  keepsPinAll : ∀ k c d, keeps (after k (.pin c true) true) d → d = c ∨ d ∈ refs c ∨ keeps k d
  keepsFail : ∀ k op d, keeps (after k op false) d → keeps k d
  keepsUnpin : ∀ k c r d, keeps (after k (.unpin c r) true) d → keeps k d
  rootOf : ∀ k op ok r, root (after k op ok) r → root k r ∨ (op = .pin r true ∧ ok = true)
  rootKeeps : ∀ k r, root k r → keeps k r ∧ ∀ d ∈ refs r, keeps k d

/-- What holds after every request. -/
structure NodeInv {S : Type} (env : PinEnv) (content : Cid → Bytes) (U : Cid → Prop) (root keeps : S → Cid → Prop)
    (Inv : σ → S → Prop) (s : RepoState σ) (k : S) : Prop where
  pins : Inv s.pins k
  blocks : HoldsData content U s.blocks
  kept : ∀ d, keeps k d → U d ∧ (s.blocks.getBlock d).isSome = true
  whole : ∀ r, root k r → ∃ ls items, Whole env content r ls items

theorem pinsAfter_isOk (s : RepoState σ) (r : Except ε Unit × σ) :
    (pinsAfter s r).1.isOk = r.1.isOk ∧ (pinsAfter s r).2 = { s with pins := r.2 } := by
  unfold pinsAfter
  split <;> rename_i h <;> simp [h, Except.isOk, Except.toBool]

theorem getBlock_put (m : MemBlocks) (b : Block) (c : Cid) : (m.put b).1.getBlock c =
    if c.mh = b.cid.mh then some ((m.getBlock b.cid).getD b) else m.getBlock c := by
  unfold MemBlocks.put MemBlocks.getBlock
  cases hg : AMap.get m b.cid.mh with
  | some v =>
    simp only [Option.map_some, Option.getD_some]
    split
    · rename_i h; rw [h, hg]; rfl
    · rfl
  | none =>
    simp only [Option.map_none, Option.getD_none, AMap.get_set]
    split <;> rfl

/-- One request of those in use. -/
def Uses (content : Cid → Bytes) (U : Cid → Prop) : NodeOp → Prop
  | .put b => U b.cid ∧ b.data = content b.cid
  | .pin c _ => U c
  | .unpin c _ => U c
  | .remove c => U c

theorem NodeInv.step {S : Type} {env : PinEnv} {content : Cid → Bytes} {U : Cid → Prop} {cut : Prop}
    {after : S → NodeOp → Bool → S} {root keeps : S → Cid → Prop} {Inv : σ → S → Prop} {st : PinStore σ ε}
    (hU : ∀ a b, U a → U b → a.mh = b.mh → a = b) (hcl : ∀ a b, U a → LinkTo env content a b → U b)
    (G : Guard st (treeRefs env content) U cut after root keeps Inv) {s : RepoState σ} {k : S}
    (h : NodeInv env content U root keeps Inv s k) (op : NodeOp) (hop : Uses content U op)
    (hcut : cut ∨ ∀ c, op = .pin c true → ∀ b L, s.blocks.getBlock c = some b →
      descendants (ε := ε) env s.blocks c b.data = .ok L → none ∉ L) :
    NodeInv env content U root keeps Inv (nodeStep env st s op).2 (after k op (nodeStep env st s op).1) := by
  have hearly : ∀ op', NodeInv env content U root keeps Inv s (after k op' false) := by
    intro op'
    refine ⟨G.early _ _ _ h.pins, h.blocks, fun d hd => h.kept d (G.keepsFail _ _ _ hd), fun r hr => ?_⟩
    rcases G.rootOf _ _ _ _ hr with h1 | ⟨-, h1⟩
    · exact h.whole r h1
    · cases h1
  cases op with
  | put b =>
    obtain ⟨h1, h2⟩ := hop
    simp only [nodeStep, G.put]
    refine ⟨h.pins, ?_, fun d hd => ?_, h.whole⟩
    · intro c hc b' hb'
      rw [getBlock_put] at hb'
      split at hb'
      · rename_i hm
        have := hU _ _ hc h1 hm
        subst this
        cases hg : s.blocks.getBlock b.cid with
        | none => rw [hg] at hb'; simp only [Option.getD_none, Option.some.injEq] at hb'; rw [← hb', h2]
        | some b2 =>
          rw [hg] at hb'; simp only [Option.getD_some, Option.some.injEq] at hb'
          rw [← hb']; exact h.blocks _ h1 _ hg
      · exact h.blocks c hc b' hb'
    · refine ⟨(h.kept d hd).1, ?_⟩
      rw [getBlock_put]
      split
      · rfl
      · exact (h.kept d hd).2
  | remove c =>
    simp only [nodeStep, G.remove]
    cases hp : st.isPinned s.pins c with
    | true =>
      rw [(C29_remove_block st.api s c).1 hp]
      exact h
    | false =>
      obtain ⟨h1, h2, h3, h4⟩ := (C29_remove_block st.api s c).2 hp
      refine ⟨by rw [h1]; exact h.pins, ?_, fun d hd => ⟨(h.kept d hd).1, ?_⟩, h.whole⟩
      · intro d hd b hb
        rw [h3] at hb
        split at hb
        · cases hb
        · exact h.blocks d hd b hb
      · rw [h3, if_neg]
        · exact (h.kept d hd).2
        · intro hm
          have := hU _ _ (h.kept d hd).1 hop hm
          subst this
          rw [G.pinned _ _ _ h.pins hd] at hp
          cases hp
  | pin c r =>
    simp only [nodeStep]
    unfold insertPin
    split
    · exact hearly _
    · rename_i b hg
      cases r with
      | false =>
        simp only [Bool.false_eq_true, if_false]
        rw [(pinsAfter_isOk _ _).1, (pinsAfter_isOk _ _).2]
        have hi := G.insertDirect s.pins k c hop h.pins
        refine ⟨hi, h.blocks, fun d hd => ?_, fun r hr => ?_⟩
        · cases hok : (st.insertDirect s.pins c).1.isOk with
          | false => rw [hok] at hd; exact h.kept d (G.keepsFail _ _ _ hd)
          | true =>
            rw [hok] at hd
            rcases G.keepsPin _ _ _ hd with rfl | h1
            · exact ⟨hop, by simp [hg]⟩
            · exact h.kept d h1
        · rcases G.rootOf _ _ _ _ hr with h1 | ⟨h1, -⟩
          · exact h.whole r h1
          · cases h1
      | true =>
        simp only [if_true]
        split
        · exact hearly _
        · rename_i L hL
          rw [(pinsAfter_isOk _ _).1, (pinsAfter_isOk _ _).2]
          have hcase := descendants_cases hcl h.blocks hop hg hL
          have hi := G.insertRecursive s.pins k c L hop h.pins (by
            rcases hcase with h1 | h1
            · rcases hcut with h2 | h2
              · exact Or.inr ⟨h2, h1⟩
              · exact absurd h1 (h2 c rfl b L hg hL)
            · exact Or.inl h1.1)
          refine ⟨hi, h.blocks, fun d hd => ?_, fun r hr => ?_⟩
          · cases hok : (st.insertRecursive s.pins c L).1.isOk with
            | false => rw [hok] at hd; exact h.kept d (G.keepsFail _ _ _ hd)
            | true =>
              rcases hcase with h1 | ⟨-, -, h1⟩
              · rw [G.insertCut _ _ _ h1] at hok; cases hok
              · rw [hok] at hd
                rcases G.keepsPinAll _ _ _ hd with rfl | h2 | h2
                · exact ⟨hop, by simp [hg]⟩
                · exact h1 d h2
                · exact h.kept d h2
          · rcases G.rootOf _ _ _ _ hr with h1 | ⟨h1, h2⟩
            · exact h.whole r h1
            · simp only [NodeOp.pin.injEq, and_true] at h1
              subst h1
              rcases hcase with h3 | ⟨-, h3, -⟩
              · rw [G.insertCut _ _ _ h3] at h2; cases h2
              · exact h3
  | unpin c r =>
    simp only [nodeStep]
    unfold removePin
    have hafter : ∀ (p : σ) (r ok : Bool), Inv p (after k (.unpin c r) ok) →
        NodeInv env content U root keeps Inv { s with pins := p } (after k (.unpin c r) ok) := by
      intro p r ok hi
      refine ⟨hi, h.blocks, fun d hd => ?_, fun r' hr => ?_⟩
      · cases ok with
        | false => exact h.kept d (G.keepsFail _ _ _ hd)
        | true => exact h.kept d (G.keepsUnpin _ _ _ _ hd)
      · rcases G.rootOf _ _ _ _ hr with h1 | ⟨h1, -⟩
        · exact h.whole r' h1
        · cases h1
    cases r with
    | false =>
      simp only [Bool.false_eq_true, if_false]
      rw [(pinsAfter_isOk _ _).1, (pinsAfter_isOk _ _).2]
      exact hafter _ _ _ (G.removeDirect s.pins k c hop h.pins)
    | true =>
      simp only [if_true]
      split
      · exact hearly _
      · rename_i b hg
        split
        · exact hearly _
        · rename_i L hL
          rw [(pinsAfter_isOk _ _).1, (pinsAfter_isOk _ _).2]
          refine hafter _ _ _ (G.removeRecursive s.pins k c L hop h.pins (fun hr => ?_))
          obtain ⟨ls, items, hw⟩ := h.whole c hr
          have := descendants_whole (ε := ε) h.blocks hop hw (fun d hd => h.kept d ((G.rootKeeps _ _ hr).2 d hd)) hg
          rw [hL] at this
          exact Except.ok.inj this

/-! ### The specification without failures -/

theorem pins_keepsPin {refs : Cid → List Cid} (k : Pins) (c d : Cid) (h : (k.after (.insertDirect c)).Pinned refs d) :
    d = c ∨ k.Pinned refs d := by
  simp only [Pins.after, Pins.Pinned, Pins.Indirect] at h ⊢
  by_cases hd : d = c
  · exact Or.inl hd
  · rw [if_neg hd] at h
    exact Or.inr h

theorem pins_keepsPinAll {refs : Cid → List Cid} (k : Pins) (c d : Cid)
    (h : (k.after (.insertRecursive c)).Pinned refs d) : d = c ∨ d ∈ refs c ∨ k.Pinned refs d := by
  simp only [Pins.after, Pins.Pinned, Pins.Indirect] at h ⊢
  by_cases hd : d = c
  · exact Or.inl hd
  · simp only [if_neg hd] at h
    rcases h with h | h | ⟨r, h1, h2⟩
    · exact Or.inr (Or.inr (Or.inl h))
    · exact Or.inr (Or.inr (Or.inr (Or.inl h)))
    · by_cases hr : r = c
      · subst hr; exact Or.inr (Or.inl h2)
      · rw [if_neg hr] at h1
        exact Or.inr (Or.inr (Or.inr (Or.inr ⟨r, h1, h2⟩)))

theorem upd_true {f : Cid → Bool} {c a : Cid} (h : upd f c false a = true) : a ≠ c ∧ f a = true := by
  unfold upd at h
  split at h
  · cases h
  · exact ⟨by assumption, h⟩

theorem pins_keepsUnpin {refs : Cid → List Cid} (k : Pins) (c : Cid) (r : Bool) (d : Cid)
    (h : (pinsMoved k (.unpin c r) true).Pinned refs d) : k.Pinned refs d := by
  cases r with
  | false =>
    simp only [pinsMoved, Pins.after, Pins.Pinned, Pins.Indirect] at h ⊢
    rcases h with h | h
    · exact Or.inl (upd_true h).2
    · exact Or.inr h
  | true =>
    simp only [pinsMoved, Pins.after, Pins.Pinned, Pins.Indirect] at h ⊢
    rcases h with h | h | ⟨r, h1, h2⟩
    · exact Or.inl (upd_true h).2
    · exact Or.inr (Or.inl (upd_true h).2)
    · exact Or.inr (Or.inr ⟨r, (upd_true h1).2, h2⟩)

theorem pinsMoved_false (k : Pins) (op : NodeOp) : pinsMoved k op false = k := by
  unfold pinsMoved
  split <;> first | rfl | (rename_i h; cases h)

theorem pins_rootOf (k : Pins) (op : NodeOp) (ok : Bool) (r : Cid) (h : (pinsMoved k op ok).root r = true) :
    k.root r = true ∨ (op = .pin r true ∧ ok = true) := by
  unfold pinsMoved at h
  split at h
  · exact Or.inl h
  · rename_i c
    simp only [Pins.after] at h
    by_cases hr : r = c
    · subst hr; exact Or.inr ⟨rfl, rfl⟩
    · rw [if_neg hr] at h; exact Or.inl h
  · exact Or.inl h
  · exact Or.inl (upd_true h).2
  · exact Or.inl h

/-- A store whose failed operations change nothing guards what its specification says is pinned. -/
theorem pinsGuard {st : PinStore σ ε} {refs : Cid → List Cid} {U : Cid → Prop} {cut : Prop} {Inv : σ → Pins → Prop}
    (h1 : ∀ g k c, Inv g k → k.Pinned refs c → st.isPinned g c = true)
    (h2 : ∀ g k c, U c → Inv g k → Inv (st.insertDirect g c).2 (pinsMoved k (.pin c false) (st.insertDirect g c).1.isOk))
    (h3 : ∀ g k c, U c → Inv g k → Inv (st.removeDirect g c).2 (pinsMoved k (.unpin c false) (st.removeDirect g c).1.isOk))
    (h4 : ∀ g k c L, U c → Inv g k → (L = (refs c).map some ∨ (cut ∧ none ∈ L)) →
      Inv (st.insertRecursive g c L).2 (pinsMoved k (.pin c true) (st.insertRecursive g c L).1.isOk))
    (h5 : ∀ g c L, none ∈ L → (st.insertRecursive g c L).1.isOk = false)
    (h6 : ∀ g k c L, U c → Inv g k → (k.root c = true → L = (refs c).map some) →
      Inv (st.removeRecursive g c L).2 (pinsMoved k (.unpin c true) (st.removeRecursive g c L).1.isOk)) :
    Guard st refs U cut pinsMoved (fun k r => k.root r = true) (fun k c => k.Pinned refs c) Inv where
  pinned := h1
  insertDirect := h2
  removeDirect := h3
  insertRecursive := h4
  insertCut := h5
  removeRecursive := h6
  early := fun g k op h => by rw [pinsMoved_false]; exact h
  put := fun _ _ _ => rfl
  remove := fun _ _ _ => rfl
  keepsPin := pins_keepsPin
  keepsPinAll := pins_keepsPinAll
  keepsFail := fun k op d h => by rw [pinsMoved_false] at h; exact h
  keepsUnpin := pins_keepsUnpin
  rootOf := pins_rootOf
  rootKeeps := fun k r h => ⟨Or.inr (Or.inl h), fun d hd => Or.inr (Or.inr ⟨r, h, hd⟩)⟩

/-! ### The store on disk -/

theorem fs_moved {le : Cid → Cid → Bool} {refs : Cid → List Cid} {g : FsPins} {k : Pins} (h : FsInv refs g k) (op : PinOp)
    (nop : NodeOp) (hn : pinsMoved k nop true = k.after op) :
    FsInv refs (diskResult g (fsSteps le refs g op)).2 (pinsMoved k nop (diskResult g (fsSteps le refs g op)).1.isOk) := by
  rcases fs_steps (le := le) h op with ⟨_, st, e, i, _⟩ | ⟨_, x, e⟩
  · rw [e]
    show FsInv refs (runSteps g st) (pinsMoved k nop true)
    rw [hn]; exact i
  · rw [e]
    show FsInv refs g (pinsMoved k nop false)
    rw [pinsMoved_false]; exact h

theorem fsGuard (le : Cid → Cid → Bool) (refs : Cid → List Cid) (U : Cid → Prop) :
    Guard (fsStore le) refs U True pinsMoved (fun k r => k.root r = true) (fun k c => k.Pinned refs c) (FsInv refs) := by
  have hcut : ∀ g c L, none ∈ L → FsPins.insertRecursive le g c L = .error .refs := by
    intro g c L hL
    simp [FsPins.insertRecursive, collectRefs_fails le L hL]
  refine pinsGuard ?_ ?_ ?_ ?_ ?_ ?_
  · intro g k c h hp
    obtain ⟨b, h1, h2⟩ := h.isPinned c
    simp only [fsStore, h1]
    exact h2.mpr hp
  · intro g k c _ h
    exact fs_moved (le := le) h (.insertDirect c) (.pin c false) rfl
  · intro g k c _ h
    exact fs_moved (le := le) h (.removeDirect c) (.unpin c false) rfl
  · intro g k c L _ h hL
    rcases hL with rfl | ⟨-, hL⟩
    · exact fs_moved (le := le) h (.insertRecursive c) (.pin c true) rfl
    · simp only [fsStore, hcut g c L hL]
      show FsInv refs g (pinsMoved k _ false)
      rw [pinsMoved_false]; exact h
  · intro g c L hL
    simp only [fsStore, hcut g c L hL]
    rfl
  · intro g k c L _ h _
    exact fs_moved (le := le) h (.removeRecursive c) (.unpin c true) rfl

/-! ### The in-memory store, when no walk fails -/

theorem mem_moved {le : Cid → Cid → Bool} {refs : Cid → List Cid} (hn : ∀ c, (refs c).Nodup) {U : Cid → Prop}
    (hT : ∀ a b, U a → U b → Cid.asV1 a = Cid.asV1 b → a = b) {g : MemPins} {k : Pins} (h : MemInv refs U g k) (op : PinOp)
    (ho : ∀ c, op.root? = some c → U c) (nop : NodeOp) (hm : pinsMoved k nop true = k.after op) :
    MemInv refs U (memStep le refs g op).2 (pinsMoved k nop (memStep le refs g op).1.isOk) := by
  rcases mem_step (le := le) hn hT h op ho with ⟨_, g', e, i⟩ | ⟨_, x, e⟩
  · rw [e]
    show MemInv refs U g' (pinsMoved k nop true)
    rw [hm]; exact i
  · rw [e]
    show MemInv refs U g (pinsMoved k nop false)
    rw [pinsMoved_false]; exact h

theorem insertRefs_cut {le : Cid → Cid → Bool} {kind : PinKind} (L : Repo.Refs) (hL : none ∈ L) (g : MemPins) (n : Nat) :
    ∃ e g', MemPins.insertRefs le kind g L n = (.error e, g') := by
  induction L generalizing g n with
  | nil => cases hL
  | cons x L ih =>
    cases x with
    | none => exact ⟨_, _, rfl⟩
    | some c =>
      simp only [MemPins.insertRefs]
      split
      · exact ⟨_, _, rfl⟩
      · exact ih (by simpa using hL) _ _

theorem mem_insertCut (le : Cid → Cid → Bool) (g : MemPins) (c : Cid) (L : Repo.Refs) (hL : none ∈ L) :
    (g.insertRecursive le c L).1.isOk = false := by
  unfold MemPins.insertRecursive
  split
  · rfl
  · rename_i g1 _
    obtain ⟨e, g', h⟩ := insertRefs_cut (le := le) (kind := .indirectFrom (Cid.asV1 c)) L hL g1 0
    rw [h]
    rfl

/-- Unpinning what is not a root does not read the stream. -/
theorem mem_removeUnread {le : Cid → Cid → Bool} {refs : Cid → List Cid} {U : Cid → Prop} {g : MemPins} {k : Pins}
    (h : MemInv refs U g k) (c : Cid) (hr : k.root c = false) (L : Repo.Refs) :
    g.removeRecursive le c L = g.removeRecursive le c ((refs c).map some) := by
  unfold MemPins.removeRecursive
  cases hg : g.get c with
  | none => rfl
  | some doc =>
    obtain ⟨h1, h2, h3, h4⟩ := h.docSome hg
    rw [hr] at h2
    have hk : ∀ n, doc.pickKind ≠ some (.recursive n) ∧ doc.pickKind ≠ some .recursiveIntention := by
      intro n
      have h2' : doc.recursive = .not := by simpa using h2
      simp only [PinDocument.pickKind, PinDocument.mode, h2', Recursive.isSet, Bool.false_eq_true, if_false]
      cases hi : doc.indirectBy with
      | nil => cases hd : doc.direct <;> simp
      | cons x xs => simp
    simp only []
    split
    · rename_i n hn'; exact absurd hn' (hk n).1
    · rename_i hn'; exact absurd hn' (hk 0).2
    · rfl
    · rfl
    · rfl

theorem memGuard (le : Cid → Cid → Bool) (refs : Cid → List Cid) (hn : ∀ c, (refs c).Nodup) (U : Cid → Prop)
    (hT : ∀ a b, U a → U b → Cid.asV1 a = Cid.asV1 b → a = b) :
    Guard (memStore le) refs U False pinsMoved (fun k r => k.root r = true) (fun k c => k.Pinned refs c) (MemInv refs U) := by
  refine pinsGuard ?_ ?_ ?_ ?_ ?_ ?_
  · intro g k c h hp
    exact (h.isPinned c).mpr hp
  · intro g k c _ h
    exact mem_moved (le := le) hn hT h (.insertDirect c) (by simp [PinOp.root?]) (.pin c false) rfl
  · intro g k c _ h
    exact mem_moved (le := le) hn hT h (.removeDirect c) (by simp [PinOp.root?]) (.unpin c false) rfl
  · intro g k c L hc h hL
    rcases hL with rfl | ⟨hL, -⟩
    · exact mem_moved (le := le) hn hT h (.insertRecursive c) (by simp only [PinOp.root?, Option.some.injEq]; rintro _ rfl; exact hc)
        (.pin c true) rfl
    · exact hL.elim
  · exact fun g c L hL => mem_insertCut le g c L hL
  · intro g k c L hc h hL
    have hx := mem_moved (le := le) hn hT h (.removeRecursive c)
      (by simp only [PinOp.root?, Option.some.injEq]; rintro _ rfl; exact hc) (.unpin c true) rfl
    cases hr : k.root c with
    | true => rw [hL hr]; exact hx
    | false =>
      simp only [memStore]
      rw [mem_removeUnread h c hr L]
      exact hx

/-! ### The in-memory store, whatever fails -/

/-- What must not be removed. -/
def KeptPins.Keeps (refs : Cid → List Cid) (k : KeptPins) (d : Cid) : Prop :=
  k.direct d = true ∨ k.tried d = true ∨ k.root d = true ∨ ∃ r, k.root r = true ∧ d ∈ refs r

/-- The store knows at least what is to be kept. -/
structure KeptView (refs : Cid → List Cid) (U : Cid → Prop) (v : View) (k : KeptPins) : Prop where
  excl : ∀ c, v.D c = true → v.R c = .not
  direct : ∀ c, k.direct c = true → v.D c = true
  tried : ∀ c, k.tried c = true → v.D c = true ∨ v.R c ≠ .not
  root : ∀ r, k.root r = true ↔ ∃ n, v.R r = .count n
  ind : ∀ r, k.root r = true → ∀ d ∈ refs r, v.I d (Cid.asV1 r)
  uses : ∀ r, k.root r = true → U r

def KeptInv (refs : Cid → List Cid) (U : Cid → Prop) (g : MemPins) (k : KeptPins) : Prop :=
  ∃ v, Rel g v ∧ KeptView refs U v k

theorem isSet_iff (r : Recursive) : r.isSet = true ↔ r ≠ .not := by cases r <;> simp [Recursive.isSet]

theorem removeIndirect_absent {g : MemPins} {v : View} (h : Rel g v) (le : Cid → Cid → Bool) (c r : Cid)
    (hi : ¬ v.I c (Cid.asV1 r)) : (∃ e, g.removePin le c (.indirectFrom r) = .error e) ∨
      g.removePin le c (.indirectFrom r) = .ok (false, g) := by
  unfold MemPins.removePin
  have hd := h.doc c
  cases hg : g.get c with
  | none => exact Or.inl ⟨_, rfl⟩
  | some doc =>
    rw [hg] at hd
    obtain ⟨-, -, h3, -⟩ := hd
    have hn : Cid.asV1 r ∉ doc.indirectBy := fun hm => hi ((h3 _).mp hm)
    right
    simp only [PinDocument.update]
    by_cases he : doc.indirectBy.isEmpty = true
    · simp [he]
    · have hm : (toSet le doc.indirectBy).contains (Cid.asV1 r) = false := by
        rw [← Bool.not_eq_true, List.contains_iff_mem, mem_toSet]
        exact hn
      rw [if_neg he]
      simp only [Bool.false_eq_true, if_false, hm]

/-- Unpinning along any stream touches only what is pinned through that root. -/
theorem removeRefs_any {le : Cid → Cid → Bool} (r : Cid) (L : Repo.Refs) : ∀ {g : MemPins} {v : View}, Rel g v →
    ∃ g' v', (MemPins.removeRefs le (.indirectFrom r) g L).2 = g' ∧ Rel g' v' ∧ v'.D = v.D ∧ v'.R = v.R ∧
      ∀ a x, x ≠ Cid.asV1 r → (v'.I a x ↔ v.I a x) := by
  induction L with
  | nil => intro g v h; exact ⟨g, v, rfl, h, rfl, rfl, fun _ _ _ => Iff.rfl⟩
  | cons y L ih =>
    intro g v h
    cases y with
    | none => exact ⟨g, v, rfl, h, rfl, rfl, fun _ _ _ => Iff.rfl⟩
    | some c =>
      simp only [MemPins.removeRefs]
      by_cases hi : v.I c (Cid.asV1 r)
      · obtain ⟨g1, e1, r1⟩ := h.removeIndirect le c r hi
        obtain ⟨g', v', h1, h2, h3, h4, h5⟩ := ih r1
        rw [e1]
        refine ⟨g', v', h1, h2, h3, h4, fun a x hx => ?_⟩
        rw [h5 a x hx]
        simp only [View.delI]
        exact ⟨fun h => h.1, fun h => ⟨h, fun h6 => hx h6.2⟩⟩
      · rcases removeIndirect_absent h le c r hi with ⟨e, h1⟩ | h1
        · rw [h1]; exact ⟨g, v, rfl, h, rfl, rfl, fun _ _ _ => Iff.rfl⟩
        · rw [h1]; exact ih h

theorem KeptView.keeps {refs : Cid → List Cid} {U : Cid → Prop} {g : MemPins} {v : View} {k : KeptPins} (hr : Rel g v)
    (h : KeptView refs U v k) (c : Cid) (hk : k.Keeps refs c) : g.isPinned c = true := by
  rw [hr.isPinned, isSet_iff]
  rcases hk with h1 | h1 | h1 | ⟨r, h1, h2⟩
  · exact Or.inl (h.direct c h1)
  · rcases h.tried c h1 with h2 | h2
    · exact Or.inl h2
    · exact Or.inr (Or.inl h2)
  · obtain ⟨n, hn⟩ := (h.root c).mp h1
    exact Or.inr (Or.inl (by simp [hn]))
  · exact Or.inr (Or.inr ⟨_, h.ind r h1 c h2⟩)

theorem upd_iff (f : Cid → Bool) (c : Cid) (b : Bool) (a : Cid) :
    upd f c b a = true ↔ (a = c ∧ b = true) ∨ (a ≠ c ∧ f a = true) := by
  unfold upd
  split <;> simp_all

theorem KeptView.early {refs : Cid → List Cid} {U : Cid → Prop} {v : View} {k : KeptPins} (h : KeptView refs U v k)
    (op : NodeOp) : KeptView refs U v (k.after op false) := by
  unfold KeptPins.after
  split
  · rename_i hx; cases hx
  · rename_i hx; cases hx
  · rename_i c _
    refine ⟨h.excl, fun a ha => h.direct a (upd_true ha).2, fun a ha => ?_, h.root, h.ind, h.uses⟩
    rcases (upd_iff _ _ _ _).mp ha with ⟨rfl, h1⟩ | ⟨-, h1⟩
    · rcases Bool.or_eq_true _ _ ▸ h1 with h2 | h2
      · exact Or.inl (h.direct a h2)
      · exact h.tried a h2
    · exact h.tried a h1
  · rename_i hx; cases hx
  · rename_i hx; cases hx
  · exact ⟨h.excl, h.direct, fun a ha => h.tried a (upd_true ha).2, h.root, h.ind, h.uses⟩
  · exact h

theorem stream_split (L : Repo.Refs) : (∃ l : List Cid, L = l.map some) ∨ ∃ (l : List Cid) (rest : Repo.Refs), L = l.map some ++ none :: rest := by
  induction L with
  | nil => exact Or.inl ⟨[], rfl⟩
  | cons x L ih =>
    cases x with
    | none => exact Or.inr ⟨[], L, rfl⟩
    | some c =>
      rcases ih with ⟨l, rfl⟩ | ⟨l, rest, rfl⟩
      · exact Or.inl ⟨c :: l, rfl⟩
      · exact Or.inr ⟨c :: l, rest, rfl⟩

theorem keptGuard (le : Cid → Cid → Bool) (refs : Cid → List Cid) (hn : ∀ c, (refs c).Nodup) (U : Cid → Prop)
    (hT : ∀ a b, U a → U b → Cid.asV1 a = Cid.asV1 b → a = b) :
    Guard (memStore le) refs U True KeptPins.after (fun k r => k.root r = true) (KeptPins.Keeps refs) (KeptInv refs U) where
  pinned := by
    rintro g k c ⟨v, hr, h⟩ hk
    exact h.keeps hr c hk
  insertDirect := by
    rintro g k c _ ⟨v, hr, h⟩
    simp only [memStore, MemPins.insertDirect]
    by_cases hs : v.R c = .not
    · obtain ⟨b, g', e, r1⟩ := hr.insertDirect le c (by rw [hs]; rfl)
      rw [e]
      show KeptInv refs U g' (k.after (.pin c false) true)
      refine ⟨_, r1, ⟨fun a ha => ?_, fun a ha => ?_, fun a ha => ?_, h.root, h.ind, h.uses⟩⟩
      · simp only [View.setD] at ha ⊢
        split at ha
        · rename_i hac; rw [hac]; exact hs
        · exact h.excl a ha
      · rcases (upd_iff _ _ _ _).mp ha with ⟨rfl, -⟩ | ⟨h1, h2⟩
        · simp [View.setD]
        · simp only [View.setD, if_neg h1]; exact h.direct a h2
      · rcases h.tried a ha with h1 | h1
        · left
          simp only [View.setD]
          split
          · rfl
          · exact h1
        · exact Or.inr h1
    · have hd : v.D c = false := by
        cases hd : v.D c with
        | false => rfl
        | true => exact absurd (h.excl c hd) hs
      have he : g.insertPin le c .direct = .error .alreadyPinnedRecursive := by
        have hdoc := hr.doc c
        unfold MemPins.insertPin
        cases hg : g.get c with
        | none => rw [hg] at hdoc; exact absurd hdoc.2.1 hs
        | some doc =>
          rw [hg] at hdoc
          simp [PinDocument.update, hdoc.1, hdoc.2.1, hd, (isSet_iff _).mpr hs]
      rw [he]
      exact ⟨v, hr, h.early _⟩
  removeDirect := by
    rintro g k c _ ⟨v, hr, h⟩
    simp only [memStore, MemPins.removeDirect]
    cases hd : v.D c with
    | true =>
      obtain ⟨g', e, r1⟩ := hr.removeDirect le c hd
      rw [e]
      show KeptInv refs U g' (k.after (.unpin c false) true)
      refine ⟨_, r1, ⟨fun a ha => ?_, fun a ha => ?_, fun a ha => ?_, h.root, h.ind, h.uses⟩⟩
      · simp only [View.setD] at ha ⊢
        split at ha
        · cases ha
        · exact h.excl a ha
      · obtain ⟨h1, h2⟩ := upd_true ha
        simp only [View.setD, if_neg h1]; exact h.direct a h2
      · obtain ⟨h1, h2⟩ := upd_true ha
        simp only [View.setD, if_neg h1]; exact h.tried a h2
    | false =>
      have he : ∃ e, g.removePin le c .direct = .error e := by
        have hdoc := hr.doc c
        unfold MemPins.removePin
        cases hg : g.get c with
        | none => exact ⟨_, rfl⟩
        | some doc =>
          rw [hg] at hdoc
          simp only [PinDocument.update, hdoc.1, hd, Bool.not_false, Bool.and_false, Bool.false_eq_true, if_false,
            Bool.and_true, if_true]
          split <;> rename_i h1 <;> split at h1 <;> first | (cases h1; done) | exact ⟨_, rfl⟩
      obtain ⟨e, he⟩ := he
      rw [he]
      exact ⟨v, hr, h.early _⟩
  insertRecursive := by
    rintro g k c L hc ⟨v, hr, h⟩ hL
    simp only [memStore]
    by_cases hcount : ∃ n, v.R c = .count n
    · obtain ⟨n, hcount⟩ := hcount
      have he : g.insertPin le c .recursiveIntention = .error .alreadyPinnedRecursive := by
        have hdoc := hr.doc c
        unfold MemPins.insertPin
        cases hg : g.get c with
        | none => rw [hg] at hdoc; rw [hdoc.2.1] at hcount; cases hcount
        | some doc =>
          rw [hg] at hdoc
          simp [PinDocument.update, hdoc.2.1, hcount]
      simp only [MemPins.insertRecursive, he]
      exact ⟨v, hr, h.early _⟩
    · have hroot : k.root c = false := by
        cases hx : k.root c with
        | false => rfl
        | true => exact absurd ((h.root c).mp hx) hcount
      -- after the intent
      have h1 : ∃ b g1, g.insertPin le c .recursiveIntention = .ok (b, g1) ∧ Rel g1 ((v.setR c .intent).setD c false) := by
        cases hR : v.R c with
        | count n => exact absurd ⟨n, hR⟩ hcount
        | not => exact hr.insertIntent le c hR
        | intent =>
          obtain ⟨b, g1, e1, r1⟩ := insertIntent_again hr le c hR
          refine ⟨b, g1, e1, r1.same ?_ ?_ ?_⟩
          · intro a
            simp only [View.setD, View.setR]
            split
            · rename_i hac
              subst hac
              cases hd : v.D a with
              | false => rfl
              | true => rw [h.excl a hd] at hR; cases hR
            · rfl
          · intro a
            simp only [View.setD, View.setR]
            split
            · rename_i hac; subst hac; exact hR.symm
            · rfl
          · intro a x; simp [View.setD, View.setR]
      obtain ⟨b, g1, e1, r1⟩ := h1
      rcases stream_split L with ⟨l, rfl⟩ | ⟨l, rest, rfl⟩
      · have hl : l = refs c := by
          rcases hL with hL | ⟨-, hL⟩
          · exact (List.map_inj_right (fun _ _ h => Option.some.inj h)).mp hL
          · simp at hL
        subst hl
        obtain ⟨g2, e2, r2⟩ := r1.insertRefs le (Cid.asV1 c) (refs c) 0
        obtain ⟨b3, g3, e3, r3⟩ := r2.insertCount le c (0 + (refs c).length) (by simp [View.setD, View.setR])
        simp only [MemPins.insertRecursive, e1, e2, e3]
        show KeptInv refs U g3 (k.after (.pin c true) true)
        refine ⟨_, r3, ?_⟩
        refine ⟨fun a ha => ?_, fun a ha => ?_, fun a ha => ?_, fun a => ?_, fun a ha d hd => ?_, fun a ha => ?_⟩
        · simp only [View.setD, View.setR] at ha ⊢
          by_cases hac : a = c
          · simp [hac] at ha
          · simp only [if_neg hac] at ha ⊢; exact h.excl a ha
        · obtain ⟨h2, h3⟩ := upd_true ha
          simp only [View.setD, View.setR, if_neg h2]; exact h.direct a h3
        · obtain ⟨h2, h3⟩ := upd_true ha
          simp only [View.setD, View.setR, if_neg h2]; exact h.tried a h3
        · simp only [KeptPins.after, View.setD, View.setR]
          by_cases hac : a = c
          · simp [upd, hac]
          · simp only [upd, if_neg hac]; exact h.root a
        · simp only [View.setD, View.setR]
          rcases (upd_iff _ _ _ _).mp ha with ⟨rfl, -⟩ | ⟨-, h2⟩
          · exact Or.inr ⟨hd, by simp [Cid.asV1]⟩
          · exact Or.inl (h.ind a h2 d hd)
        · rcases (upd_iff _ _ _ _).mp ha with ⟨rfl, -⟩ | ⟨-, h2⟩
          · exact hc
          · exact h.uses a h2
      · obtain ⟨g2, e2, r2⟩ := insertRefs_failing r1 le (Cid.asV1 c) l rest 0
        simp only [MemPins.insertRecursive, e1, e2]
        show KeptInv refs U g2 (k.after (.pin c true) false)
        refine ⟨_, r2, ?_⟩
        refine ⟨fun a ha => ?_, fun a ha => ?_, fun a ha => ?_, fun a => ?_, fun a ha d hd => ?_, h.uses⟩
        · simp only [View.setD, View.setR] at ha ⊢
          by_cases hac : a = c
          · simp [hac] at ha
          · simp only [if_neg hac] at ha ⊢; exact h.excl a ha
        · obtain ⟨h2, h3⟩ := upd_true ha
          simp only [View.setD, View.setR, if_neg h2]; exact h.direct a h3
        · simp only [View.setD, View.setR]
          rcases (upd_iff _ _ _ _).mp ha with ⟨rfl, -⟩ | ⟨h2, h3⟩
          · right; simp
          · simp only [if_neg h2]; exact h.tried a h3
        · simp only [KeptPins.after, View.setD, View.setR]
          by_cases hac : a = c
          · simp [hac, hroot]
          · simp only [if_neg hac]; exact h.root a
        · exact Or.inl (h.ind a ha d hd)
  insertCut := fun g c L hL => mem_insertCut le g c L hL
  removeRecursive := by
    rintro g k c L hc ⟨v, hr, h⟩ hL
    simp only [memStore]
    unfold MemPins.removeRecursive
    have hdoc := hr.doc c
    cases hg : g.get c with
    | none => exact ⟨v, hr, h.early _⟩
    | some doc =>
      rw [hg] at hdoc
      obtain ⟨d1, d2, d3, d4⟩ := hdoc
      cases hR : v.R c with
      | count n =>
        have hk : doc.pickKind = some (.recursive n) := by
          simp [PinDocument.pickKind, PinDocument.mode, d2, hR, Recursive.isSet]
        have hroot : k.root c = true := (h.root c).mpr ⟨n, hR⟩
        obtain ⟨g1, e1, r1⟩ := hr.removeCount le c n hR
        obtain ⟨g2, e2, r2⟩ := r1.removeRefs le (Cid.asV1 c) (refs c) (hn c) (by
          intro a ha
          simp only [View.setR]
          exact h.ind c hroot a ha)
        simp only [hk, e1, hL hroot, e2]
        show KeptInv refs U g2 (k.after (.unpin c true) true)
        refine ⟨_, r2, ?_⟩
        refine ⟨fun a ha => ?_, fun a ha => ?_, fun a ha => ?_, fun a => ?_, fun a ha d hd => ?_, fun a ha => ?_⟩
        · simp only [View.setR] at ha ⊢
          split
          · rfl
          · exact h.excl a ha
        · exact h.direct a (upd_true ha).2
        · obtain ⟨h2, h3⟩ := upd_true ha
          simp only [View.setR, if_neg h2]; exact h.tried a h3
        · simp only [KeptPins.after, View.setR]
          by_cases hac : a = c
          · simp [upd, hac]
          · simp only [upd, if_neg hac]; exact h.root a
        · obtain ⟨h2, h3⟩ := upd_true ha
          simp only [View.setR]
          refine ⟨h.ind a h3 d hd, ?_⟩
          rintro ⟨-, h4⟩
          exact h2 (hT a c (h.uses a h3) hc (by rw [h4]; simp [Cid.asV1]))
        · exact h.uses a (upd_true ha).2
      | intent =>
        have hk : doc.pickKind = some .recursiveIntention := by
          simp [PinDocument.pickKind, PinDocument.mode, d2, hR, Recursive.isSet]
        have hroot : k.root c = false := by
          cases hx : k.root c with
          | false => rfl
          | true =>
            obtain ⟨n, hn'⟩ := (h.root c).mp hx
            rw [hR] at hn'; cases hn'
        obtain ⟨g1, e1, r1⟩ := hr.removeIntent le c hR
        obtain ⟨g2, v2, e2, r2, hD, hR2, hI⟩ := removeRefs_any (le := le) (Cid.asV1 c) L r1
        simp only [hk, e1]
        have hdir : k.direct c = false := by
          cases hx : k.direct c with
          | false => rfl
          | true => rw [h.excl c (h.direct c hx)] at hR; cases hR
        have hview : ∀ ok, KeptView refs U v2 (k.after (.unpin c true) ok) := by
          intro ok
          have ht : ∀ a, upd k.tried c false a = true → v2.D a = true ∨ v2.R a ≠ .not := by
            intro a ha
            obtain ⟨h2, h3⟩ := upd_true ha
            rw [hD, hR2]
            simp only [View.setR, if_neg h2]; exact h.tried a h3
          have hi : ∀ a, k.root a = true → ∀ d ∈ refs a, v2.I d (Cid.asV1 a) := by
            intro a ha d hd
            rw [hI]
            · exact h.ind a ha d hd
            · intro h4
              have : a = c := hT a c (h.uses a ha) hc (by rw [h4]; simp [Cid.asV1])
              rw [this, hroot] at ha; cases ha
          have hx : ∀ a, v2.D a = true → v2.R a = .not := by
            intro a ha
            rw [hD] at ha
            rw [hR2]
            simp only [View.setR] at ha ⊢
            split
            · rfl
            · exact h.excl a ha
          have hrt : ∀ a, a ≠ c → (k.root a = true ↔ ∃ n, v2.R a = .count n) := by
            intro a hac
            rw [hR2]
            simp only [View.setR, if_neg hac]; exact h.root a
          have hrc : v2.R c = .not := by rw [hR2]; simp [View.setR]
          cases ok with
          | true =>
            refine ⟨hx, fun a ha => ?_, ht, fun a => ?_, fun a ha => hi a (upd_true ha).2, fun a ha => h.uses a (upd_true ha).2⟩
            · rw [hD]; exact h.direct a (upd_true ha).2
            · simp only [KeptPins.after]
              by_cases hac : a = c
              · simp [upd, hac, hrc]
              · simp only [upd, if_neg hac]; exact hrt a hac
          | false =>
            refine ⟨hx, fun a ha => ?_, ht, fun a => ?_, fun a ha => hi a ha, h.uses⟩
            · rw [hD]; exact h.direct a ha
            · simp only [KeptPins.after]
              by_cases hac : a = c
              · simp [hac, hrc, hroot]
              · exact hrt a hac
        exact ⟨v2, by rw [e2]; exact r2, hview _⟩
      | not =>
        have hroot : k.root c = false := by
          cases hx : k.root c with
          | false => rfl
          | true =>
            obtain ⟨n, hn'⟩ := (h.root c).mp hx
            rw [hR] at hn'; cases hn'
        cases hl : doc.indirectBy with
        | cons x xs =>
          have hk : doc.pickKind = some (.indirectFrom x) := by
            simp [PinDocument.pickKind, PinDocument.mode, d2, hR, Recursive.isSet, hl]
          simp only [hk]
          exact ⟨v, hr, h.early _⟩
        | nil =>
          have hd : v.D c = true := by
            simp only [PinDocument.canRemove, d2, hR, Recursive.isSet, hl, d1] at d4
            simpa using d4
          have hk : doc.pickKind = some .direct := by
            simp [PinDocument.pickKind, PinDocument.mode, d2, hR, Recursive.isSet, hl, d1, hd]
          obtain ⟨g', e, r1⟩ := hr.removeDirect le c hd
          simp only [hk, e]
          show KeptInv refs U g' (k.after (.unpin c true) true)
          refine ⟨_, r1, ?_⟩
          refine ⟨fun a ha => ?_, fun a ha => ?_, fun a ha => ?_, fun a => ?_, fun a ha => h.ind a (upd_true ha).2,
            fun a ha => h.uses a (upd_true ha).2⟩
          · simp only [View.setD] at ha ⊢
            split at ha
            · cases ha
            · exact h.excl a ha
          · obtain ⟨h2, h3⟩ := upd_true ha
            simp only [View.setD, if_neg h2]; exact h.direct a h3
          · obtain ⟨h2, h3⟩ := upd_true ha
            simp only [View.setD, if_neg h2]; exact h.tried a h3
          · simp only [KeptPins.after, View.setD]
            by_cases hac : a = c
            · simp [upd, hac, hR]
            · simp only [upd, if_neg hac]; exact h.root a
  early := by
    rintro g k op ⟨v, hr, h⟩
    exact ⟨v, hr, h.early op⟩
  put := fun _ _ ok => by cases ok <;> rfl
  remove := fun _ _ ok => by cases ok <;> rfl
  keepsPin := by
    intro k c d h
    simp only [KeptPins.after, KeptPins.Keeps, upd_iff] at h ⊢
    grind
  keepsPinAll := by
    intro k c d h
    simp only [KeptPins.after, KeptPins.Keeps, upd_iff] at h ⊢
    grind
  keepsFail := by
    intro k op d h
    cases op with
    | put b => exact h
    | remove c => exact h
    | pin c r =>
      cases r with
      | false => exact h
      | true =>
        simp only [KeptPins.after, KeptPins.Keeps, upd_iff] at h ⊢
        grind
    | unpin c r =>
      cases r with
      | false => exact h
      | true =>
        simp only [KeptPins.after, KeptPins.Keeps, upd_iff] at h ⊢
        grind
  keepsUnpin := by
    intro k c r d h
    cases r <;> simp only [KeptPins.after, KeptPins.Keeps, upd_iff] at h ⊢ <;> grind
  rootOf := by
    intro k op ok r h
    cases op with
    | put b => cases ok <;> exact Or.inl h
    | remove c => cases ok <;> exact Or.inl h
    | pin c b =>
      cases b <;> cases ok <;> try exact Or.inl h
      rcases (upd_iff _ _ _ _).mp h with ⟨rfl, -⟩ | ⟨-, h1⟩
      · exact Or.inr ⟨rfl, rfl⟩
      · exact Or.inl h1
    | unpin c b =>
      cases b <;> cases ok <;> try exact Or.inl h
      exact Or.inl (upd_true h).2
  rootKeeps := fun k r h => ⟨Or.inr (Or.inr (Or.inl h)), fun d hd => Or.inr (Or.inr (Or.inr ⟨r, h, hd⟩))⟩

/-! ### Histories -/

theorem InUse.uses {env : PinEnv} {content : Cid → Bytes} {U : Cid → Prop} {ops : List NodeOp}
    (h : InUse env content U ops) : ∀ op ∈ ops, Uses content U op := by
  intro op hop
  cases op with
  | put b => exact h.put b hop
  | pin c r => exact h.pin c r hop
  | unpin c r => exact h.unpin c r hop
  | remove c => exact h.remove c hop

theorem InUse.v1 {env : PinEnv} {content : Cid → Bytes} {U : Cid → Prop} {ops : List NodeOp}
    (h : InUse env content U ops) (a b : Cid) (ha : U a) (hb : U b) (he : Cid.asV1 a = Cid.asV1 b) : a = b := by
  refine h.apart a b ha hb ?_
  have h1 := congrArg Cid.mhCode he
  have h2 := congrArg Cid.digest he
  simp only [Cid.asV1] at h1 h2
  simp [Cid.mh, h1, h2]

/-- At every recursive pin of the history, what is below the cid is there and can be read. -/
def AllThere (env : PinEnv) (content : Cid → Bytes) (st : PinStore σ ε) : RepoState σ → List NodeOp → Prop
  | _, [] => True
  | s, op :: ops => (∀ c, op = .pin c true → ∀ d, Below env content c d →
      (s.blocks.getBlock d).isSome = true ∧ Readable (fullLook env content) d) ∧
      AllThere env content st (nodeStep env st s op).2 ops

theorem walk_notCut {env : PinEnv} {content : Cid → Bytes} {U : Cid → Prop} {blocks : MemBlocks}
    (hcl : ∀ a b, U a → LinkTo env content a b → U b) (hb : HoldsData content U blocks) {c : Cid} (hc : U c)
    (h : ∀ d, Below env content c d → (blocks.getBlock d).isSome = true ∧ Readable (fullLook env content) d)
    {b : Block} (hg : blocks.getBlock c = some b) {L : Repo.Refs}
    (hL : descendants (ε := ε) env blocks c b.data = .ok L) : none ∉ L := by
  rw [hb c hc b hg] at hL
  unfold descendants at hL
  split at hL
  · cases hL
  rename_i doc hdoc
  split at hL
  · cases hL
  rename_i ls hls
  have hfull : fullLook env content c = .links ls := by simp [fullLook, look, hdoc, hls]
  split at hL
  · cases hL
  rename_i r hr
  simp only [Except.ok.injEq] at hL
  subst hL
  refine walk_fine (P := fun d => Below env content c d ∧ U d) ?_ ?_ hr
  · rintro d ⟨hd, hu⟩
    obtain ⟨h1, ld, h2⟩ := h d hd
    refine ⟨ld, by rw [repoLook_full hb hu, if_pos h1, h2], fun l hl => ?_⟩
    have := (fullLook_links h2 _).mp ⟨l, hl, rfl⟩
    exact ⟨.step hd this, hcl _ _ hu this⟩
  · intro l hl
    have := (fullLook_links hfull _).mp ⟨l, hl, rfl⟩
    exact ⟨.link this, hcl _ _ hc this⟩

theorem NodeInv.run {S : Type} {env : PinEnv} {content : Cid → Bytes} {U : Cid → Prop} {cut : Prop}
    {after : S → NodeOp → Bool → S} {root keeps : S → Cid → Prop} {Inv : σ → S → Prop} {st : PinStore σ ε}
    (hU : ∀ a b, U a → U b → a.mh = b.mh → a = b) (hcl : ∀ a b, U a → LinkTo env content a b → U b)
    (G : Guard st (treeRefs env content) U cut after root keeps Inv) (ops : List NodeOp) {s : RepoState σ} {k : S}
    (h : NodeInv env content U root keeps Inv s k) (hops : ∀ op ∈ ops, Uses content U op)
    (hcut : cut ∨ AllThere env content st s ops) :
    NodeInv env content U root keeps Inv (nodeRun env st after s k ops).1 (nodeRun env st after s k ops).2 := by
  induction ops generalizing s k with
  | nil => exact h
  | cons op ops ih =>
    have hop := hops op (by simp)
    refine ih (h.step hU hcl G op hop ?_) (fun o ho => hops o (by simp [ho])) (hcut.imp id (fun h => h.2))
    rcases hcut with h1 | ⟨h1, -⟩
    · exact Or.inl h1
    · refine Or.inr (fun c hc b L hg hL => ?_)
      subst hc
      exact walk_notCut hcl h.blocks hop (h1 c rfl) hg hL

/-- In words of links: pinned, or below something pinned recursively. -/
def Required (env : PinEnv) (content : Cid → Bytes) (p : Pins) (c : Cid) : Prop :=
  p.direct c = true ∨ p.root c = true ∨ ∃ r, p.root r = true ∧ Below env content r c

theorem required_iff {env : PinEnv} {content : Cid → Bytes} {p : Pins}
    (h : ∀ r, p.root r = true → ∃ ls items, Whole env content r ls items) (c : Cid) :
    p.Pinned (treeRefs env content) c ↔ Required env content p c := by
  have : p.Indirect (treeRefs env content) c ↔ ∃ r, p.root r = true ∧ Below env content r c := by
    constructor
    · rintro ⟨r, h1, h2⟩
      obtain ⟨ls, items, hw⟩ := h r h1
      exact ⟨r, h1, (hw.below c).mp h2⟩
    · rintro ⟨r, h1, h2⟩
      obtain ⟨ls, items, hw⟩ := h r h1
      exact ⟨r, h1, (hw.below c).mpr h2⟩
  simp only [Pins.Pinned, Required, this]

/-- What is required is there, and refused to be removed; nothing else is refused. -/
def Guarded (env : PinEnv) (content : Cid → Bytes) (st : PinStore σ ε) (s : RepoState σ) (p : Pins) : Prop :=
  (∀ c, Required env content p c → ∃ b, s.blocks.getBlock c = some b ∧ b.data = content c) ∧
  (∀ c, Required env content p c → s.removeBlock st.api c = (s, .pinned)) ∧
  (∀ c, ¬ Required env content p c →
    (s.removeBlock st.api c).2 = (if (s.blocks.getBlock c).isSome then .removed c else .notFound) ∧
    (s.removeBlock st.api c).1.blocks.getBlock c = none)

theorem guarded_of {env : PinEnv} {content : Cid → Bytes} {U : Cid → Prop} {Inv : σ → Pins → Prop}
    {st : PinStore σ ε} {s : RepoState σ} {p : Pins}
    (h : NodeInv env content U (fun k r => k.root r = true) (fun k c => k.Pinned (treeRefs env content) c) Inv s p)
    (hi : ∀ c, st.isPinned s.pins c = true ↔ p.Pinned (treeRefs env content) c) : Guarded env content st s p := by
  refine ⟨fun c hc => ?_, fun c hc => ?_, fun c hc => ?_⟩
  · obtain ⟨h1, h2⟩ := h.kept c ((required_iff h.whole c).mpr hc)
    obtain ⟨b, hb⟩ := Option.isSome_iff_exists.mp h2
    exact ⟨b, hb, h.blocks c h1 b hb⟩
  · exact (C29_remove_block st.api s c).1 ((hi c).mpr ((required_iff h.whole c).mpr hc))
  · have hp : st.api.isPinned s.pins c = false := by
      cases hx : st.api.isPinned s.pins c with
      | false => rfl
      | true => exact absurd ((required_iff h.whole c).mp ((hi c).mp hx)) hc
    obtain ⟨-, -, h3, h4⟩ := (C29_remove_block st.api s c).2 hp
    exact ⟨h4, by rw [h3, if_pos rfl]⟩

/-- **C69** (store on disk): after every history of storing, pinning, unpinning and removing, failed requests among
them, exactly what has been pinned, and everything below what has been pinned recursively, is refused to be removed,
and all of it is there with its data. -/
theorem C69_disk (env : PinEnv) (content : Cid → Bytes) (U : Cid → Prop) (le : Cid → Cid → Bool) (ops : List NodeOp)
    (hu : InUse env content U ops) :
    let r := nodeRun env (fsStore le) pinsMoved ⟨[], [], []⟩ Pins.none ops
    Guarded env content (fsStore le) r.1 r.2 := by
  intro r
  have h : NodeInv env content U (fun k r => k.root r = true) (fun k c => k.Pinned (treeRefs env content) c)
      (FsInv (treeRefs env content)) r.1 r.2 := by
    refine NodeInv.run hu.apart hu.closed (fsGuard le _ U) ops ⟨FsInv.nil _, ?_, ?_, ?_⟩ hu.uses (Or.inl trivial)
    · intro c _ b hb; simp [MemBlocks.getBlock, AMap.get] at hb
    · intro d hd; simp [Pins.Pinned, Pins.Indirect, Pins.none] at hd
    · intro r hr; simp [Pins.none] at hr
  refine guarded_of h (fun c => ?_)
  obtain ⟨b, h1, h2⟩ := h.pins.isPinned c
  simp only [fsStore, h1]
  exact h2

/-- **C69** (in-memory store): the same if everything below what is pinned recursively is there when it is pinned. -/
theorem C69_memory (env : PinEnv) (content : Cid → Bytes) (U : Cid → Prop) (le : Cid → Cid → Bool) (ops : List NodeOp)
    (hu : InUse env content U ops) (ha : AllThere env content (memStore le) ⟨[], [], []⟩ ops) :
    let r := nodeRun env (memStore le) pinsMoved ⟨[], [], []⟩ Pins.none ops
    Guarded env content (memStore le) r.1 r.2 := by
  intro r
  have h : NodeInv env content U (fun k r => k.root r = true) (fun k c => k.Pinned (treeRefs env content) c)
      (MemInv (treeRefs env content) U) r.1 r.2 := by
    refine NodeInv.run hu.apart hu.closed (memGuard le _ (treeRefs_nodup env content) U hu.v1) ops
      ⟨MemInv.nil _ _, ?_, ?_, ?_⟩ hu.uses (Or.inr ha)
    · intro c _ b hb; simp [MemBlocks.getBlock, AMap.get] at hb
    · intro d hd; simp [Pins.Pinned, Pins.Indirect, Pins.none] at hd
    · intro r hr; simp [Pins.none] at hr
  exact guarded_of h (fun c => h.pins.isPinned c)

/-- **C69** (in-memory store): whatever requests fail, what has been pinned successfully stays and cannot be removed
until it is asked to be unpinned, with everything below if it was pinned recursively. -/
theorem C69_memory_keeps (env : PinEnv) (content : Cid → Bytes) (U : Cid → Prop) (le : Cid → Cid → Bool)
    (ops : List NodeOp) (hu : InUse env content U ops) (c : Cid) :
    let r := nodeRun env (memStore le) KeptPins.after ⟨[], [], []⟩ {} ops
    (r.2.direct c = true ∨ r.2.tried c = true ∨ r.2.root c = true ∨ ∃ x, r.2.root x = true ∧ Below env content x c) →
    (∃ b, r.1.blocks.getBlock c = some b ∧ b.data = content c) ∧
    r.1.removeBlock (memStore le).api c = (r.1, .pinned) := by
  intro r hk
  have G := keptGuard le _ (treeRefs_nodup env content) U hu.v1
  have h : NodeInv env content U (fun k r => k.root r = true) (KeptPins.Keeps (treeRefs env content))
      (KeptInv (treeRefs env content) U) r.1 r.2 := by
    refine NodeInv.run hu.apart hu.closed G ops ⟨?_, ?_, ?_, ?_⟩ hu.uses (Or.inl trivial)
    · exact ⟨_, Rel.nil, ⟨by simp, by simp, by simp, by simp, by simp, by simp⟩⟩
    · intro c _ b hb; simp [MemBlocks.getBlock, AMap.get] at hb
    · intro d hd; simp [KeptPins.Keeps] at hd
    · intro r hr; simp at hr
  have hk' : r.2.Keeps (treeRefs env content) c := by
    rcases hk with h1 | h1 | h1 | ⟨x, h1, h2⟩
    · exact Or.inl h1
    · exact Or.inr (Or.inl h1)
    · exact Or.inr (Or.inr (Or.inl h1))
    · obtain ⟨ls, items, hw⟩ := h.whole x h1
      exact Or.inr (Or.inr (Or.inr ⟨x, h1, (hw.below c).mpr h2⟩))
  obtain ⟨h1, h2⟩ := h.kept c hk'
  obtain ⟨b, hb⟩ := Option.isSome_iff_exists.mp h2
  exact ⟨⟨b, hb, h.blocks c h1 b hb⟩, (C29_remove_block _ _ _).1 (G.pinned _ _ _ h.pins hk')⟩

end Verif.Props
