import Verif.Repo.RemoveBlock
import Verif.Props.PinsMem

/-!
# C29: pinned blocks are not removed
-/

namespace Verif.Props

open Verif Verif.Repo Verif.Spec

variable {σ ε : Type}

/-- **C29**: without anything in between, `remove_block` fails and changes nothing if the cid is
pinned; otherwise it removes exactly the block of that multihash and answers whether there was one;
the pins never change. -/
theorem C29_remove_block (api : PinApi σ ε) (s : RepoState σ) (c : Cid) :
    (api.isPinned s.pins c = true → s.removeBlock api c = (s, .pinned)) ∧
    (api.isPinned s.pins c = false →
      (s.removeBlock api c).1.pins = s.pins ∧
      (s.removeBlock api c).1.removing = s.removing ∧
      (∀ d, (s.removeBlock api c).1.blocks.getBlock d =
        if d.mh = c.mh then none else s.blocks.getBlock d) ∧
      (s.removeBlock api c).2 = if (s.blocks.getBlock c).isSome then .removed c else .notFound) := by
  refine ⟨fun h => ?_, fun h => ?_⟩
  · simp [RepoState.removeBlock, RepoState.step, h]
  · have he : s.removeBlock api c = ({ s with blocks := (s.blocks.remove c).1 },
        if (s.blocks.remove c).2 then .removed c else .notFound) := by
      simp [RepoState.removeBlock, RepoState.step, h, List.eraseIdx_append_of_length_le]
    rw [he]
    refine ⟨rfl, rfl, fun d => ?_, ?_⟩
    · simp only [MemBlocks.remove, MemBlocks.getBlock, AMap.get_erase]
      split <;> rfl
    · simp only [MemBlocks.remove, MemBlocks.getBlock, Option.isSome_map]
      rfl

/-- Steps that are not part of a removal, and whole removals: nothing comes between the check and
the removal. -/
inductive SeqOp where
  | put (b : Block)
  | pin (op : PinOp)
  | remove (c : Cid)
deriving DecidableEq, Repr

/-- Their effect. -/
def seqStep (api : PinApi σ ε) (s : RepoState σ) : SeqOp → RepoState σ
  | .put b => (s.step api (.put b)).1
  | .pin op => (s.step api (.pin op)).1
  | .remove c => (s.removeBlock api c).1

/-- A history of them. -/
def seqRun (api : PinApi σ ε) (s : RepoState σ) (ops : List SeqOp) : RepoState σ :=
  ops.foldl (seqStep api) s

/-- At every removal of the history, `c` is pinned. -/
def PinnedAtRemovals (api : PinApi σ ε) (c : Cid) : RepoState σ → List SeqOp → Prop
  | _, [] => True
  | s, op :: ops => (∀ d, op = .remove d → api.isPinned s.pins c = true) ∧
      PinnedAtRemovals api c (seqStep api s op) ops

/-- **C29** (in part): in a history of puts, pin operations and removals with nothing between check
and removal, a block that is pinned whenever a removal is asked for stays readable, with the same
bytes. The cid is the only one of its multihash in use. Missing: removals concurrent with pinning and
several cids of one multihash; both are false, by `C29_race` and `C29_alias`. -/
theorem C29_pinned_stays_partial (api : PinApi σ ε) (c : Cid) (b : Block) (s : RepoState σ)
    (ops : List SeqOp) (hp : PinnedAtRemovals api c s ops)
    (ha : ∀ d, .remove d ∈ ops → d.mh = c.mh → d = c) (hb : s.blocks.getBlock c = some b) :
    (seqRun api s ops).blocks.getBlock c = some b := by
  induction ops generalizing s with
  | nil => exact hb
  | cons op ops ih =>
    obtain ⟨h1, h2⟩ := hp
    refine ih _ h2 (fun d hd => ha d (by simp [hd])) ?_
    cases op with
    | pin op => exact hb
    | put b' =>
      simp only [seqStep, RepoState.step, MemBlocks.put, MemBlocks.getBlock] at hb ⊢
      cases hg : AMap.get s.blocks b'.cid.mh with
      | some v => simp only []; exact hb
      | none =>
        have hne : c.mh ≠ b'.cid.mh := by
          intro he
          rw [he, hg] at hb
          simp at hb
        simp only [AMap.get_set_ne _ _ hne]; exact hb
    | remove d =>
      have hpin := h1 d rfl
      cases hd : api.isPinned s.pins d with
      | true =>
        simp only [seqStep, (C29_remove_block api s d).1 hd]; exact hb
      | false =>
        obtain ⟨_, _, h3, _⟩ := (C29_remove_block api s d).2 hd
        simp only [seqStep, h3]
        rw [if_neg]
        · exact hb
        · intro he
          have := ha d (by simp) he.symm
          rw [this, hpin] at hd
          cases hd

/-! ### With the in-memory pin store -/

/-- The in-memory pin store. -/
def memApi (le : Cid → Cid → Bool) (refs : Cid → List Cid) : PinApi MemPins PinErr :=
  ⟨MemPins.isPinned, memStep le refs⟩

/-- The pin operations of a history. -/
def pinOps (ops : List SeqOp) : List PinOp :=
  ops.filterMap fun | .pin op => some op | _ => none

theorem removeBlock_pins (api : PinApi σ ε) (s : RepoState σ) (c : Cid) :
    (s.removeBlock api c).1.pins = s.pins := by
  cases h : api.isPinned s.pins c with
  | true => rw [(C29_remove_block api s c).1 h]
  | false => exact ((C29_remove_block api s c).2 h).1

theorem seqRun_pins (le : Cid → Cid → Bool) (refs : Cid → List Cid) (s : RepoState MemPins) (p : Pins)
    (ops : List SeqOp) : (seqRun (memApi le refs) s ops).pins =
      (track (memStep le refs) s.pins p (pinOps ops)).1 := by
  induction ops generalizing s p with
  | nil => rfl
  | cons op ops ih =>
    simp only [seqRun, List.foldl_cons] at ih ⊢
    cases op with
    | put b =>
      rw [ih _ p]; rfl
    | remove c =>
      rw [ih _ p]
      have : (seqStep (memApi le refs) s (.remove c)).pins = s.pins := removeBlock_pins _ s c
      rw [this]; rfl
    | pin op =>
      simp only [pinOps, List.filterMap_cons, track, trackBy]
      have hs : (seqStep (memApi le refs) s (.pin op)).pins = (memStep le refs s.pins op).2 := rfl
      cases hm : memStep le refs s.pins op with
      | mk r g =>
        rw [hm] at hs
        cases r with
        | ok u => simp only; rw [ih _ (p.after op), hs]; rfl
        | error e => simp only; rw [ih _ p, hs]; rfl

/-- **C29**: after every history of puts, pin operations and removals on the empty in-memory repo,
`remove_block` answers "pinned" exactly if the user's successful pin operations say that the block is
to be kept, directly, recursively or through a root. -/
theorem C29_mem_refuses (le : Cid → Cid → Bool) (refs : Cid → List Cid) (hn : ∀ c, (refs c).Nodup)
    (ops : List SeqOp) (ha : Apart (pinOps ops)) (c : Cid) :
    ((seqRun (memApi le refs) ⟨[], [], []⟩ ops).removeBlock (memApi le refs) c).2 = .pinned ↔
      (track (memStep le refs) [] Pins.none (pinOps ops)).2.Pinned refs c := by
  rw [← C30_mem_tracks le refs hn (pinOps ops) ha c, ← seqRun_pins le refs ⟨[], [], []⟩ Pins.none ops]
  generalize seqRun (memApi le refs) ⟨[], [], []⟩ ops = s
  cases h : (memApi le refs).isPinned s.pins c with
  | true =>
    rw [(C29_remove_block _ s c).1 h]
    have h' : s.pins.isPinned c = true := h
    simp [h']
  | false =>
    rw [((C29_remove_block _ s c).2 h).2.2.2]
    have h' : s.pins.isPinned c = false := h
    rw [h']
    split <;> simp

/-- A history in which a recursive root keeps its descendant. -/
example :
    let api := memApi exLe exRefs
    let b9 : Block := ⟨pcid .v1 9, [9]⟩
    let ops : List SeqOp := [.put b9, .pin (.insertRecursive (pcid .v1 1)), .remove (pcid .v1 9),
      .put ⟨pcid .v1 8, [8]⟩, .pin (.insertDirect (pcid .v1 9)), .remove (pcid .v1 7)]
    (seqRun api ⟨[], [], []⟩ ops).blocks.getBlock (pcid .v1 9) = some b9 ∧
    ((seqRun api ⟨[], [], []⟩ ops).removeBlock api (pcid .v1 9)).2 = .pinned := by
  decide +kernel

/-- **C29** fails under concurrency: the pin is set between the check and the removal. -/
theorem C29_race :
    let api := memApi exLe exRefs
    let b9 : Block := ⟨pcid .v1 9, [9]⟩
    let s := RepoState.run api ⟨[], [], []⟩ [.put b9, .removeCheck (pcid .v1 9),
      .pin (.insertDirect (pcid .v1 9)), .removeNow 0]
    s.pins.isPinned (pcid .v1 9) = true ∧ s.blocks.getBlock (pcid .v1 9) = none := by
  decide +kernel

/-- **C29** fails for two cids of one multihash: blocks are kept by multihash but pins by cid, so the
version 1 form of a block pinned under its version 0 form can be removed, and the block with it. -/
theorem C29_alias :
    let api := memApi exLe exRefs
    let b : Block := ⟨pcid .v0 9, [9]⟩
    let s := seqRun api ⟨[], [], []⟩ [.put b, .pin (.insertDirect (pcid .v0 9)), .remove (pcid .v1 9)]
    s.pins.isPinned (pcid .v0 9) = true ∧ s.blocks.getBlock (pcid .v0 9) = none := by
  decide +kernel

end Verif.Props
