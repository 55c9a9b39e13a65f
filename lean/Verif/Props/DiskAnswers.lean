import Verif.Props.DiskNode

/-!
# C87: each request to a node on disk does what it says and nothing else

The answers and effects of the requests of C83, in every state that crashes can leave behind.
-/

namespace Verif.Props

open Verif Verif.Ipld Verif.Repo Verif.Repo.FsPaths Verif.Ipfs.Refs Verif.Ipfs.Pin Verif.Ipfs.DiskNode

/-! ### Specification -/

/-- What is on disk. -/
def onDisk (n : DiskNode) (c : Cid) : Bytes := (n.get c).getD []

/-- There is a recursive pin of this block. -/
def RecPinned (n : DiskNode) (c : Cid) : Prop := (n.pins.get (c, .recursive)).isSome = true

/-- There is a direct pin of this block. -/
def DirPinned (n : DiskNode) (c : Cid) : Prop := (n.pins.get (c, .direct)).isSome = true

/-- The pin of `r` keeps `d`. -/
def KeptBy (n : DiskNode) (r d : Cid) : Prop :=
  (d = r ∧ (RecPinned n r ∨ DirPinned n r)) ∨ ∃ l, n.pins.get (r, .recursive) = some (.json l) ∧ d ∈ l

/-- The block is there and its links can be read. -/
def GoodAt (env : PinEnv) (n : DiskNode) (d : Cid) : Prop := (n.get d).isSome = true ∧ Readable (fullLook env (onDisk n)) d

/-- The walk along the links from `c` ends within the steps it is given. -/
def WalkEnds (env : PinEnv) (n : DiskNode) (c : Cid) : Prop :=
  ∀ ls, look env.ipld env.size n.get c = .links ls → refs walkOpts (look env.ipld env.size n.get) env.fuel [(c, ls)] ≠ none

/-- The same blocks. -/
def SameBlocks (n n' : DiskNode) : Prop := ∀ d, n'.get d = n.get d

/-- The same pins, but maybe that of `c`. -/
def SamePinsBut (c : Cid) (n n' : DiskNode) : Prop :=
  ∀ r, r ≠ c → (RecPinned n' r ↔ RecPinned n r) ∧ (DirPinned n' r ↔ DirPinned n r) ∧ ∀ d, KeptBy n' r d ↔ KeptBy n r d

/-- The same pins. -/
def SamePins (n n' : DiskNode) : Prop :=
  ∀ r, (RecPinned n' r ↔ RecPinned n r) ∧ (DirPinned n' r ↔ DirPinned n r) ∧ ∀ d, KeptBy n' r d ↔ KeptBy n r d

/-- What a request that is not cut off answers, and what is there afterwards. -/
def RightAnswer (env : PinEnv) (n n' : DiskNode) (ok : Prop) : NodeOp → Prop
  | .put b => ok ∧ SamePins n n' ∧ (∀ d, toV1 d ≠ toV1 b.cid → n'.get d = n.get d) ∧ n'.get b.cid = some ((n.get b.cid).getD b.data)
  | .remove c => (ok ↔ (n.get c).isSome = true ∧ ∀ r, ¬ KeptBy n r c) ∧ SamePins n n' ∧
      (ok → n'.get c = none) ∧ ∀ d, toV1 d ≠ toV1 c ∨ ¬ ok → n'.get d = n.get d
  | .pin c false => (ok ↔ (n.get c).isSome = true ∧ ¬ RecPinned n c) ∧ SameBlocks n n' ∧ SamePinsBut c n n' ∧ (¬ ok → SamePins n n') ∧
      (ok → DirPinned n' c ∧ ¬ RecPinned n' c ∧ ∀ d, KeptBy n' c d ↔ d = c)
  | .pin c true => (ok ↔ WalkEnds env n c ∧ ∀ d, InTree env (onDisk n) c d → GoodAt env n d) ∧ SameBlocks n n' ∧ SamePinsBut c n n' ∧
      (¬ ok → SamePins n n') ∧ (ok → RecPinned n' c ∧ ¬ DirPinned n' c ∧ ∀ d, KeptBy n' c d ↔ InTree env (onDisk n) c d)
  | .unpin c false => (ok ↔ DirPinned n c ∧ ¬ RecPinned n c) ∧ SameBlocks n n' ∧ SamePinsBut c n n' ∧ (¬ ok → SamePins n n') ∧
      (ok → ∀ d, ¬ KeptBy n' c d)
  | .unpin c true => (ok ↔ GoodAt env n c ∧ WalkEnds env n c ∧ (DirPinned n c ∨ RecPinned n c)) ∧ SameBlocks n n' ∧ SamePinsBut c n n' ∧
      (¬ ok → SamePins n n') ∧ (ok → ∀ d, ¬ KeptBy n' c d)

/-! ### Helpers -/

theorem SamePins.of_eq {n n' : DiskNode} (h : n'.pins = n.pins) : SamePins n n' := by
  intro r
  simp only [RecPinned, DirPinned, KeptBy, h, implies_true, and_self]

theorem SamePinsBut.of_get {c : Cid} {n n' : DiskNode} (h : ∀ r, r ≠ c → ∀ e, e ≠ .recursiveTemp → n'.pins.get (r, e) = n.pins.get (r, e)) :
    SamePinsBut c n n' := by
  intro r hr
  simp only [RecPinned, DirPinned, KeptBy, h r hr .recursive (by simp), h r hr .direct (by simp), implies_true, and_self]

theorem onDisk_right {n : DiskNode} (d : Cid) (b : Bytes) (h : n.get d = some b) : b = onDisk n d := by simp [onDisk, h]

theorem look_disk {env : PinEnv} {n : DiskNode} {c : Cid} (h : (n.get c).isSome = true) :
    look env.ipld env.size n.get c = fullLook env (onDisk n) c := by
  rw [look_full (U := fun _ => True) (fun c _ b hb => onDisk_right c b hb) trivial, if_pos h]

theorem not_pinned_iff {n : DiskNode} (h : WholeFiles n.pins) (c : Cid) : n.pins.isPinned c = .ok false ↔ ∀ r, ¬ KeptBy n r c := by
  obtain ⟨b, hb, hi⟩ := isPinned_readable h c
  rw [hb]
  have : PinnedFiles n.pins c ↔ ∃ r, KeptBy n r c := by
    unfold PinnedFiles KeptBy RecPinned DirPinned
    constructor
    · rintro (h | h | ⟨r, l, h1, h2⟩)
      · exact ⟨c, .inl ⟨rfl, .inl h⟩⟩
      · exact ⟨c, .inl ⟨rfl, .inr h⟩⟩
      · exact ⟨r, .inr ⟨l, h1, h2⟩⟩
    · rintro ⟨r, ⟨rfl, h | h⟩ | ⟨l, h1, h2⟩⟩
      · exact .inl h
      · exact .inr (.inl h)
      · exact .inr (.inr ⟨r, l, h1, h2⟩)
  rw [this] at hi
  cases b with
  | true =>
    simp only [Except.ok.injEq, Bool.true_eq_false, false_iff]
    intro h
    obtain ⟨r, hr⟩ := hi.1 rfl
    exact h r hr
  | false =>
    simp only [true_iff]
    intro r hr
    exact absurd (hi.2 ⟨r, hr⟩) (by simp)

/-- When the descendants of a block are known. -/
theorem descendantsOf_iff {ε : Type} {env : PinEnv} {n : DiskNode} {c : Cid} {data : Bytes} (hg : n.get c = some data) :
    (∃ L, descendantsOf (ε := ε) env n.get c data = .ok L) ↔ GoodAt env n c ∧ WalkEnds env n c := by
  have hlk : look env.ipld env.size n.get c = fullLook env (onDisk n) c := look_disk (by rw [hg]; rfl)
  unfold GoodAt WalkEnds Readable
  rw [hg, hlk]
  have hon : onDisk n c = data := (onDisk_right c data hg).symm
  unfold descendantsOf
  cases hd : decodeIpld env.ipld env.size c data with
  | error x => simp [fullLook, look, hon, hd]
  | ok doc =>
    cases hl : ipldLinks c doc with
    | none => simp [fullLook, look, hon, hd, hl]
    | some ls =>
      have hx : fullLook env (onDisk n) c = .links ls := by simp [fullLook, look, hon, hd, hl]
      rw [hx]
      simp only [hl]
      cases hr : refs walkOpts (look env.ipld env.size n.get) env.fuel [(c, ls)] with
      | none => simp [hr]
      | some r => simp [hr]

theorem walk_whole {ε : Type} {env : PinEnv} {n : DiskNode} {c : Cid} {data : Bytes} (hg : n.get c = some data)
    (h : ∀ d, InTree env (onDisk n) c d → GoodAt env n d) {L : Repo.Refs} (hL : descendantsOf (ε := ε) env n.get c data = .ok L) : none ∉ L := by
  have hlk : ∀ d, InTree env (onDisk n) c d → look env.ipld env.size n.get d = fullLook env (onDisk n) d := fun d hd => look_disk (h d hd).1
  have hon : onDisk n c = data := (onDisk_right c data hg).symm
  unfold descendantsOf at hL
  split at hL
  · cases hL
  rename_i doc hdoc
  split at hL
  · cases hL
  rename_i ls hls
  have hx : fullLook env (onDisk n) c = .links ls := by simp [fullLook, look, hon, hdoc, hls]
  split at hL
  · cases hL
  rename_i r hr
  cases hL
  refine walk_fine (P := InTree env (onDisk n) c) ?_ ?_ hr
  · intro d hd
    obtain ⟨ld, hld⟩ := (h d hd).2
    exact ⟨ld, by rw [hlk d hd, hld], fun l hl => inTree_closed hd ((fullLook_links hld _).mp ⟨l, hl, rfl⟩)⟩
  · intro l hl
    exact inTree_closed (.inl rfl) ((fullLook_links hx _).mp ⟨l, hl, rfl⟩)

theorem step_planned {env : PinEnv} {le : Cid → Cid → Bool} {n : DiskNode} {op : NodeOp} {ok : Bool} {cs : List Change}
    (h : n.plan env le op = (ok, cs)) : n.step env le op .done = cs.foldl Change.run n := by
  simp only [DiskNode.step, h]

theorem pinPlan_if {p : Prop} [Decidable p] (a b : Except PinErr (List DiskStep)) : pinPlan (if p then a else b) = if p then pinPlan a else pinPlan b := by
  split <;> rfl

/-- Which requests go well and what they change. -/
theorem plan_remove {env : PinEnv} {le : Cid → Cid → Bool} {n : DiskNode} (hw : WholeFiles n.pins) (c : Cid) :
    (((n.get c).isSome = true ∧ ∀ r, ¬ KeptBy n r c) ∧ n.plan env le (.remove c) = (true, [.gone c])) ∨
    (¬ ((n.get c).isSome = true ∧ ∀ r, ¬ KeptBy n r c) ∧ n.plan env le (.remove c) = (false, [])) := by
  have hp := not_pinned_iff hw c
  by_cases hk : n.pins.isPinned c = .ok false
  · rw [← hp]
    simp only [DiskNode.plan, hk, and_true]
    cases n.get c <;> simp
  · right
    exact ⟨fun h => hk (hp.2 h.2), remove_refused hk⟩

theorem plan_pinDirect {env : PinEnv} {le : Cid → Cid → Bool} {n : DiskNode} (c : Cid) :
    (((n.get c).isSome = true ∧ ¬ RecPinned n c) ∧ n.plan env le (.pin c false) = (true, [.pin (.create c .direct .empty)])) ∨
    (¬ ((n.get c).isSome = true ∧ ¬ RecPinned n c) ∧ n.plan env le (.pin c false) = (false, [])) := by
  have hR : RecPinned n c ↔ n.pins.isFile c .recursive = true := Iff.rfl
  simp only [DiskNode.plan, FsPins.insertDirect, hR]
  cases n.get c with
  | none => simp
  | some data => by_cases hr : n.pins.isFile c .recursive = true <;> simp [pinPlan, hr]

theorem plan_unpinDirect {env : PinEnv} {le : Cid → Cid → Bool} {n : DiskNode} (c : Cid) :
    ((DirPinned n c ∧ ¬ RecPinned n c) ∧ n.plan env le (.unpin c false) = (true, [.pin (.remove c .direct)])) ∨
    (¬ (DirPinned n c ∧ ¬ RecPinned n c) ∧ n.plan env le (.unpin c false) = (false, [])) := by
  have hR : RecPinned n c ↔ n.pins.isFile c .recursive = true := Iff.rfl
  have hD : DirPinned n c ↔ n.pins.isFile c .direct = true := Iff.rfl
  simp only [DiskNode.plan, FsPins.removeDirect, hR, hD]
  by_cases hr : n.pins.isFile c .recursive = true <;> by_cases hd : n.pins.isFile c .direct = true <;> simp [pinPlan, hr, hd]

theorem plan_unpinRecursive {env : PinEnv} {le : Cid → Cid → Bool} {n : DiskNode} (c : Cid) :
    ((GoodAt env n c ∧ WalkEnds env n c ∧ (DirPinned n c ∨ RecPinned n c)) ∧
      n.plan env le (.unpin c true) = (true, [.pin (.remove c .direct), .pin (.remove c .recursive)])) ∨
    (¬ (GoodAt env n c ∧ WalkEnds env n c ∧ (DirPinned n c ∨ RecPinned n c)) ∧ n.plan env le (.unpin c true) = (false, [])) := by
  cases hg : n.get c with
  | none => right; simp [DiskNode.plan, hg, GoodAt]
  | some data =>
    have hi := descendantsOf_iff (ε := PinErr) (env := env) hg
    cases hD : descendantsOf (ε := PinErr) env n.get c data with
    | error e =>
      right
      refine ⟨?_, by simp [DiskNode.plan, hg, hD]⟩
      rintro ⟨h1, h2, -⟩
      obtain ⟨L, hL⟩ := hi.2 ⟨h1, h2⟩
      rw [hD] at hL
      cases hL
    | ok L =>
      obtain ⟨h1, h2⟩ := hi.1 ⟨L, hD⟩
      have hR : RecPinned n c ↔ n.pins.isFile c .recursive = true := Iff.rfl
      have hDi : DirPinned n c ↔ n.pins.isFile c .direct = true := Iff.rfl
      simp only [DiskNode.plan, hg, hD, FsPins.removeRecursive, hR, hDi, h1, h2, true_and]
      by_cases hr : n.pins.isFile c .recursive = true <;> by_cases hd : n.pins.isFile c .direct = true <;> simp [pinPlan, hr, hd]

theorem plan_pinRecursive {env : PinEnv} {le : Cid → Cid → Bool} {n : DiskNode} (c : Cid) :
    ((WalkEnds env n c ∧ ∀ d, InTree env (onDisk n) c d → GoodAt env n d) ∧ ∃ S, (∀ d, d ∈ S ↔ Below env (onDisk n) c d) ∧
      n.plan env le (.pin c true) = (true, ([.create c .recursiveTemp .torn, .write c .recursiveTemp (.json S),
        .rename c .recursiveTemp .recursive, .remove c .direct] : List DiskStep).map Change.pin)) ∨
    (¬ (WalkEnds env n c ∧ ∀ d, InTree env (onDisk n) c d → GoodAt env n d) ∧ n.plan env le (.pin c true) = (false, [])) := by
  cases hg : n.get c with
  | none =>
    right
    refine ⟨?_, by simp [DiskNode.plan, hg]⟩
    rintro ⟨-, h⟩
    have := (h c (.inl rfl)).1
    rw [hg] at this
    cases this
  | some data =>
    have hi := descendantsOf_iff (ε := PinErr) (env := env) hg
    cases hD : descendantsOf (ε := PinErr) env n.get c data with
    | error e =>
      right
      refine ⟨?_, by simp [DiskNode.plan, hg, hD]⟩
      rintro ⟨h1, h2⟩
      obtain ⟨L, hL⟩ := hi.2 ⟨h2 c (.inl rfl), h1⟩
      rw [hD] at hL
      cases hL
    | ok L =>
      obtain ⟨hc, he⟩ := hi.1 ⟨L, hD⟩
      rcases descendantsOf_cases (U := InTree env (onDisk n) c) (fun a b ha hl => inTree_closed ha hl) (fun d _ b hb => onDisk_right d b hb) (.inl rfl)
        hg hD with hnone | ⟨rfl, ⟨ls, items, hwh⟩, ht⟩
      · right
        refine ⟨?_, by simp [DiskNode.plan, hg, hD, FsPins.insertRecursive, collectRefs_fails le L hnone, pinPlan]⟩
        rintro ⟨-, h2⟩
        exact walk_whole hg h2 hD hnone
      · left
        refine ⟨⟨he, ?_⟩, toSet le (treeRefs env (onDisk n) c), fun d => by rw [mem_toSet, hwh.below d],
          by simp [DiskNode.plan, hg, hD, FsPins.insertRecursive, collectRefs_ok, pinPlan]⟩
        rintro d (rfl | hd)
        · exact hc
        · have hd' := (hwh.below d).2 hd
          refine ⟨(ht d hd').2, ?_⟩
          obtain ⟨g1, g2, g3⟩ := hwh
          rw [Whole.treeRefs ⟨g1, g2, g3⟩] at hd'
          obtain ⟨ld, h7, -⟩ := (walk_found g2 g3).2.2.1 d hd'
          exact ⟨ld, h7⟩

/-! ### C87 -/

/-- **C87**: in every state that requests and crashes can leave behind, a request that is not cut off is answered as it should be and does what it says
and nothing else. -/
theorem C87_answers (env : PinEnv) (le : Cid → Cid → Bool) (hist : List (NodeOp × Ends)) (op : NodeOp) (n : DiskNode)
    (hn : n = DiskNode.run env le ⟨[], []⟩ hist) : RightAnswer env n (n.step env le op .done) ((n.plan env le op).1 = true) op := by
  have hw : WholeFiles n.pins := by rw [hn]; exact WholeFiles.run hist (fun c f h => by cases h)
  clear hn
  cases op with
  | put b =>
    refine ⟨rfl, ?_, ?_, ?_⟩
    · apply SamePins.of_eq
      simp only [DiskNode.step, DiskNode.plan]
      split <;> rfl
    · intro d hd
      simp only [DiskNode.step, DiskNode.plan]
      split
      · rfl
      · simp only [List.foldl_cons, List.foldl_nil, Change.run, DiskNode.get]
        rw [AMap.get_set_ne _ _ hd, AMap.get_set_ne _ _ hd]
    · simp only [DiskNode.step, DiskNode.plan]
      cases hg : n.get b.cid with
      | some v => simp [hg]
      | none => simp [Change.run, DiskNode.get, AMap.get_set]
  | remove c =>
    unfold RightAnswer
    rcases plan_remove (env := env) (le := le) hw c with ⟨h, hp⟩ | ⟨h, hp⟩
    · rw [step_planned hp, hp]
      refine ⟨by simpa using h, SamePins.of_eq rfl, fun _ => by simp [Change.run, DiskNode.get, AMap.get_erase], fun d hd => ?_⟩
      simp only [not_true_eq_false, or_false] at hd
      simp only [List.foldl_cons, List.foldl_nil, Change.run, DiskNode.get]
      rw [AMap.get_erase_ne _ hd]
    · rw [step_planned hp, hp]
      exact ⟨by simpa using h, SamePins.of_eq rfl, by simp, fun _ _ => rfl⟩
  | pin c rec =>
    cases rec with
    | false =>
      unfold RightAnswer
      rcases plan_pinDirect (env := env) (le := le) (n := n) c with ⟨h, hp⟩ | ⟨h, hp⟩
      · rw [step_planned hp, hp]
        have e : (AMap.get n.pins (c, .recursive)) = none := by simpa [RecPinned] using h.2
        refine ⟨by simpa using h, fun _ => rfl, SamePinsBut.of_get fun r hrc e _ => ?_, by simp, fun _ => ?_⟩
        · simp [Change.run, DiskStep.run, AMap.get_set, hrc]
        · refine ⟨by simp [DirPinned, Change.run, DiskStep.run, AMap.get_set],
            by simp [RecPinned, Change.run, DiskStep.run, AMap.get_set, e], fun d => ?_⟩
          simp [KeptBy, RecPinned, DirPinned, Change.run, DiskStep.run, AMap.get_set, e]
      · rw [step_planned hp, hp]
        exact ⟨by simpa using h, fun _ => rfl, SamePinsBut.of_get fun _ _ _ _ => rfl, fun _ => SamePins.of_eq rfl, by simp⟩
    | true =>
      unfold RightAnswer
      rcases plan_pinRecursive (env := env) (le := le) (n := n) c with ⟨h, S, hS, hp⟩ | ⟨h, hp⟩
      · rw [step_planned hp, hp]
        simp only [pins_foldl, runSteps, List.foldl_cons, List.foldl_nil, DiskStep.run, AMap.get_set, if_true]
        refine ⟨by simpa using h, fun _ => rfl, SamePinsBut.of_get fun r hrc e hne => ?_, by simp, fun _ => ⟨?_, ?_, fun d => ?_⟩⟩
        · simp [AMap.get_set, AMap.get_erase, hrc]
        · simp [RecPinned, AMap.get_set, AMap.get_erase]
        · simp [DirPinned, AMap.get_erase]
        · simp only [KeptBy, RecPinned, DirPinned, AMap.get_set, AMap.get_erase, InTree, ← hS d]
          simp
      · rw [step_planned hp, hp]
        exact ⟨by simpa using h, fun _ => rfl, SamePinsBut.of_get fun _ _ _ _ => rfl, fun _ => SamePins.of_eq rfl, by simp⟩
  | unpin c rec =>
    cases rec with
    | false =>
      unfold RightAnswer
      rcases plan_unpinDirect (env := env) (le := le) (n := n) c with ⟨h, hp⟩ | ⟨h, hp⟩
      · rw [step_planned hp, hp]
        have e : (AMap.get n.pins (c, .recursive)) = none := by simpa [RecPinned] using h.2
        refine ⟨by simpa using h, fun _ => rfl, SamePinsBut.of_get fun r hrc e _ => ?_, by simp, fun _ d => ?_⟩
        · simp [Change.run, DiskStep.run, AMap.get_erase, hrc]
        · simp [KeptBy, RecPinned, DirPinned, Change.run, DiskStep.run, AMap.get_erase, e]
      · rw [step_planned hp, hp]
        exact ⟨by simpa using h, fun _ => rfl, SamePinsBut.of_get fun _ _ _ _ => rfl, fun _ => SamePins.of_eq rfl, by simp⟩
    | true =>
      unfold RightAnswer
      rcases plan_unpinRecursive (env := env) (le := le) (n := n) c with ⟨h, hp⟩ | ⟨h, hp⟩
      · rw [step_planned hp, hp]
        refine ⟨by simpa using h, fun _ => rfl, SamePinsBut.of_get fun r hrc e _ => ?_, by simp, fun _ d => ?_⟩
        · simp [Change.run, DiskStep.run, AMap.get_erase, hrc]
        · simp [KeptBy, RecPinned, DirPinned, Change.run, DiskStep.run, AMap.get_erase]
      · rw [step_planned hp, hp]
        exact ⟨by simpa using h, fun _ => rfl, SamePinsBut.of_get fun _ _ _ _ => rfl, fun _ => SamePins.of_eq rfl, by simp⟩

theorem keptBy_congr {n n' : DiskNode} (h1 : ∀ r, n'.pins.get (r, .recursive) = n.pins.get (r, .recursive))
    (h2 : ∀ r, n'.pins.get (r, .direct) = n.pins.get (r, .direct) ∨ (n.pins.get (r, .recursive)).isSome = true) (r d : Cid) :
    KeptBy n' r d ↔ KeptBy n r d := by
  unfold KeptBy RecPinned DirPinned
  rw [h1]
  rcases h2 r with h | h
  · rw [h]
  · simp [h]

/-- **C87**, for a request that ends in any way: what pins keep is as before or as after, and so are the blocks, but for a block that was not there and is
now empty. -/
theorem C87_cut (env : PinEnv) (le : Cid → Cid → Bool) (hist : List (NodeOp × Ends)) (op : NodeOp) (e : Ends) (n n' : DiskNode)
    (hn : n = DiskNode.run env le ⟨[], []⟩ hist) (hn' : n' = n.step env le op e) :
    ((∀ r d, KeptBy n' r d ↔ KeptBy n r d) ∨ ∀ r d, KeptBy n' r d ↔ KeptBy (n.step env le op .done) r d) ∧
    (SameBlocks n n' ∨ SameBlocks (n.step env le op .done) n' ∨
      ∃ b, op = .put b ∧ n.get b.cid = none ∧ n'.get b.cid = some [] ∧ ∀ d, toV1 d ≠ toV1 b.cid → n'.get d = n.get d) := by
  have hw : WholeFiles n.pins := by rw [hn]; exact WholeFiles.run hist (fun c f h => by cases h)
  clear hn
  subst hn'
  -- one change at most
  have one : ∀ (ok : Bool) (cs : List Change), cs.length ≤ 1 → n.plan env le op = (ok, cs) → (∀ b, op ≠ .put b) → (∀ c, op ≠ .pin c true) →
      n.step env le op e = n ∨ n.step env le op e = n.step env le op .done := by
    intro ok cs hl hp hne hne'
    have hb : n.botched env le op = [] := by
      unfold DiskNode.botched
      rw [hp]
      split
      · rfl
      · exact absurd rfl (hne _)
      · exact absurd rfl (hne' _)
      · rfl
    cases e with
    | done => exact .inr rfl
    | full k => left; simp [DiskNode.step, hb]
    | cut k =>
      cases k with
      | zero => left; simp [DiskNode.step]
      | succ k =>
        right
        simp only [DiskNode.step, hp]
        rw [List.take_of_length_le (by omega)]
  have same : n.step env le op e = n ∨ n.step env le op e = n.step env le op .done →
      ((∀ r d, KeptBy (n.step env le op e) r d ↔ KeptBy n r d) ∨ ∀ r d, KeptBy (n.step env le op e) r d ↔ KeptBy (n.step env le op .done) r d) ∧
      (SameBlocks n (n.step env le op e) ∨ SameBlocks (n.step env le op .done) (n.step env le op e) ∨
        ∃ b, op = .put b ∧ n.get b.cid = none ∧ (n.step env le op e).get b.cid = some [] ∧ ∀ d, toV1 d ≠ toV1 b.cid → (n.step env le op e).get d = n.get d) := by
    rintro (h | h)
    · rw [h]; exact ⟨.inl fun _ _ => Iff.rfl, .inl fun _ => rfl⟩
    · rw [h]; exact ⟨.inr fun _ _ => Iff.rfl, .inr (.inl fun _ => rfl)⟩
  have quiet : n.plan env le op = (false, []) → n.step env le op e = n := by
    intro hp
    have hb : n.botched env le op = [] := by unfold DiskNode.botched; rw [hp]
    cases e <;> simp [DiskNode.step, hp, hb]
  cases op with
  | put b =>
    have hpins : (n.step env le (.put b) e).pins = n.pins := by
      have hb : n.botched env le (.put b) = [] ∨ n.botched env le (.put b) = [.touch b.cid, .gone b.cid] := by
        unfold DiskNode.botched
        split <;> simp_all
      have hp : (n.plan env le (.put b)).2 = [] ∨ (n.plan env le (.put b)).2 = [.touch b.cid, .fill b.cid b.data] := by
        simp only [DiskNode.plan]; split <;> simp
      cases e with
      | done => rcases hp with hp | hp <;> simp [DiskNode.step, hp, Change.run]
      | cut k =>
        simp only [DiskNode.step]
        rcases hp with hp | hp <;> rw [hp]
        · simp
        · match k with
          | 0 => rfl
          | 1 => rfl
          | k + 2 => simp [Change.run]
      | full k =>
        simp only [DiskNode.step]
        rcases hb with hb | hb <;> rw [hb]
        · simp
        · match k with
          | 0 => rfl
          | 1 => rfl
          | k + 2 => simp [Change.run]
    refine ⟨.inl fun r d => by simp only [KeptBy, RecPinned, DirPinned, hpins], ?_⟩
    cases hg : n.get b.cid with
    | some v =>
      left
      have hp : (n.plan env le (.put b)).2 = [] := by simp [DiskNode.plan, hg]
      have hb : n.botched env le (.put b) = [] := by unfold DiskNode.botched; rw [hp]
      intro d
      cases e <;> simp [DiskNode.step, hp, hb]
    | none =>
      have hp : (n.plan env le (.put b)).2 = [.touch b.cid, .fill b.cid b.data] := by simp [DiskNode.plan, hg]
      have hb : n.botched env le (.put b) = [.touch b.cid, .gone b.cid] := by unfold DiskNode.botched; rw [hp]
      have torn : ∀ n1 : DiskNode, n1 = ⟨n.files.set (toV1 b.cid) [], n.pins⟩ → n1.get b.cid = some [] ∧ ∀ d, toV1 d ≠ toV1 b.cid → n1.get d = n.get d := by
        rintro n1 rfl
        exact ⟨by simp [DiskNode.get, AMap.get_set], fun d hd => by simp [DiskNode.get, AMap.get_set, hd]⟩
      cases e with
      | done => exact .inr (.inl fun _ => rfl)
      | cut k =>
        match k with
        | 0 => exact .inl fun d => by simp [DiskNode.step]
        | 1 => exact .inr (.inr ⟨b, rfl, hg, torn _ (by simp [DiskNode.step, hp, Change.run])⟩)
        | k + 2 => exact .inr (.inl fun d => by simp [DiskNode.step, hp])
      | full k =>
        match k with
        | 0 => exact .inl fun d => by simp [DiskNode.step]
        | 1 => exact .inr (.inr ⟨b, rfl, hg, torn _ (by simp [DiskNode.step, hb, Change.run])⟩)
        | k + 2 =>
          left
          intro d
          simp only [DiskNode.step, hb, List.take_succ_cons, List.take_nil, List.foldl_cons, List.foldl_nil, Change.run]
          by_cases hd : toV1 d = toV1 b.cid
          · unfold DiskNode.get at hg ⊢
            rw [hd, hg]
            simp [AMap.get_erase]
          · simp [DiskNode.get, AMap.get_erase, AMap.get_set, hd]
  | remove c =>
    rcases plan_remove (env := env) (le := le) hw c with ⟨-, hp⟩ | ⟨-, hp⟩ <;> exact same (one _ _ (by simp) hp (by simp) (by simp))
  | pin c rec =>
    cases rec with
    | false =>
      rcases plan_pinDirect (env := env) (le := le) (n := n) c with ⟨-, hp⟩ | ⟨-, hp⟩ <;> exact same (one _ _ (by simp) hp (by simp) (by simp))
    | true =>
      rcases plan_pinRecursive (env := env) (le := le) (n := n) c with ⟨-, S, -, hp⟩ | ⟨-, hp⟩
      · have hb : n.botched env le (.pin c true) = (FsPins.botchedInsert c).map Change.pin := by unfold DiskNode.botched; rw [hp]; rfl
        have hp2 := congrArg Prod.snd hp
        simp only at hp2
        cases e with
        | done => exact same (.inr rfl)
        | cut k =>
          simp only [DiskNode.step, hp2, pins_take, pins_foldl]
          refine ⟨?_, .inl fun _ => rfl⟩
          match k with
          | 0 => exact .inl fun r d => by simp [runSteps]
          | 1 => exact .inl fun r d => keptBy_congr (by simp [runSteps, DiskStep.run, AMap.get_set]) (by simp [runSteps, DiskStep.run, AMap.get_set]) r d
          | 2 => exact .inl fun r d => keptBy_congr (by simp [runSteps, DiskStep.run, AMap.get_set]) (by simp [runSteps, DiskStep.run, AMap.get_set]) r d
          | 3 =>
            right
            intro r d
            refine (keptBy_congr ?_ ?_ r d).symm
            · simp [runSteps, DiskStep.run, AMap.get_set, AMap.get_erase]
            · intro r
              by_cases hr : r = c
              · right; simp [runSteps, DiskStep.run, AMap.get_set, hr]
              · left; simp [runSteps, DiskStep.run, AMap.get_set, AMap.get_erase, hr]
          | k + 4 => exact .inr fun r d => by simp
        | full k =>
          simp only [DiskNode.step, hb, pins_take]
          refine ⟨.inl fun r d => ?_, .inl fun _ => rfl⟩
          match k with
          | 0 => simp [runSteps]
          | 1 => exact keptBy_congr (by simp [runSteps, FsPins.botchedInsert, DiskStep.run, AMap.get_set]) (by simp [runSteps, FsPins.botchedInsert, DiskStep.run, AMap.get_set]) r d
          | k + 2 =>
            exact keptBy_congr (by simp [runSteps, FsPins.botchedInsert, DiskStep.run, AMap.get_set, AMap.get_erase])
              (by simp [runSteps, FsPins.botchedInsert, DiskStep.run, AMap.get_set, AMap.get_erase]) r d
      · exact same (.inl (quiet hp))
  | unpin c rec =>
    cases rec with
    | false =>
      rcases plan_unpinDirect (env := env) (le := le) (n := n) c with ⟨-, hp⟩ | ⟨-, hp⟩ <;> exact same (one _ _ (by simp) hp (by simp) (by simp))
    | true =>
      rcases plan_unpinRecursive (env := env) (le := le) (n := n) c with ⟨-, hp⟩ | ⟨-, hp⟩
      · have hb : n.botched env le (.unpin c true) = [] := by unfold DiskNode.botched; rw [hp]
        cases e with
        | done => exact same (.inr rfl)
        | full k => exact same (.inl (by simp [DiskNode.step, hb]))
        | cut k =>
          match k with
          | 0 => exact same (.inl (by simp [DiskNode.step]))
          | k + 2 => exact same (.inr (by simp [DiskNode.step, hp]))
          | 1 =>
            simp only [DiskNode.step, hp, List.take_succ_cons, List.take_zero, List.foldl_cons, List.foldl_nil, Change.run, DiskStep.run]
            refine ⟨?_, .inl fun _ => rfl⟩
            by_cases hr : (AMap.get n.pins (c, .recursive)).isSome = true
            · left
              intro r d
              refine keptBy_congr (by simp [AMap.get_erase]) (fun r => ?_) r d
              by_cases hrc : r = c
              · right; rw [hrc]; exact hr
              · left; simp [AMap.get_erase, hrc]
            · right
              intro r d
              refine keptBy_congr (fun r => ?_) (by simp [AMap.get_erase]) r d
              have e : AMap.get n.pins (c, .recursive) = none := by simpa using hr
              by_cases hrc : r = c
              · simp [AMap.get_erase, hrc, e]
              · simp [AMap.get_erase, hrc]
      · exact same (.inl (quiet hp))

/-! ### Examples -/

/-- What the history of C83 leaves. -/
def exDiskNow : DiskNode := DiskNode.run exPinEnv exLe ⟨[], []⟩ exDiskBefore

-- both answers of each kind of request exist
example : (exDiskNow.plan exPinEnv exLe (.pin exRootA true)).1 = true ∧ (exDiskNow.plan exPinEnv exLe (.pin exRootB true)).1 = false ∧
    (exDiskNow.plan exPinEnv exLe (.pin exLeaf false)).1 = true ∧ (exDiskNow.plan exPinEnv exLe (.pin exRootB false)).1 = false ∧
    (exDiskNow.plan exPinEnv exLe (.unpin exRootA false)).1 = true ∧ (exDiskNow.plan exPinEnv exLe (.unpin exLeaf false)).1 = false ∧
    (exDiskNow.plan exPinEnv exLe (.unpin exRootA true)).1 = true ∧ (exDiskNow.plan exPinEnv exLe (.unpin exLeaf true)).1 = false ∧
    (exDiskNow.plan exPinEnv exLe (.remove exLeaf)).1 = true ∧ (exDiskNow.plan exPinEnv exLe (.remove exRootA)).1 = false := by decide +kernel

-- the pin that went well keeps the leaf
example : KeptBy (exDiskNow.step exPinEnv exLe (.pin exRootA true) .done) exRootA exLeaf := by
  have h := C87_answers exPinEnv exLe exDiskBefore (.pin exRootA true) exDiskNow rfl
  have hok : (exDiskNow.plan exPinEnv exLe (.pin exRootA true)).1 = true := by decide +kernel
  unfold RightAnswer at h
  refine (h.2.2.2.2 hok).2.2 exLeaf |>.2 (.inr (.link ?_))
  have hl : fullLook exPinEnv (onDisk exDiskNow) exRootA = .links [(none, exLeaf)] := by decide +kernel
  exact (fullLook_links hl _).mp ⟨(none, exLeaf), by simp, rfl⟩

-- a put that is cut off leaves an empty block
example : (exDiskNow.step exPinEnv exLe (.put (exBlockOf exRootB)) (.cut 1)).get exRootB = some [] ∧ exDiskNow.get exRootB = none := by decide +kernel

end Verif.Props
