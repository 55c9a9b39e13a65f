import Verif.Ipfs.DiskNode
import Verif.Props.Pin
import Verif.Props.PinWhen
import Verif.Repo.FsPinsLemmas

/-!
# C83: what is pinned survives crashes

Requests to a node on disk, one after the other, any of which may be cut off by a crash after any of the changes it makes, or fail because
nothing can be written. Links and what is below a block are those of C69 (`LinkTo`, `Below`); `content` is what a block has.
-/

namespace Verif.Props

open Verif Verif.Ipld Verif.Repo Verif.Repo.FsPaths Verif.Ipfs.Refs Verif.Ipfs.Pin Verif.Ipfs.DiskNode

/-! ### Specification -/

/-- The block of `r` and everything below it. -/
def InTree (env : PinEnv) (content : Cid → Bytes) (r d : Cid) : Prop := d = r ∨ Below env content r d

/-- The block is there with its data, and a request to remove it is refused and changes nothing. -/
def SafeAt (env : PinEnv) (le : Cid → Cid → Bool) (content : Cid → Bytes) (n : DiskNode) (d : Cid) : Prop :=
  n.get d = some (content d) ∧ n.plan env le (.remove d) = (false, [])

/-- Nobody asks to unpin `r`, and blocks of the tree are removed, if at all, by the cid they are known by. -/
def LeavesAlone (tree : Cid → Prop) (r : Cid) (h : List (NodeOp × Ends)) : Prop :=
  (∀ b e, (NodeOp.unpin r b, e) ∉ h) ∧ ∀ c e, (NodeOp.remove c, e) ∈ h → ∀ d, tree d → toV1 c = toV1 d → c = d

/-- No put of a block of the tree was cut off between the creation of the file and the arrival of its data. -/
def NoTornPut (tree : Cid → Prop) (h : List (NodeOp × Ends)) : Prop :=
  ∀ b e, (NodeOp.put b, e) ∈ h → ∀ d, tree d → toV1 b.cid = toV1 d → e ≠ .cut 1 ∧ e ≠ .full 1

/-- Blocks of the tree are put with what they have. -/
def HonestPuts (tree : Cid → Prop) (content : Cid → Bytes) (h : List (NodeOp × Ends)) : Prop :=
  ∀ b e, (NodeOp.put b, e) ∈ h → ∀ d, tree d → toV1 b.cid = toV1 d → b.data = content d

/-- Reported as pinned. -/
def PinnedAt (n : DiskNode) (d : Cid) : Prop := n.pins.isPinned d = .ok true

/-! ### Walks -/

theorem look_full {env : PinEnv} {content : Cid → Bytes} {U : Cid → Prop} {get : Cid → Option Bytes}
    (hb : ∀ c, U c → ∀ b, get c = some b → b = content c) {c : Cid} (hc : U c) :
    look env.ipld env.size get c = if (get c).isSome then fullLook env content c else .missing := by
  unfold fullLook look
  cases hg : get c with
  | none => simp
  | some b => simp [hb c hc b hg]

theorem descendantsOf_cases {ε : Type} {env : PinEnv} {content : Cid → Bytes} {U : Cid → Prop} {get : Cid → Option Bytes}
    (hU : ∀ a b, U a → LinkTo env content a b → U b) (hb : ∀ c, U c → ∀ b, get c = some b → b = content c) {c : Cid} (hc : U c)
    {data : Bytes} (hg : get c = some data) {L : Repo.Refs} (h : descendantsOf (ε := ε) env get c data = .ok L) :
    none ∈ L ∨ (L = (treeRefs env content c).map some ∧ (∃ ls items, Whole env content c ls items) ∧
      ∀ d ∈ treeRefs env content c, U d ∧ (get d).isSome = true) := by
  by_cases hn : none ∈ L
  · exact Or.inl hn
  right
  rw [hb c hc data hg] at h
  unfold descendantsOf at h
  split at h
  · cases h
  rename_i doc hdoc
  split at h
  · cases h
  rename_i ls hls
  have hfull : fullLook env content c = .links ls := by simp [fullLook, look, hdoc, hls]
  split at h
  · cases h
  rename_i r hr
  simp only [Except.ok.injEq] at h
  subst h
  obtain ⟨h1, h2⟩ := stream_ok hr hn
  obtain ⟨items, en⟩ := r
  simp only at h1 h2
  subst h1
  have hroot : ∀ l ∈ ls, U l.2 := fun l hl => hU c _ hc ((fullLook_links hfull _).mp ⟨l, hl, rfl⟩)
  have hstep : ∀ x lx, U x → look env.ipld env.size get x = .links lx → fullLook env content x = .links lx ∧ ∀ l ∈ lx, U l.2 := by
    intro x lx hx hlx
    rw [look_full hb hx] at hlx
    split at hlx
    · exact ⟨hlx, fun l hl => hU x _ hx ((fullLook_links hlx _).mp ⟨l, hl, rfl⟩)⟩
    · cases hlx
  have hw : Whole env content c ls items := ⟨hfull, refs_transfer hstep hroot hr h2, h2⟩
  rw [hw.treeRefs]
  obtain ⟨-, w2, w3, w4⟩ := walk_found hr h2
  refine ⟨stream_edges h2, ⟨ls, items, hw⟩, fun d hd => ?_⟩
  have hud : U d := w4 U hroot (fun x lx hx hlx => (hstep x lx hx hlx).2) d hd
  refine ⟨hud, ?_⟩
  obtain ⟨ld, h3, -⟩ := w3 d hd
  rw [look_full hb hud] at h3
  split at h3
  · assumption
  · cases h3

theorem inTree_closed {env : PinEnv} {content : Cid → Bytes} {r a b : Cid} (h : InTree env content r a) (hl : LinkTo env content a b) :
    InTree env content r b := by
  rcases h with rfl | h
  · exact .inr (.link hl)
  · exact .inr (.step h hl)

/-- What a recursive pin that is planned writes. -/
theorem pinPlan_recursive {env : PinEnv} {le : Cid → Cid → Bool} {content : Cid → Bytes} {n : DiskNode} {r : Cid} {data : Bytes}
    (hg : n.get r = some data) (hb : ∀ d, InTree env content r d → ∀ b, n.get d = some b → b = content d)
    {L : Repo.Refs} (hL : descendantsOf (ε := PinErr) env n.get r data = .ok L) :
    (∃ e, n.pins.insertRecursive le r L = .error e) ∨
    (∃ S, n.pins.insertRecursive le r L = .ok [.create r .recursiveTemp .torn, .write r .recursiveTemp (.json S),
        .rename r .recursiveTemp .recursive, .remove r .direct] ∧
      (∀ d, Below env content r d → d ∈ S) ∧ ∀ d, InTree env content r d → n.get d = some (content d)) := by
  rcases descendantsOf_cases (U := InTree env content r) (fun a b ha hl => inTree_closed ha hl) hb (.inl rfl) hg hL with hn | ⟨rfl, ⟨ls, items, hw⟩, ht⟩
  · left
    simp [FsPins.insertRecursive, collectRefs_fails le L hn]
  · right
    refine ⟨toSet le (treeRefs env content r), ?_, fun d hd => (mem_toSet le d _).2 ((hw.below d).2 hd), fun d hd => ?_⟩
    · simp only [FsPins.insertRecursive, collectRefs_ok]
    · have hs : (n.get d).isSome = true := by
        rcases hd with rfl | hd
        · rw [hg]; rfl
        · exact (ht d ((hw.below d).2 hd)).2
      obtain ⟨b, hbd⟩ := Option.isSome_iff_exists.1 hs
      rw [hbd, hb d hd b hbd]

/-! ### Files -/

theorem pins_foldl (steps : List DiskStep) (n : DiskNode) :
    (steps.map Change.pin).foldl Change.run n = ⟨n.files, runSteps n.pins steps⟩ := by
  induction steps generalizing n with
  | nil => rfl
  | cons d steps ih =>
    simp only [List.map_cons, List.foldl_cons, Change.run]
    rw [ih]
    rfl

theorem pins_take (steps : List DiskStep) (n : DiskNode) (k : Nat) :
    ((steps.map Change.pin).take k).foldl Change.run n = ⟨n.files, runSteps n.pins (steps.take k)⟩ := by
  rw [← List.map_take, pins_foldl]

/-- The files a step leaves alone. -/
def Spares (key : Cid × PinExt) : DiskStep → Prop
  | .create c e _ => key ≠ (c, e)
  | .write c e _ => key ≠ (c, e)
  | .rename c src dst => key ≠ (c, src) ∧ key ≠ (c, dst)
  | .remove c e => key ≠ (c, e)

theorem spares_run {key : Cid × PinExt} {d : DiskStep} (h : Spares key d) (g : FsPins) : (d.run g).get key = g.get key := by
  cases d with
  | create c e f => exact AMap.get_set_ne _ _ h
  | write c e f => exact AMap.get_set_ne _ _ h
  | rename c src dst =>
    simp only [DiskStep.run]
    split
    · rfl
    · rw [AMap.get_set_ne _ _ h.2, AMap.get_erase_ne _ h.1]
  | remove c e => exact AMap.get_erase_ne _ h

theorem spares_runs {key : Cid × PinExt} (steps : List DiskStep) (h : ∀ d ∈ steps, Spares key d) (g : FsPins) :
    (runSteps g steps).get key = g.get key := by
  induction steps generalizing g with
  | nil => rfl
  | cons d steps ih =>
    simp only [runSteps, List.foldl_cons]
    exact (ih (fun x hx => h x (List.mem_cons_of_mem _ hx)) _).trans (spares_run (h d List.mem_cons_self) g)

/-- The steps of a recursive pin, as far as they got. -/
theorem insertSteps_get (g : FsPins) (c : Cid) (S : List Cid) (k : Nat) (x : Cid) (e : PinExt) (he : e ≠ .recursiveTemp) :
    (runSteps g (([.create c .recursiveTemp .torn, .write c .recursiveTemp (.json S), .rename c .recursiveTemp .recursive,
      .remove c .direct] : List DiskStep).take k)).get (x, e) =
    if k ≤ 2 then g.get (x, e) else if (x, e) = (c, .recursive) then some (.json S)
      else if 4 ≤ k ∧ (x, e) = (c, .direct) then none else g.get (x, e) := by
  have h1 : (x, e) ≠ (c, PinExt.recursiveTemp) := fun h => he (Prod.mk.inj h).2
  match k with
  | 0 => rfl
  | 1 => simp [runSteps, DiskStep.run, AMap.get_set, h1]
  | 2 => simp [runSteps, DiskStep.run, AMap.get_set, h1]
  | 3 => simp [runSteps, DiskStep.run, AMap.get_set, AMap.get_erase, h1]
  | k + 4 =>
    rw [List.take_of_length_le (by simp)]
    simp only [runSteps, DiskStep.run, AMap.get_set, AMap.get_erase, List.foldl_cons, List.foldl_nil, if_true, h1, if_false]
    by_cases hd : (x, e) = (c, PinExt.direct)
    · have : (x, e) ≠ (c, PinExt.recursive) := by rw [hd]; simp
      simp [hd]
    · simp [hd, show ¬ (k + 4 ≤ 2) by omega]

theorem removeSteps_get (g : FsPins) (c : Cid) (k : Nat) (x : Cid) (e : PinExt) :
    (runSteps g (([.remove c .direct, .remove c .recursive] : List DiskStep).take k)).get (x, e) =
    if 1 ≤ k ∧ (x, e) = (c, .direct) then none else if 2 ≤ k ∧ (x, e) = (c, .recursive) then none else g.get (x, e) := by
  match k with
  | 0 => simp [runSteps]
  | 1 => simp [runSteps, DiskStep.run, AMap.get_erase]
  | k + 2 =>
    rw [List.take_of_length_le (by simp)]
    simp only [runSteps, DiskStep.run, AMap.get_erase, List.foldl_cons, List.foldl_nil]
    by_cases hd : (x, e) = (c, PinExt.direct)
    · simp [hd]
    · simp [hd]

theorem anyRefers_found {g : FsPins} {r d : Cid} {L : List Cid} (hg : g.get (r, .recursive) = some (.json L)) (hd : d ∈ L) (rs : List Cid)
    (hr : r ∈ rs) : FsPins.anyRefers g d rs ≠ .ok false := by
  induction rs with
  | nil => cases hr
  | cons x rs ih =>
    simp only [FsPins.anyRefers]
    split
    · simp
    · next l hl =>
      split
      · simp
      · next hnot =>
        rcases List.mem_cons.1 hr with rfl | hr
        · simp only [FsPins.readRecursivelyPinned, hg] at hl
          cases hl
          exact absurd (by simpa using hd) hnot
        · exact ih hr

theorem isPinned_below {g : FsPins} {r d : Cid} {L : List Cid} (hg : g.get (r, .recursive) = some (.json L)) (hd : d ∈ L) :
    g.isPinned d ≠ .ok false := by
  unfold FsPins.isPinned
  split
  · simp
  · exact anyRefers_found hg hd _ ((mem_listRecursive g r).2 (by simp [FsPins.isFile, hg]))

theorem isPinned_file {g : FsPins} {r : Cid} (h : g.isFile r .recursive = true ∨ g.isFile r .direct = true) : g.isPinned r = .ok true := by
  unfold FsPins.isPinned FsPins.readDirectOrRecursive
  rcases h with h | h
  · simp [h]
  · by_cases h2 : g.isFile r .recursive = true
    · simp [h2]
    · simp [h2, h]

theorem remove_refused {env : PinEnv} {le : Cid → Cid → Bool} {n : DiskNode} {d : Cid} (h : n.pins.isPinned d ≠ .ok false) :
    n.plan env le (.remove d) = (false, []) := by
  simp only [DiskNode.plan]

/-! ### One recursive pin -/

/-- The file of the pin says everything below, and all of it is there. -/
structure KeptTree (env : PinEnv) (content : Cid → Bytes) (r : Cid) (n : DiskNode) : Prop where
  file : ∃ L, n.pins.get (r, .recursive) = some (.json L) ∧ ∀ d, Below env content r d → d ∈ L
  data : ∀ d, InTree env content r d → n.get d = some (content d)

theorem KeptTree.pinned {env : PinEnv} {content : Cid → Bytes} {r : Cid} {n : DiskNode} (h : KeptTree env content r n) {d : Cid}
    (hd : InTree env content r d) : n.pins.isPinned d ≠ .ok false := by
  obtain ⟨L, h1, h2⟩ := h.file
  rcases hd with rfl | hd
  · rw [isPinned_file (.inl (by simp [FsPins.isFile, h1]))]; simp
  · exact isPinned_below h1 (h2 d hd)

/-- A change that leaves a block file alone. -/
def SparesFile (k : Cid) : Change → Prop
  | .touch c => k ≠ toV1 c
  | .fill c _ => k ≠ toV1 c
  | .gone c => k ≠ toV1 c
  | .pin _ => True

/-- A change that leaves a pin file alone. -/
def SparesPin (key : Cid × PinExt) : Change → Prop
  | .pin d => Spares key d
  | _ => True

theorem files_kept {k : Cid} (cs : List Change) (h : ∀ x ∈ cs, SparesFile k x) (n : DiskNode) :
    (cs.foldl Change.run n).files.get k = n.files.get k := by
  induction cs generalizing n with
  | nil => rfl
  | cons x cs ih =>
    rw [List.foldl_cons, ih (fun y hy => h y (List.mem_cons_of_mem _ hy))]
    have hx := h x List.mem_cons_self
    cases x with
    | touch c => exact AMap.get_set_ne _ _ hx
    | fill c d => exact AMap.get_set_ne _ _ hx
    | gone c => exact AMap.get_erase_ne _ hx
    | pin d => rfl

theorem pins_kept {key : Cid × PinExt} (cs : List Change) (h : ∀ x ∈ cs, SparesPin key x) (n : DiskNode) :
    (cs.foldl Change.run n).pins.get key = n.pins.get key := by
  induction cs generalizing n with
  | nil => rfl
  | cons x cs ih =>
    rw [List.foldl_cons, ih (fun y hy => h y (List.mem_cons_of_mem _ hy))]
    have hx := h x List.mem_cons_self
    cases x with
    | touch c => rfl
    | fill c d => rfl
    | gone c => rfl
    | pin d => exact spares_run hx _

/-- What a request does is some of what it plans, or of what it does when it fails. -/
theorem step_changes (env : PinEnv) (le : Cid → Cid → Bool) (n : DiskNode) (op : NodeOp) (e : Ends) :
    ∃ cs : List Change, n.step env le op e = cs.foldl Change.run n ∧ ∀ x ∈ cs, x ∈ (n.plan env le op).2 ∨ x ∈ n.botched env le op := by
  cases e with
  | done => exact ⟨_, rfl, fun x h => .inl h⟩
  | cut k => exact ⟨_, rfl, fun x h => .inl (List.mem_of_mem_take h)⟩
  | full k => exact ⟨_, rfl, fun x h => .inr (List.mem_of_mem_take h)⟩

theorem pinPlan_mem {r : Except PinErr (List DiskStep)} {x : Change} (h : x ∈ (pinPlan r).2) : ∃ steps d, r = .ok steps ∧ d ∈ steps ∧ x = .pin d := by
  cases r with
  | error e => simp [pinPlan] at h
  | ok steps =>
    simp only [pinPlan, List.mem_map] at h
    obtain ⟨d, hd, rfl⟩ := h
    exact ⟨steps, d, rfl, hd, rfl⟩

/-- The changes of a request, one by one. -/
theorem change_cases {env : PinEnv} {le : Cid → Cid → Bool} {n : DiskNode} {op : NodeOp} {x : Change}
    (h : x ∈ (n.plan env le op).2 ∨ x ∈ n.botched env le op) :
    (∃ b, op = .put b ∧ n.get b.cid = none ∧ (x = .touch b.cid ∨ x = .fill b.cid b.data ∨ x = .gone b.cid)) ∨
    (∃ c, op = .remove c ∧ n.pins.isPinned c = .ok false ∧ x = .gone c) ∨
    (∃ c d, op = .pin c false ∧ n.pins.isFile c .recursive = false ∧ x = .pin d ∧ d = .create c .direct .empty) ∨
    (∃ c d, op = .pin c true ∧ x = .pin d ∧ ∀ key : Cid × PinExt, key.1 ≠ c → Spares key d) ∨
    (∃ c b d, op = .unpin c b ∧ x = .pin d ∧ ∃ e, d = .remove c e) := by
  cases op with
  | put b =>
    left
    cases hg : n.get b.cid with
    | none =>
      refine ⟨b, rfl, hg, ?_⟩
      simp only [DiskNode.botched, DiskNode.plan, hg, Option.isSome_none, Bool.false_eq_true, if_false, List.mem_cons, List.not_mem_nil, or_false] at h
      grind
    | some v => simp [DiskNode.botched, DiskNode.plan, hg] at h
  | remove c =>
    right; left
    have hx : x ∈ (n.plan env le (.remove c)).2 := by
      rcases h with h | h
      · exact h
      · unfold DiskNode.botched at h
        split at h <;> simp_all
    simp only [DiskNode.plan] at hx
    split at hx
    · next hp =>
      split at hx
      · simp only [List.mem_cons, List.not_mem_nil, or_false] at hx
        exact ⟨c, rfl, hp, hx⟩
      · cases hx
    · cases hx
  | pin c rec =>
    cases rec with
    | false =>
      right; right; left
      have hx : x ∈ (n.plan env le (.pin c false)).2 := by
        rcases h with h | h
        · exact h
        · unfold DiskNode.botched at h
          split at h <;> simp_all
      simp only [DiskNode.plan, Bool.false_eq_true, if_false] at hx
      split at hx
      · cases hx
      · obtain ⟨steps, d, h1, h2, h3⟩ := pinPlan_mem hx
        unfold FsPins.insertDirect at h1
        split at h1
        · cases h1
        · next hr =>
          cases h1
          simp only [List.mem_cons, List.not_mem_nil, or_false] at h2
          exact ⟨c, d, rfl, by simpa using hr, h3, h2⟩
    | true =>
      right; right; right; left
      rcases h with h | h
      · simp only [DiskNode.plan, if_true] at h
        split at h
        · cases h
        · split at h
          · cases h
          · obtain ⟨steps, d, h1, h2, h3⟩ := pinPlan_mem h
            unfold FsPins.insertRecursive at h1
            split at h1
            · cases h1
            · cases h1
              refine ⟨c, d, rfl, h3, fun key hk => ?_⟩
              simp only [List.mem_cons, List.not_mem_nil, or_false] at h2
              have hne : ∀ e, key ≠ (c, e) := fun e he => hk (by rw [he])
              rcases h2 with rfl | rfl | rfl | rfl <;> simp [Spares, hne]
      · have hx : x ∈ (FsPins.botchedInsert c).map Change.pin := by
          unfold DiskNode.botched at h
          split at h
          · cases h
          · simp_all
          · simp_all
          · cases h
        simp only [List.mem_map] at hx
        obtain ⟨d, hd, rfl⟩ := hx
        refine ⟨c, d, rfl, rfl, fun key hk => ?_⟩
        have hne : ∀ e, key ≠ (c, e) := fun e he => hk (by rw [he])
        simp only [FsPins.botchedInsert, List.mem_cons, List.not_mem_nil, or_false] at hd
        rcases hd with rfl | rfl <;> simp [Spares, hne]
  | unpin c rec =>
    right; right; right; right
    have hx : x ∈ (n.plan env le (.unpin c rec)).2 := by
      rcases h with h | h
      · exact h
      · unfold DiskNode.botched at h
        split at h <;> simp_all
    have hd : ∃ d, x = .pin d ∧ ∃ e, d = .remove c e := by
      simp only [DiskNode.plan] at hx
      split at hx
      · split at hx
        · cases hx
        · split at hx
          · cases hx
          · obtain ⟨steps, d, h1, h2, h3⟩ := pinPlan_mem hx
            unfold FsPins.removeRecursive at h1
            split at h1
            · cases h1
              simp only [List.mem_cons, List.not_mem_nil, or_false] at h2
              rcases h2 with rfl | rfl
              · exact ⟨_, h3, _, rfl⟩
              · exact ⟨_, h3, _, rfl⟩
            · cases h1
      · obtain ⟨steps, d, h1, h2, h3⟩ := pinPlan_mem hx
        unfold FsPins.removeDirect at h1
        split at h1
        · cases h1
        · split at h1
          · cases h1
            simp only [List.mem_cons, List.not_mem_nil, or_false] at h2
            subst h2
            exact ⟨_, h3, _, rfl⟩
          · cases h1
    obtain ⟨d, h1, h2⟩ := hd
    exact ⟨c, rec, d, rfl, h1, h2⟩

/-- A block that is there stays unless it may be removed. -/
theorem get_kept {env : PinEnv} {le : Cid → Cid → Bool} {n : DiskNode} {op : NodeOp} {e : Ends} {d : Cid} {v : Bytes} (hd : n.get d = some v)
    (hr : ∀ c, op = .remove c → n.pins.isPinned c = .ok false → toV1 c ≠ toV1 d) : (n.step env le op e).get d = some v := by
  obtain ⟨cs, h1, h2⟩ := step_changes env le n op e
  rw [h1]
  unfold DiskNode.get at hd ⊢
  rw [files_kept cs ?_ n, hd]
  intro x hx
  rcases change_cases (h2 x hx) with ⟨b, -, hb, hx⟩ | ⟨c, hc, hp, rfl⟩ | ⟨c, d', -, -, rfl, -⟩ | ⟨c, d', -, rfl, -⟩ | ⟨c, b, d', -, rfl, -⟩
  · have hne : toV1 d ≠ toV1 b.cid := by
      intro h
      unfold DiskNode.get at hb
      rw [h, hb] at hd
      cases hd
    rcases hx with rfl | rfl | rfl <;> exact hne
  · exact fun h => hr c hc hp h.symm
  · trivial
  · trivial
  · trivial

/-- A pin file stays unless its cid is pinned or unpinned. -/
theorem pin_kept {env : PinEnv} {le : Cid → Cid → Bool} {n : DiskNode} {op : NodeOp} {e : Ends} {r : Cid} {ext : PinExt}
    (h1 : ∀ b, op ≠ .unpin r b) (h2 : op ≠ .pin r true) (h3 : op = .pin r false → ext = .direct → n.pins.isFile r .recursive = true) :
    (n.step env le op e).pins.get (r, ext) = n.pins.get (r, ext) := by
  obtain ⟨cs, hs, hc⟩ := step_changes env le n op e
  rw [hs]
  refine pins_kept cs (fun x hx => ?_) n
  rcases change_cases (hc x hx) with ⟨b, -, hb, hx⟩ | ⟨c, -, hp, rfl⟩ | ⟨c, d', ho, hf, rfl, rfl⟩ | ⟨c, d', ho, rfl, hd⟩ | ⟨c, b, d', ho, rfl, ex, rfl⟩
  · rcases hx with rfl | rfl | rfl <;> trivial
  · trivial
  · intro hk
    obtain ⟨rfl, rfl⟩ := Prod.mk.inj hk
    rw [h3 ho rfl] at hf
    cases hf
  · exact hd _ fun h => h2 (by rw [show r = c from h]; exact ho)
  · intro hk
    obtain ⟨rfl, -⟩ := Prod.mk.inj hk
    exact h1 b ho

/-- How a recursive pin ends that is planned. -/
theorem pin_step {env : PinEnv} {le : Cid → Cid → Bool} {n : DiskNode} {r : Cid} {S : List Cid}
    (hp : (n.plan env le (.pin r true)).2 = ([.create r .recursiveTemp .torn, .write r .recursiveTemp (.json S),
      .rename r .recursiveTemp .recursive, .remove r .direct] : List DiskStep).map Change.pin) (e : Ends) (x : Cid) (ext : PinExt)
    (he : ext ≠ .recursiveTemp) :
    ∃ k, (n.step env le (.pin r true) e).pins.get (x, ext) =
      (if k ≤ 2 then n.pins.get (x, ext) else if (x, ext) = (r, .recursive) then some (.json S)
        else if 4 ≤ k ∧ (x, ext) = (r, .direct) then none else n.pins.get (x, ext)) ∧ (e = .done → k = 4) := by
  cases e with
  | done =>
    refine ⟨4, ?_, fun _ => rfl⟩
    simp only [DiskNode.step]
    rw [hp, pins_foldl]
    exact insertSteps_get n.pins r S 4 x ext he
  | cut k =>
    refine ⟨k, ?_, fun h => by cases h⟩
    simp only [DiskNode.step]
    rw [hp, pins_take]
    exact insertSteps_get n.pins r S k x ext he
  | full k =>
    refine ⟨0, ?_, fun h => by cases h⟩
    simp only [DiskNode.step]
    have hb : n.botched env le (.pin r true) = (FsPins.botchedInsert r).map Change.pin := by
      unfold DiskNode.botched
      rw [hp]
      rfl
    rw [hb, pins_take]
    rw [if_pos (by omega)]
    refine spares_runs _ (fun d hd => ?_) _
    have hd' := List.mem_of_mem_take hd
    have hne : (x, ext) ≠ (r, PinExt.recursiveTemp) := fun h => he (Prod.mk.inj h).2
    simp only [FsPins.botchedInsert, List.mem_cons, List.not_mem_nil, or_false] at hd'
    rcases hd' with rfl | rfl <;> exact hne

/-- A request that plans nothing does nothing. -/
theorem step_idle {env : PinEnv} {le : Cid → Cid → Bool} {n : DiskNode} {op : NodeOp} (h : (n.plan env le op).2 = []) (e : Ends) :
    n.step env le op e = n := by
  have hb : n.botched env le op = [] := by
    unfold DiskNode.botched
    split <;> simp_all
  cases e <;> simp [DiskNode.step, h, hb]

/-- What a recursive pin plans, when what is there is right. -/
theorem pin_plan_cases {env : PinEnv} {le : Cid → Cid → Bool} {content : Cid → Bytes} {n : DiskNode} {r : Cid}
    (hb : ∀ d, InTree env content r d → ∀ b, n.get d = some b → b = content d) :
    n.plan env le (.pin r true) = (false, []) ∨
    ∃ S, n.plan env le (.pin r true) = (true, ([.create r .recursiveTemp .torn, .write r .recursiveTemp (.json S),
        .rename r .recursiveTemp .recursive, .remove r .direct] : List DiskStep).map Change.pin) ∧
      (∀ d, Below env content r d → d ∈ S) ∧ ∀ d, InTree env content r d → n.get d = some (content d) := by
  cases hg : n.get r with
  | none => left; simp [DiskNode.plan, hg]
  | some data =>
    cases hL : descendantsOf (ε := PinErr) env n.get r data with
    | error x => left; simp [DiskNode.plan, hg, hL]
    | ok L =>
      rcases pinPlan_recursive (le := le) hg hb hL with ⟨x, hx⟩ | ⟨S, hS, h1, h2⟩
      · left; simp [DiskNode.plan, hg, hL, hx, pinPlan]
      · right
        exact ⟨S, by simp [DiskNode.plan, hg, hL, hS, pinPlan], h1, h2⟩

theorem KeptTree.step {env : PinEnv} {le : Cid → Cid → Bool} {content : Cid → Bytes} {r : Cid} {n : DiskNode} (h : KeptTree env content r n)
    {op : NodeOp} (h1 : ∀ b, op ≠ .unpin r b) (h2 : ∀ c, op = .remove c → ∀ d, InTree env content r d → toV1 c = toV1 d → c = d) (e : Ends) :
    KeptTree env content r (n.step env le op e) := by
  refine ⟨?_, fun d hd => get_kept (h.data d hd) fun c hc hp hv => ?_⟩
  · by_cases ho : op = .pin r true
    · subst ho
      rcases pin_plan_cases (env := env) (le := le) (content := content) (n := n) (r := r)
        (fun d hd b hb => by rw [h.data d hd] at hb; exact (Option.some.inj hb).symm) with hp | ⟨S, hp, hS, -⟩
      · rw [step_idle (by rw [hp])]
        exact h.file
      · obtain ⟨k, hk, -⟩ := pin_step (by rw [hp]) e r .recursive (by simp)
        rw [hk]
        split
        · exact h.file
        · exact ⟨S, by simp, hS⟩
    · rw [pin_kept h1 ho (fun _ hx => by cases hx)]
      exact h.file
  · have := h2 c hc d hd hv
    subst this
    exact h.pinned hd hp

theorem KeptTree.run {env : PinEnv} {le : Cid → Cid → Bool} {content : Cid → Bytes} {r : Cid} (hist : List (NodeOp × Ends)) {n : DiskNode}
    (h : KeptTree env content r n) (hl : LeavesAlone (InTree env content r) r hist) : KeptTree env content r (n.run env le hist) := by
  induction hist generalizing n with
  | nil => exact h
  | cons x hist ih =>
    obtain ⟨op, e⟩ := x
    refine ih (h.step (fun b hb => hl.1 b e (by simp [hb])) (fun c hc => hl.2 c e (by simp [hc])) e) ⟨fun b e' hm => hl.1 b e' ?_, fun c e' hm => hl.2 c e' ?_⟩
    · exact List.mem_cons_of_mem _ hm
    · exact List.mem_cons_of_mem _ hm

/-- What a recursive pin that went well leaves. -/
theorem KeptTree.start {env : PinEnv} {le : Cid → Cid → Bool} {content : Cid → Bytes} {r : Cid} {n : DiskNode}
    (hb : ∀ d, InTree env content r d → ∀ b, n.get d = some b → b = content d) (hp : (n.plan env le (.pin r true)).1 = true) :
    KeptTree env content r (n.step env le (.pin r true) .done) := by
  rcases pin_plan_cases (env := env) (le := le) (content := content) (n := n) (r := r) hb with h | ⟨S, h, h1, h2⟩
  · rw [h] at hp; cases hp
  · refine ⟨?_, fun d hd => get_kept (h2 d hd) fun c hc => by cases hc⟩
    obtain ⟨k, hk, hk4⟩ := pin_step (by rw [h]) .done r .recursive (by simp)
    rw [hk, hk4 rfl]
    exact ⟨S, by simp, h1⟩

/-! ### Theorems -/

/-- A recursive pin that went well: whatever is asked for afterwards, and whenever the process crashes or the disk is full meanwhile, the block and
everything below it is there, and cannot be removed. -/
theorem C83_stays (env : PinEnv) (le : Cid → Cid → Bool) (content : Cid → Bytes) (n : DiskNode) (r : Cid)
    (right : ∀ d, InTree env content r d → ∀ b, n.get d = some b → b = content d)
    (went : (n.plan env le (.pin r true)).1 = true) (hist : List (NodeOp × Ends)) (alone : LeavesAlone (InTree env content r) r hist)
    (d : Cid) (hd : InTree env content r d) : SafeAt env le content (n.run env le ((.pin r true, .done) :: hist)) d := by
  have h := (KeptTree.start right went).run (le := le) hist alone
  exact ⟨h.data d hd, remove_refused (h.pinned hd)⟩

/-! ### Direct pins -/

theorem direct_step {env : PinEnv} {le : Cid → Cid → Bool} {n : DiskNode} {r : Cid} (h : n.pins.isFile r .recursive = true ∨ n.pins.isFile r .direct = true)
    {op : NodeOp} (h1 : ∀ b, op ≠ .unpin r b) (e : Ends) :
    (n.step env le op e).pins.isFile r .recursive = true ∨ (n.step env le op e).pins.isFile r .direct = true := by
  by_cases h2 : op = .pin r true
  · subst h2
    rcases hp : (n.plan env le (.pin r true)).2 with _ | ⟨y, ys⟩
    · rw [step_idle hp]; exact h
    · have hS : ∃ S, (n.plan env le (.pin r true)).2 = ([.create r .recursiveTemp .torn, .write r .recursiveTemp (.json S),
          .rename r .recursiveTemp .recursive, .remove r .direct] : List DiskStep).map Change.pin := by
        simp only [DiskNode.plan, if_true] at hp ⊢
        split at hp
        · cases hp
        · split at hp
          · cases hp
          · next refs _ =>
            simp only [FsPins.insertRecursive] at hp ⊢
            cases hc : collectRefs le refs with
            | error x => rw [hc] at hp; cases hp
            | ok S => exact ⟨S, rfl⟩
      obtain ⟨S, hS⟩ := hS
      -- the same number of changes for both files
      have key : ∀ g : FsPins, ∀ k, g.isFile r .recursive = true ∨ g.isFile r .direct = true →
          (runSteps g (([.create r .recursiveTemp .torn, .write r .recursiveTemp (.json S), .rename r .recursiveTemp .recursive,
            .remove r .direct] : List DiskStep).take k)).isFile r .recursive = true ∨
          (runSteps g (([.create r .recursiveTemp .torn, .write r .recursiveTemp (.json S), .rename r .recursiveTemp .recursive,
            .remove r .direct] : List DiskStep).take k)).isFile r .direct = true := by
        intro g k hg
        unfold FsPins.isFile at hg ⊢
        rw [insertSteps_get g r S k r .recursive (by simp), insertSteps_get g r S k r .direct (by simp)]
        by_cases hk : k ≤ 2
        · simpa [hk] using hg
        · left; simp [hk]
      cases e with
      | done =>
        simp only [DiskNode.step]
        rw [hS, pins_foldl]
        exact key n.pins 4 h
      | cut k =>
        simp only [DiskNode.step]
        rw [hS, pins_take]
        exact key n.pins k h
      | full k =>
        obtain ⟨k1, a1, -⟩ := pin_step hS (.full k) r .recursive (by simp)
        simp only [DiskNode.step]
        have hb : n.botched env le (.pin r true) = (FsPins.botchedInsert r).map Change.pin := by
          unfold DiskNode.botched
          rw [hS]
          rfl
        rw [hb, pins_take]
        have sp : ∀ ext, ext ≠ PinExt.recursiveTemp → (runSteps n.pins ((FsPins.botchedInsert r).take k)).get (r, ext) = n.pins.get (r, ext) := by
          intro ext he
          refine spares_runs _ (fun d hd => ?_) _
          have hd' := List.mem_of_mem_take hd
          have hne : (r, ext) ≠ (r, PinExt.recursiveTemp) := fun h => he (Prod.mk.inj h).2
          simp only [FsPins.botchedInsert, List.mem_cons, List.not_mem_nil, or_false] at hd'
          rcases hd' with rfl | rfl <;> exact hne
        unfold FsPins.isFile at h ⊢
        rw [sp _ (by simp), sp _ (by simp)]
        exact h
  · by_cases h3 : op = .pin r false
    · subst h3
      rcases h with h | h
      · left
        unfold FsPins.isFile at h ⊢
        rw [pin_kept h1 h2 (fun _ hx => by cases hx)]
        exact h
      · obtain ⟨cs, hs, hc⟩ := step_changes env le n (.pin r false) e
        right
        rw [hs]
        clear hs
        have go : ∀ (cs : List Change) (m : DiskNode), m.pins.isFile r .direct = true →
            (∀ x ∈ cs, x = Change.pin (.create r .direct .empty)) → (cs.foldl Change.run m).pins.isFile r .direct = true := by
          intro cs
          induction cs with
          | nil => intro m hm _; exact hm
          | cons y cs ih =>
            intro m hm hy
            rw [List.foldl_cons]
            refine ih _ ?_ (fun x hx => hy x (List.mem_cons_of_mem _ hx))
            rw [hy y List.mem_cons_self]
            simp [Change.run, DiskStep.run, FsPins.isFile, AMap.get_set]
        refine go cs n h (fun x hx => ?_)
        rcases change_cases (hc x hx) with ⟨b, ho, -⟩ | ⟨c, ho, -⟩ | ⟨c, d', ho, -, rfl, rfl⟩ | ⟨c, d', ho, -⟩ | ⟨c, b, d', ho, -⟩
        · cases ho
        · cases ho
        · cases ho; rfl
        · cases ho
        · cases ho
    · unfold FsPins.isFile at h ⊢
      rw [pin_kept h1 h2 (fun ho => absurd ho h3), pin_kept h1 h2 (fun ho => absurd ho h3)]
      exact h

theorem direct_run {env : PinEnv} {le : Cid → Cid → Bool} {content : Cid → Bytes} {r : Cid} (hist : List (NodeOp × Ends)) {n : DiskNode}
    (h : n.pins.isFile r .recursive = true ∨ n.pins.isFile r .direct = true) (hg : n.get r = some (content r))
    (hl : LeavesAlone (· = r) r hist) :
    ((n.run env le hist).pins.isFile r .recursive = true ∨ (n.run env le hist).pins.isFile r .direct = true) ∧
    (n.run env le hist).get r = some (content r) := by
  induction hist generalizing n with
  | nil => exact ⟨h, hg⟩
  | cons x hist ih =>
    obtain ⟨op, e⟩ := x
    refine ih (direct_step h (fun b hb => hl.1 b e (by simp [hb])) e) ?_ ⟨fun b e' hm => hl.1 b e' (List.mem_cons_of_mem _ hm), fun c e' hm => hl.2 c e' (List.mem_cons_of_mem _ hm)⟩
    refine get_kept hg fun c hc hp hv => ?_
    have := hl.2 c e (by simp [hc]) r rfl hv
    subst this
    rw [isPinned_file h] at hp
    cases hp

/-- The same for a direct pin and its block alone. -/
theorem C83_direct (env : PinEnv) (le : Cid → Cid → Bool) (content : Cid → Bytes) (n : DiskNode) (r : Cid)
    (right : n.get r = some (content r)) (went : (n.plan env le (.pin r false)).1 = true) (hist : List (NodeOp × Ends))
    (alone : LeavesAlone (· = r) r hist) : SafeAt env le content (n.run env le ((.pin r false, .done) :: hist)) r := by
  have hplan : (n.plan env le (.pin r false)).2 = [.pin (.create r .direct .empty)] := by
    simp only [DiskNode.plan, right, Bool.false_eq_true, if_false, FsPins.insertDirect] at went ⊢
    split at went
    · cases went
    · next hf => rw [if_neg hf]; rfl
  have h0 : (n.step env le (.pin r false) .done).pins.isFile r .recursive = true ∨ (n.step env le (.pin r false) .done).pins.isFile r .direct = true := by
    right
    simp [DiskNode.step, hplan, Change.run, DiskStep.run, FsPins.isFile, AMap.get_set]
  have hg : (n.step env le (.pin r false) .done).get r = some (content r) := get_kept right (fun c hc => by cases hc)
  have h := direct_run (env := env) (le := le) (content := content) hist h0 hg alone
  refine ⟨h.2, remove_refused ?_⟩
  show (DiskNode.run env le _ hist).pins.isPinned r ≠ _
  rw [isPinned_file h.1]
  simp

/-! ### Pin files are never torn -/

/-- Every file of a recursive pin can be read. -/
def WholeFiles (g : FsPins) : Prop := ∀ c f, g.get (c, .recursive) = some f → ∃ l, f = .json l

theorem pin_true_plan (env : PinEnv) (le : Cid → Cid → Bool) (n : DiskNode) (r : Cid) :
    n.plan env le (.pin r true) = (false, []) ∨ ∃ S, n.plan env le (.pin r true) = (true, ([.create r .recursiveTemp .torn,
      .write r .recursiveTemp (.json S), .rename r .recursiveTemp .recursive, .remove r .direct] : List DiskStep).map Change.pin) := by
  simp only [DiskNode.plan, if_true]
  split
  · exact .inl rfl
  · split
    · exact .inl rfl
    · next refs _ =>
      simp only [FsPins.insertRecursive]
      cases hc : collectRefs le refs with
      | error x => exact .inl rfl
      | ok S => exact .inr ⟨S, rfl⟩

theorem WholeFiles.step {env : PinEnv} {le : Cid → Cid → Bool} {n : DiskNode} (h : WholeFiles n.pins) (op : NodeOp) (e : Ends) :
    WholeFiles (n.step env le op e).pins := by
  intro c f hf
  by_cases h2 : op = .pin c true
  · subst h2
    rcases pin_true_plan env le n c with hp | ⟨S, hp⟩
    · rw [step_idle (by rw [hp])] at hf
      exact h c f hf
    · obtain ⟨k, hk, -⟩ := pin_step (by rw [hp]) e c .recursive (by simp)
      rw [hk] at hf
      split at hf
      · exact h c f hf
      · simp only [if_true, Option.some.injEq] at hf
        exact ⟨S, hf.symm⟩
  · by_cases h1 : ∃ b, op = .unpin c b
    · obtain ⟨b, rfl⟩ := h1
      obtain ⟨cs, hs, hc⟩ := step_changes env le n (.unpin c b) e
      rw [hs] at hf
      clear hs
      have go : ∀ (cs : List Change) (m : DiskNode), WholeFiles m.pins → (∀ x ∈ cs, ∃ e, x = Change.pin (.remove c e)) →
          WholeFiles (cs.foldl Change.run m).pins := by
        intro cs
        induction cs with
        | nil => intro m hm _; exact hm
        | cons y cs ih =>
          intro m hm hy
          rw [List.foldl_cons]
          refine ih _ ?_ (fun x hx => hy x (List.mem_cons_of_mem _ hx))
          obtain ⟨ex, rfl⟩ := hy y List.mem_cons_self
          intro c' f' hf'
          simp only [Change.run, DiskStep.run, AMap.get_erase] at hf'
          split at hf'
          · cases hf'
          · exact hm c' f' hf'
      refine go cs n h (fun x hx => ?_) c f hf
      rcases change_cases (hc x hx) with ⟨b, ho, -⟩ | ⟨c, ho, -⟩ | ⟨c, d', ho, -⟩ | ⟨c, d', ho, -⟩ | ⟨c, b, d', ho, rfl, ex, rfl⟩
      · cases ho
      · cases ho
      · cases ho
      · cases ho
      · cases ho; exact ⟨ex, rfl⟩
    · rw [pin_kept (fun b hb => h1 ⟨b, hb⟩) h2 (fun _ hx => by cases hx)] at hf
      exact h c f hf

theorem WholeFiles.run {env : PinEnv} {le : Cid → Cid → Bool} (hist : List (NodeOp × Ends)) {n : DiskNode} (h : WholeFiles n.pins) :
    WholeFiles (n.run env le hist).pins := by
  induction hist generalizing n with
  | nil => exact h
  | cons x hist ih => exact ih (h.step x.1 x.2)

/-- Pinned, as far as the files say. -/
def PinnedFiles (g : FsPins) (d : Cid) : Prop :=
  (g.get (d, .recursive)).isSome = true ∨ (g.get (d, .direct)).isSome = true ∨ ∃ r l, g.get (r, .recursive) = some (.json l) ∧ d ∈ l

theorem anyRefers_readable {g : FsPins} (h : WholeFiles g) (d : Cid) (rs : List Cid) :
    ∃ b, FsPins.anyRefers g d rs = .ok b ∧ (b = true ↔ ∃ r ∈ rs, ∃ l, g.get (r, .recursive) = some (.json l) ∧ d ∈ l) := by
  induction rs with
  | nil => exact ⟨false, rfl, by simp⟩
  | cons x rs ih =>
    obtain ⟨b, hb, hi⟩ := ih
    cases hg : g.get (x, .recursive) with
    | none =>
      refine ⟨b, ?_, ?_⟩
      · simp [FsPins.anyRefers, FsPins.readRecursivelyPinned, hg, hb]
      · rw [hi]; simp [hg]
    | some f =>
      obtain ⟨l, rfl⟩ := h x f hg
      by_cases hd : d ∈ l
      · exact ⟨true, by simp [FsPins.anyRefers, FsPins.readRecursivelyPinned, hg, hd], by simp only [true_iff]; exact ⟨x, by simp, l, hg, hd⟩⟩
      · refine ⟨b, by simp [FsPins.anyRefers, FsPins.readRecursivelyPinned, hg, hd, hb], ?_⟩
        rw [hi]
        simp [hg, hd]

theorem isPinned_readable {g : FsPins} (h : WholeFiles g) (d : Cid) : ∃ b, g.isPinned d = .ok b ∧ (b = true ↔ PinnedFiles g d) := by
  by_cases h1 : g.isFile d .recursive = true
  · exact ⟨true, isPinned_file (.inl h1), by simp only [true_iff]; exact .inl h1⟩
  by_cases h2 : g.isFile d .direct = true
  · exact ⟨true, isPinned_file (.inr h2), by simp only [true_iff]; exact .inr (.inl h2)⟩
  obtain ⟨b, hb, hi⟩ := anyRefers_readable h d g.listRecursive
  refine ⟨b, by simp [FsPins.isPinned, FsPins.readDirectOrRecursive, h1, h2, hb], ?_⟩
  rw [hi]
  constructor
  · rintro ⟨r, -, l, hl⟩
    exact .inr (.inr ⟨r, l, hl⟩)
  · rintro (h | h | ⟨r, l, hl, hd⟩)
    · exact absurd h h1
    · exact absurd h h2
    · exact ⟨r, (mem_listRecursive g r).2 (by simp [FsPins.isFile, hl]), l, hl, hd⟩

/-- Whatever is asked for and whenever it crashes, it can always be said of every block whether it is pinned. -/
theorem C83_readable (env : PinEnv) (le : Cid → Cid → Bool) (hist : List (NodeOp × Ends)) (d : Cid) :
    ∃ b, (DiskNode.run env le ⟨[], []⟩ hist).pins.isPinned d = .ok b := by
  obtain ⟨b, hb, -⟩ := isPinned_readable (WholeFiles.run (env := env) (le := le) hist (n := ⟨[], []⟩) (fun c f h => by cases h)) d
  exact ⟨b, hb⟩

/-! ### Pins are there as before or as after -/

theorem pinnedFiles_congr {g g' : FsPins} (h1 : ∀ x, g'.get (x, .recursive) = g.get (x, .recursive))
    (h2 : ∀ x, g'.get (x, .direct) = g.get (x, .direct) ∨ (g.get (x, .recursive)).isSome = true) (d : Cid) : PinnedFiles g' d ↔ PinnedFiles g d := by
  unfold PinnedFiles
  simp only [h1]
  rcases h2 d with h | h
  · rw [h]
  · simp [h]

theorem step_single {env : PinEnv} {le : Cid → Cid → Bool} {n : DiskNode} {op : NodeOp} {x : Change} (h : (n.plan env le op).2 = [x])
    (hb : n.botched env le op = []) (e : Ends) : n.step env le op e = n ∨ n.step env le op e = n.step env le op .done := by
  cases e with
  | done => exact .inr rfl
  | cut k =>
    cases k with
    | zero => exact .inl rfl
    | succ k => right; simp [DiskNode.step, h]
  | full k => left; simp [DiskNode.step, hb]

theorem atomic_files (env : PinEnv) (le : Cid → Cid → Bool) (n : DiskNode) (op : NodeOp) (e : Ends) :
    (∀ d, PinnedFiles (n.step env le op e).pins d ↔ PinnedFiles n.pins d) ∨
    (∀ d, PinnedFiles (n.step env le op e).pins d ↔ PinnedFiles (n.step env le op .done).pins d) := by
  have same : ∀ m, n.step env le op e = m → (m = n ∨ m = n.step env le op .done) →
      (∀ d, PinnedFiles (n.step env le op e).pins d ↔ PinnedFiles n.pins d) ∨
      (∀ d, PinnedFiles (n.step env le op e).pins d ↔ PinnedFiles (n.step env le op .done).pins d) := by
    rintro m hm (h | h)
    · left; rw [hm, h]; exact fun d => Iff.rfl
    · right; rw [hm, h]; exact fun d => Iff.rfl
  cases op with
  | put b =>
    left
    exact fun d => pinnedFiles_congr (fun x => pin_kept (by simp) (by simp) (by simp)) (fun x => .inl (pin_kept (by simp) (by simp) (by simp))) d
  | remove c =>
    left
    exact fun d => pinnedFiles_congr (fun x => pin_kept (by simp) (by simp) (by simp)) (fun x => .inl (pin_kept (by simp) (by simp) (by simp))) d
  | pin c rec =>
    cases rec with
    | false =>
      have hb : n.botched env le (.pin c false) = [] := by
        unfold DiskNode.botched
        split <;> simp_all
      rcases hp : (n.plan env le (.pin c false)).2 with _ | ⟨y, ys⟩
      · exact same _ rfl (.inl (step_idle hp e))
      · have hys : ys = [] := by
          simp only [DiskNode.plan, Bool.false_eq_true, if_false, FsPins.insertDirect] at hp
          split at hp
          · cases hp
          · split at hp
            · cases hp
            · simp only [pinPlan, List.map_cons, List.map_nil, List.cons.injEq] at hp
              exact hp.2.symm
        subst hys
        exact same _ rfl (step_single hp hb e)
    | true =>
      rcases pin_true_plan env le n c with hp | ⟨S, hp⟩
      · exact same _ rfl (.inl (step_idle (by rw [hp]) e))
      · cases e with
        | done => exact same _ rfl (.inr rfl)
        | full k =>
          left
          have hb : n.botched env le (.pin c true) = (FsPins.botchedInsert c).map Change.pin := by
            unfold DiskNode.botched
            rw [hp]
            rfl
          have sp : ∀ x ext, ext ≠ PinExt.recursiveTemp → (n.step env le (.pin c true) (.full k)).pins.get (x, ext) = n.pins.get (x, ext) := by
            intro x ext he
            simp only [DiskNode.step]
            rw [hb, pins_take]
            refine spares_runs _ (fun d hd => ?_) _
            have hd' := List.mem_of_mem_take hd
            have hne : (x, ext) ≠ (c, PinExt.recursiveTemp) := fun h => he (Prod.mk.inj h).2
            simp only [FsPins.botchedInsert, List.mem_cons, List.not_mem_nil, or_false] at hd'
            rcases hd' with rfl | rfl <;> exact hne
          exact fun d => pinnedFiles_congr (fun x => sp x _ (by simp)) (fun x => .inl (sp x _ (by simp))) d
        | cut k =>
          have hcut : ∀ x ext, ext ≠ PinExt.recursiveTemp → (n.step env le (.pin c true) (.cut k)).pins.get (x, ext) =
              if k ≤ 2 then n.pins.get (x, ext) else if (x, ext) = (c, .recursive) then some (.json S)
                else if 4 ≤ k ∧ (x, ext) = (c, .direct) then none else n.pins.get (x, ext) := by
            intro x ext he
            simp only [DiskNode.step]
            rw [hp, pins_take]
            exact insertSteps_get n.pins c S k x ext he
          have hdone : ∀ x ext, ext ≠ PinExt.recursiveTemp → (n.step env le (.pin c true) .done).pins.get (x, ext) =
              if (x, ext) = (c, .recursive) then some (.json S) else if (x, ext) = (c, .direct) then none else n.pins.get (x, ext) := by
            intro x ext he
            simp only [DiskNode.step]
            rw [hp, pins_foldl]
            have := insertSteps_get n.pins c S 4 x ext he
            simpa using this
          by_cases hk : k ≤ 2
          · left
            refine fun d => pinnedFiles_congr (fun x => ?_) (fun x => .inl ?_) d
            · rw [hcut x _ (by simp), if_pos hk]
            · rw [hcut x _ (by simp), if_pos hk]
          · right
            refine fun d => pinnedFiles_congr (fun x => ?_) (fun x => ?_) d
            · rw [hcut x _ (by simp), hdone x _ (by simp), if_neg hk]
              simp
            · by_cases hx : x = c
              · right
                rw [hdone x _ (by simp), hx]
                simp
              · left
                rw [hcut x _ (by simp), hdone x _ (by simp), if_neg hk]
                simp [hx]
  | unpin c rec =>
    have hb : n.botched env le (.unpin c rec) = [] := by
      unfold DiskNode.botched
      split <;> simp_all
    rcases hp : (n.plan env le (.unpin c rec)).2 with _ | ⟨y, ys⟩
    · exact same _ rfl (.inl (step_idle hp e))
    · have hcase : ys = [] ∨ (y :: ys) = ([.remove c .direct, .remove c .recursive] : List DiskStep).map Change.pin := by
        simp only [DiskNode.plan] at hp
        split at hp
        · right
          split at hp
          · cases hp
          · split at hp
            · cases hp
            · unfold FsPins.removeRecursive at hp
              split at hp
              · exact hp.symm
              · cases hp
        · left
          unfold FsPins.removeDirect at hp
          split at hp
          · cases hp
          · split at hp
            · simp only [pinPlan, List.map_cons, List.map_nil, List.cons.injEq] at hp
              exact hp.2.symm
            · cases hp
      rcases hcase with rfl | hcase
      · exact same _ rfl (step_single hp hb e)
      · rw [hcase] at hp
        cases e with
        | done => exact same _ rfl (.inr rfl)
        | full k => exact same n (by simp [DiskNode.step, hb]) (.inl rfl)
        | cut k =>
          have hcut : ∀ x ext, (n.step env le (.unpin c rec) (.cut k)).pins.get (x, ext) =
              if 1 ≤ k ∧ (x, ext) = (c, .direct) then none else if 2 ≤ k ∧ (x, ext) = (c, .recursive) then none else n.pins.get (x, ext) := by
            intro x ext
            simp only [DiskNode.step]
            rw [hp, pins_take]
            exact removeSteps_get n.pins c k x ext
          have hdone : ∀ x ext, (n.step env le (.unpin c rec) .done).pins.get (x, ext) =
              if (x, ext) = (c, .direct) then none else if (x, ext) = (c, .recursive) then none else n.pins.get (x, ext) := by
            intro x ext
            simp only [DiskNode.step]
            rw [hp, pins_foldl]
            have := removeSteps_get n.pins c 2 x ext
            simpa using this
          match k with
          | 0 => exact same n rfl (.inl rfl)
          | 1 =>
            by_cases hr : (n.pins.get (c, .recursive)).isSome = true
            · left
              refine fun d => pinnedFiles_congr (fun x => ?_) (fun x => ?_) d
              · rw [hcut]; simp
              · by_cases hx : x = c
                · right; rw [hx]; exact hr
                · left; rw [hcut]; simp [hx]
            · right
              refine fun d => pinnedFiles_congr (fun x => ?_) (fun x => .inl ?_) d
              · rw [hcut, hdone]
                by_cases hx : x = c
                · subst hx
                  simpa using hr
                · simp [hx]
              · rw [hcut, hdone]; simp
          | k + 2 =>
            refine same _ rfl (.inr ?_)
            simp only [DiskNode.step]
            rw [List.take_of_length_le (by rw [hp]; simp)]

/-- Whatever is asked for and however it ends: each block is reported as pinned as before the request, or else each as after it. -/
theorem C83_atomic (env : PinEnv) (le : Cid → Cid → Bool) (hist : List (NodeOp × Ends)) (op : NodeOp) (e : Ends) :
    let n := DiskNode.run env le ⟨[], []⟩ hist
    (∀ d, PinnedAt (n.step env le op e) d ↔ PinnedAt n d) ∨
    (∀ d, PinnedAt (n.step env le op e) d ↔ PinnedAt (n.step env le op .done) d) := by
  intro n
  have hn : WholeFiles n.pins := WholeFiles.run hist (fun c f h => by cases h)
  have key : ∀ m : DiskNode, WholeFiles m.pins → ∀ d, PinnedAt m d ↔ PinnedFiles m.pins d := by
    intro m hm d
    obtain ⟨b, hb, hi⟩ := isPinned_readable hm d
    unfold PinnedAt
    rw [hb, ← hi]
    simp
  rcases atomic_files env le n op e with h | h
  · left
    intro d
    rw [key _ (hn.step op e), key _ hn, h d]
  · right
    intro d
    rw [key _ (hn.step op e), key _ (hn.step op .done), h d]

/-! ### Blocks are right unless a put is torn -/

/-- What is there of the tree is right. -/
def RightOn (tree : Cid → Prop) (content : Cid → Bytes) (n : DiskNode) : Prop := ∀ d, tree d → ∀ v, n.get d = some v → v = content d

theorem RightOn.step {env : PinEnv} {le : Cid → Cid → Bool} {tree : Cid → Prop} {content : Cid → Bytes} {n : DiskNode} (h : RightOn tree content n)
    {op : NodeOp} {e : Ends} (h1 : ∀ b, op = .put b → ∀ d, tree d → toV1 b.cid = toV1 d → (e ≠ .cut 1 ∧ e ≠ .full 1) ∧ b.data = content d) :
    RightOn tree content (n.step env le op e) := by
  intro d hd v hv
  by_cases hput : ∃ b, op = .put b ∧ toV1 b.cid = toV1 d
  · obtain ⟨b, rfl, hb⟩ := hput
    obtain ⟨⟨h2, h3⟩, h4⟩ := h1 b rfl d hd hb
    cases hg : n.get b.cid with
    | some w =>
      rw [step_idle (by simp [DiskNode.plan, hg])] at hv
      exact h d hd v hv
    | none =>
      have hp : (n.plan env le (.put b)).2 = [.touch b.cid, .fill b.cid b.data] := by simp [DiskNode.plan, hg]
      have hbo : n.botched env le (.put b) = [.touch b.cid, .gone b.cid] := by
        unfold DiskNode.botched
        rw [hp]
      unfold DiskNode.get at hv hg
      have full : ((n.plan env le (.put b)).2.foldl Change.run n).files.get (toV1 d) = some (content d) := by
        rw [hp, ← hb, ← h4]
        simp [Change.run, AMap.get_set]
      cases e with
      | done =>
        simp only [DiskNode.step] at hv
        rw [full] at hv
        exact (Option.some.inj hv).symm
      | cut k =>
        match k with
        | 0 => exact h d hd v hv
        | 1 => exact absurd rfl h2
        | k + 2 =>
          simp only [DiskNode.step] at hv
          rw [List.take_of_length_le (by rw [hp]; simp), full] at hv
          exact (Option.some.inj hv).symm
      | full k =>
        match k with
        | 0 => exact h d hd v hv
        | 1 => exact absurd rfl h3
        | k + 2 =>
          simp only [DiskNode.step] at hv
          rw [List.take_of_length_le (by rw [hbo]; simp), hbo, ← hb] at hv
          simp [Change.run, AMap.get_erase] at hv
  · obtain ⟨cs, hs, hc⟩ := step_changes env le n op e
    rw [hs] at hv
    clear hs
    have go : ∀ (cs : List Change) (m : DiskNode), RightOn (· = d) content m → (∀ x ∈ cs, SparesFile (toV1 d) x ∨ ∃ c, x = .gone c) →
        RightOn (· = d) content (cs.foldl Change.run m) := by
      intro cs
      induction cs with
      | nil => intro m hm _; exact hm
      | cons y cs ih =>
        intro m hm hy
        rw [List.foldl_cons]
        refine ih _ ?_ (fun x hx => hy x (List.mem_cons_of_mem _ hx))
        rintro _ rfl w hw
        rcases hy y List.mem_cons_self with hsp | ⟨c, rfl⟩
        · have := files_kept [y] (k := toV1 _) (by simpa using hsp) m
          exact hm _ rfl w (by unfold DiskNode.get at hw ⊢; rw [← hw]; exact this.symm)
        · simp only [DiskNode.get, Change.run, AMap.get_erase] at hw
          split at hw
          · cases hw
          · exact hm _ rfl w hw
    refine go cs n (fun d' hd' => by rw [hd']; exact h d hd) (fun x hx => ?_) d rfl v hv
    rcases change_cases (hc x hx) with ⟨b, ho, hb, hx⟩ | ⟨c, -, hp, rfl⟩ | ⟨c, d', ho, hf, rfl, rfl⟩ | ⟨c, d', ho, rfl, hd⟩ | ⟨c, b, d', ho, rfl, ex, rfl⟩
    · have hne : toV1 d ≠ toV1 b.cid := fun h => hput ⟨b, ho, h.symm⟩
      rcases hx with rfl | rfl | rfl
      · exact .inl hne
      · exact .inl hne
      · exact .inl hne
    · exact .inr ⟨c, rfl⟩
    · exact .inl trivial
    · exact .inl trivial
    · exact .inl trivial

/-- Blocks that are put with what they have are there with it or not at all, unless a put was torn. -/
theorem C83_blocks (env : PinEnv) (le : Cid → Cid → Bool) (tree : Cid → Prop) (content : Cid → Bytes) (hist : List (NodeOp × Ends))
    (honest : HonestPuts tree content hist) (untorn : NoTornPut tree hist) (d : Cid) (hd : tree d) (v : Bytes)
    (hv : (DiskNode.run env le ⟨[], []⟩ hist).get d = some v) : v = content d := by
  have go : ∀ (hist : List (NodeOp × Ends)) (n : DiskNode), RightOn tree content n → HonestPuts tree content hist → NoTornPut tree hist →
      RightOn tree content (n.run env le hist) := by
    intro hist
    induction hist with
    | nil => intro n hn _ _; exact hn
    | cons x hist ih =>
      intro n hn h1 h2
      obtain ⟨op, e⟩ := x
      refine ih _ (hn.step fun b hb d hd hv => ?_) (fun b e' hm => h1 b e' (List.mem_cons_of_mem _ hm)) (fun b e' hm => h2 b e' (List.mem_cons_of_mem _ hm))
      subst hb
      exact ⟨h2 b e List.mem_cons_self d hd hv, h1 b e List.mem_cons_self d hd hv⟩
  exact go hist ⟨[], []⟩ (fun d _ v h => by cases h) honest untorn d hd v hv

theorem diskRun_append (env : PinEnv) (le : Cid → Cid → Bool) (n : DiskNode) (a b : List (NodeOp × Ends)) :
    n.run env le (a ++ b) = (n.run env le a).run env le b := by
  induction a generalizing n with
  | nil => rfl
  | cons x a ih => exact ih _

/-- **C83** as far as it holds: blocks put into an empty repository, a recursive pin that went well, and then anything but an unpinning: everything
below is there with its data and stays, whatever crashes there are. What is missing: that no put was cut off between the creation of its file and its
data before (`C83_torn`), and that nobody removes a block by the cid of the other version (`C83_alias`). -/
theorem C83_partial (env : PinEnv) (le : Cid → Cid → Bool) (content : Cid → Bytes) (r : Cid) (before after : List (NodeOp × Ends))
    (honest : HonestPuts (InTree env content r) content before) (untorn : NoTornPut (InTree env content r) before)
    (went : ((DiskNode.run env le ⟨[], []⟩ before).plan env le (.pin r true)).1 = true)
    (alone : LeavesAlone (InTree env content r) r after) (d : Cid) (hd : InTree env content r d) :
    SafeAt env le content (DiskNode.run env le ⟨[], []⟩ (before ++ (.pin r true, .done) :: after)) d := by
  rw [diskRun_append]
  exact C83_stays env le content _ r (fun d hd v hv => C83_blocks env le _ content before honest untorn d hd v hv) went after alone d hd

/-! ### Examples -/

/-- Crashes in the middle of puts, pins and removals. -/
def exDiskBefore : List (NodeOp × Ends) :=
  [(.put (exBlockOf exRootA), .cut 0), (.put (exBlockOf exRootA), .full 2), (.put (exBlockOf exRootA), .cut 2), (.pin exRootA true, .done),
   (.put (exBlockOf exLeaf), .done), (.pin exRootA true, .cut 2), (.pin exRootA false, .done)]

def exDiskAfter : List (NodeOp × Ends) :=
  [(.remove exLeaf, .done), (.pin exRootA true, .cut 1), (.pin exRootA true, .full 1), (.put (exBlockOf exLeaf), .cut 1), (.remove exRootA, .done),
   (.put (exBlockOf exRootB), .cut 1), (.pin exLeaf true, .cut 3), (.unpin exLeaf true, .cut 1), (.unpin exLeaf true, .done), (.remove exLeaf, .done)]

theorem exInTreeA {d : Cid} (h : InTree exPinEnv exPinContent exRootA d) : d = exRootA ∨ d = exLeaf := h.imp id (exBelowA d)

theorem exV1 : ∀ a ∈ [exRootA, exLeaf, exRootB], ∀ b ∈ [exRootA, exLeaf], toV1 a = toV1 b → a = b := by decide +kernel

theorem exAlone : LeavesAlone (InTree exPinEnv exPinContent exRootA) exRootA exDiskAfter := by
  refine ⟨?_, ?_⟩
  · intro b e h
    have hne : exLeaf ≠ exRootA := by decide +kernel
    simp [exDiskAfter, hne.symm] at h
  · intro c e h d hd hv
    refine exV1 c ?_ d ?_ hv
    · simp only [exDiskAfter, List.mem_cons, Prod.mk.injEq, NodeOp.remove.injEq, reduceCtorEq, false_and, List.not_mem_nil, or_false, false_or] at h
      rcases h with ⟨rfl, -⟩ | ⟨rfl, -⟩ | ⟨rfl, -⟩ <;> simp
    · rcases exInTreeA hd with rfl | rfl <;> simp

theorem exDiskPuts (b : Block) (e : Ends) (h : (NodeOp.put b, e) ∈ exDiskBefore) :
    b.data = exPinContent b.cid ∧ b.cid ∈ [exRootA, exLeaf, exRootB] ∧ e ≠ .cut 1 ∧ e ≠ .full 1 := by
  simp only [exDiskBefore, List.mem_cons, Prod.mk.injEq, NodeOp.put.injEq, reduceCtorEq, false_and, List.not_mem_nil, or_false, false_or] at h
  rcases h with ⟨rfl, rfl⟩ | ⟨rfl, rfl⟩ | ⟨rfl, rfl⟩ | ⟨rfl, rfl⟩ <;> simp [exBlockOf]

example (d : Cid) (hd : InTree exPinEnv exPinContent exRootA d) :
    SafeAt exPinEnv exLe exPinContent (DiskNode.run exPinEnv exLe ⟨[], []⟩ (exDiskBefore ++ (.pin exRootA true, .done) :: exDiskAfter)) d := by
  refine C83_partial exPinEnv exLe exPinContent exRootA exDiskBefore exDiskAfter ?_ ?_ (by decide +kernel) exAlone d hd
  · intro b e h d hd hv
    obtain ⟨h1, h2, -⟩ := exDiskPuts b e h
    have := exV1 b.cid h2 d (by rcases exInTreeA hd with rfl | rfl <;> simp) hv
    rw [h1, this]
  · intro b e h d hd hv
    exact (exDiskPuts b e h).2.2

-- the leaf is below the root, and a direct pin goes well too
example : InTree exPinEnv exPinContent exRootA exLeaf :=
  .inr (.link ((fullLook_links exFullLook.2.1 _).mp ⟨(none, exLeaf), by simp, rfl⟩))

example : SafeAt exPinEnv exLe exPinContent (DiskNode.run exPinEnv exLe (DiskNode.run exPinEnv exLe ⟨[], []⟩ [(.put (exBlockOf exLeaf), .done)])
    [(.pin exLeaf false, .done), (.remove exLeaf, .done), (.pin exLeaf true, .cut 3)]) exLeaf := by
  refine C83_direct exPinEnv exLe exPinContent _ exLeaf (by decide +kernel) (by decide +kernel) _ ⟨by simp, ?_⟩
  intro c e h d hd hv
  simp only [List.mem_cons, Prod.mk.injEq, NodeOp.remove.injEq, reduceCtorEq, false_and, List.not_mem_nil, or_false] at h
  rw [h.1, hd]

-- both outcomes of a cut request exist: cut after two changes the pin is not there, after three it is
example : (DiskNode.run exPinEnv exLe ⟨[], []⟩ [(.put (exBlockOf exLeaf), .done), (.pin exLeaf true, .cut 2)]).pins.isPinned exLeaf = .ok false ∧
    (DiskNode.run exPinEnv exLe ⟨[], []⟩ [(.put (exBlockOf exLeaf), .done), (.pin exLeaf true, .cut 3)]).pins.isPinned exLeaf = .ok true := by
  decide +kernel

/-- **C83 fails** for a put that was cut off: the file is there and empty, putting the block again goes well and changes nothing, pinning it goes
well, and what is pinned is not what was put. -/
theorem C83_torn :
    let n := DiskNode.run exPinEnv exLe ⟨[], []⟩ [(.put (exBlockOf exLeaf), .cut 1)]
    let n' := n.run exPinEnv exLe [(.put (exBlockOf exLeaf), .done)]
    (n.plan exPinEnv exLe (.put (exBlockOf exLeaf))).1 = true ∧
    (n'.plan exPinEnv exLe (.pin exLeaf true)).1 = true ∧
    (n'.run exPinEnv exLe [(.pin exLeaf true, .done)]).get exLeaf = some [] ∧ exPinContent exLeaf ≠ [] := by
  decide +kernel

/-- A block of version 0 and the same cid as of version 1. -/
def exV0 : Cid := ⟨.v0, codecDagPb, mhSha256, List.replicate 32 9⟩

/-- **C83 fails** for blocks that have two cids: pinned by the one, it is removed by the other, since the file of the block is the same and the files of
pins are not. -/
theorem C83_alias :
    let n := DiskNode.run exPinEnv exLe ⟨[], []⟩ [(.put ⟨exV0, [10, 0]⟩, .done), (.pin exV0 true, .done)]
    n.pins.isPinned exV0 = .ok true ∧ (n.plan exPinEnv exLe (.remove (toV1 exV0))).1 = true ∧
    (n.run exPinEnv exLe [(.remove (toV1 exV0), .done)]).pins.isPinned exV0 = .ok true ∧
    (n.run exPinEnv exLe [(.remove (toV1 exV0), .done)]).get exV0 = none := by
  decide +kernel

end Verif.Props
