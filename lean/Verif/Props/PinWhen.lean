import Verif.Props.Pin

/-!
# C69: when pinning and unpinning succeed, and what goes wrong when requests overlap
-/

namespace Verif.Props

open Verif Verif.Ipld Verif.Repo Verif.Spec Verif.Ipfs.Refs Verif.Ipfs.Pin

variable {σ ε : Type}

/-! ### Specification -/

/-- The block is there and can be read. -/
def Here (env : PinEnv) (content : Cid → Bytes) (blocks : MemBlocks) (d : Cid) : Prop :=
  (blocks.getBlock d).isSome = true ∧ Readable (look env.ipld env.size (fun c => some (content c))) d

/-! ### The walk -/

theorem readable_decode {env : PinEnv} {content : Cid → Bytes} {U : Cid → Prop} {blocks : MemBlocks}
    (hb : HoldsData content U blocks) {c : Cid} (hc : U c) {b : Block} (hg : blocks.getBlock c = some b) :
    (¬ Readable (fullLook env content) c → ∃ e, descendants (ε := ε) env blocks c b.data = .error e) ∧
    (Readable (fullLook env content) c → descendants (ε := ε) env blocks c b.data = .error .endless ∨
      ∃ L, descendants (ε := ε) env blocks c b.data = .ok L) := by
  rw [hb c hc b hg]
  unfold descendants Readable
  cases hd : decodeIpld env.ipld env.size c (content c) with
  | error x => simp [fullLook, look, hd]
  | ok doc =>
    cases hl : ipldLinks c doc with
    | none => simp [fullLook, look, hd, hl]
    | some ls =>
      have hx : fullLook env content c = .links ls := by simp [fullLook, look, hd, hl]
      refine ⟨fun h => absurd ⟨ls, hx⟩ h, fun _ => ?_⟩
      simp only [hl]
      cases hr : refs walkOpts (repoLook env blocks) env.fuel [(c, ls)] with
      | none => exact Or.inl rfl
      | some r => exact Or.inr ⟨_, rfl⟩

/-- Pinning recursively gets to the pin store if everything is there, and then with all of it. -/
theorem pin_answer {S : Type} {env : PinEnv} {content : Cid → Bytes} {U : Cid → Prop} {root keeps : S → Cid → Prop}
    {Inv : σ → S → Prop} {st : PinStore σ ε} (hcl : ∀ a b, U a → LinkTo env content a b → U b)
    (hcut : ∀ g c L, none ∈ L → (st.insertRecursive g c L).1.isOk = false) {s : RepoState σ} {k : S}
    (h : NodeInv env content U root keeps Inv s k) {c : Cid} (hc : U c)
    (he : (insertPin env st s c true).1 ≠ .error .endless) :
    (insertPin env st s c true).1.isOk = true ↔
      (Here env content s.blocks c ∧ ∀ d, Below env content c d → Here env content s.blocks d) ∧
      (st.insertRecursive s.pins c ((treeRefs env content c).map some)).1.isOk = true := by
  unfold insertPin at he ⊢
  cases hg : s.blocks.getBlock c with
  | none =>
    simp only [Here, hg]
    simp [Except.isOk, Except.toBool]
  | some b =>
    simp only [hg, if_true] at he ⊢
    obtain ⟨h1, h2⟩ := readable_decode (ε := ε) (env := env) h.blocks hc hg
    by_cases hr : Readable (fullLook env content) c
    · rcases h2 hr with h3 | ⟨L, h3⟩
      · rw [h3] at he
        exact absurd rfl he
      · rw [h3]
        simp only [(pinsAfter_isOk _ _).1]
        rcases descendants_cases hcl h.blocks hc hg h3 with h4 | ⟨rfl, ⟨ls, items, hw⟩, h5⟩
        · rw [hcut _ _ _ h4]
          refine ⟨fun h => (by cases h), fun ⟨⟨_, h5⟩, _⟩ => ?_⟩
          exact absurd h4 (walk_notCut hcl h.blocks hc h5 hg h3)
        · refine ⟨fun h6 => ⟨⟨⟨by simp [hg], hr⟩, fun d hd => ?_⟩, h6⟩, fun h6 => h6.2⟩
          have hd' := (hw.below d).mpr hd
          refine ⟨(h5 d hd').2, ?_⟩
          obtain ⟨g1, g2, g3⟩ := hw
          rw [Whole.treeRefs ⟨g1, g2, g3⟩] at hd'
          obtain ⟨ld, h7, -⟩ := (walk_found g2 g3).2.2.1 d hd'
          exact ⟨ld, h7⟩
    · obtain ⟨e, h3⟩ := h1 hr
      rw [h3]
      refine ⟨fun h => (by cases h), fun h => absurd h.1.1.2 hr⟩

theorem unpin_answer {S : Type} {env : PinEnv} {content : Cid → Bytes} {U : Cid → Prop} {root keeps : S → Cid → Prop}
    {Inv : σ → S → Prop} {st : PinStore σ ε} {s : RepoState σ} {k : S}
    (h : NodeInv env content U root keeps Inv s k) {c : Cid} (hc : U c)
    (hk : root k c → keeps k c ∧ ∀ d ∈ treeRefs env content c, keeps k d)
    (hst : ∀ L, (root k c → L = (treeRefs env content c).map some) → (st.removeRecursive s.pins c L).1.isOk =
      (st.removeRecursive s.pins c ((treeRefs env content c).map some)).1.isOk)
    (he : (removePin env st s c true).1 ≠ .error .endless) :
    (removePin env st s c true).1.isOk = true ↔ (root k c ∨ Here env content s.blocks c) ∧
      (st.removeRecursive s.pins c ((treeRefs env content c).map some)).1.isOk = true := by
  unfold removePin at he ⊢
  simp only [if_true] at he ⊢
  cases hg : s.blocks.getBlock c with
  | none =>
    simp only [Here, hg]
    constructor
    · intro h; cases h
    · rintro ⟨h1 | h1, -⟩
      · have := (h.kept c (hk h1).1).2
        simp [hg] at this
      · simp at h1
  | some b =>
    simp only [hg] at he ⊢
    obtain ⟨h1, h2⟩ := readable_decode (ε := ε) (env := env) h.blocks hc hg
    by_cases hr : Readable (fullLook env content) c
    · rcases h2 hr with h3 | ⟨L, h3⟩
      · rw [h3] at he
        exact absurd rfl he
      · rw [h3]
        simp only [(pinsAfter_isOk _ _).1]
        rw [hst L]
        · exact ⟨fun h => ⟨Or.inr ⟨by simp [hg], hr⟩, h⟩, fun h => h.2⟩
        · intro hroot
          obtain ⟨ls, items, hw⟩ := h.whole c hroot
          have := descendants_whole (ε := ε) h.blocks hc hw (fun d hd => h.kept d ((hk hroot).2 d hd)) hg
          rw [this] at h3
          exact (Except.ok.inj h3).symm
    · obtain ⟨e, h3⟩ := h1 hr
      rw [h3]
      refine ⟨fun h => (by cases h), ?_⟩
      rintro ⟨h4 | h4, -⟩
      · obtain ⟨ls, items, hw⟩ := h.whole c h4
        exact absurd ⟨ls, hw.1⟩ hr
      · exact absurd h4.2 hr

/-! ### When requests succeed -/

theorem nodeInv_disk (env : PinEnv) (content : Cid → Bytes) (U : Cid → Prop) (le : Cid → Cid → Bool) (ops : List NodeOp)
    (hu : InUse env content U ops) :
    NodeInv env content U (fun k r => k.root r = true) (fun k c => k.Pinned (treeRefs env content) c)
      (FsInv (treeRefs env content)) (nodeRun env (fsStore le) pinsMoved ⟨[], [], []⟩ Pins.none ops).1
      (nodeRun env (fsStore le) pinsMoved ⟨[], [], []⟩ Pins.none ops).2 := by
  refine NodeInv.run hu.apart hu.closed (fsGuard le _ U) ops ⟨FsInv.nil _, ?_, ?_, ?_⟩ hu.uses (Or.inl trivial)
  · intro c _ b hb; simp [MemBlocks.getBlock, AMap.get] at hb
  · intro d hd; simp [Pins.Pinned, Pins.Indirect, Pins.none] at hd
  · intro r hr; simp [Pins.none] at hr

theorem nodeInv_memory (env : PinEnv) (content : Cid → Bytes) (U : Cid → Prop) (le : Cid → Cid → Bool) (ops : List NodeOp)
    (hu : InUse env content U ops) (ha : AllThere env content (memStore le) ⟨[], [], []⟩ ops) :
    NodeInv env content U (fun k r => k.root r = true) (fun k c => k.Pinned (treeRefs env content) c)
      (MemInv (treeRefs env content) U) (nodeRun env (memStore le) pinsMoved ⟨[], [], []⟩ Pins.none ops).1
      (nodeRun env (memStore le) pinsMoved ⟨[], [], []⟩ Pins.none ops).2 := by
  refine NodeInv.run hu.apart hu.closed (memGuard le _ (treeRefs_nodup env content) U hu.v1) ops
    ⟨MemInv.nil _ _, ?_, ?_, ?_⟩ hu.uses (Or.inr ha)
  · intro c _ b hb; simp [MemBlocks.getBlock, AMap.get] at hb
  · intro d hd; simp [Pins.Pinned, Pins.Indirect, Pins.none] at hd
  · intro r hr; simp [Pins.none] at hr

theorem fs_allows {le : Cid → Cid → Bool} {refs : Cid → List Cid} {g : FsPins} {p : Pins} (h : FsInv refs g p) (op : PinOp) :
    (diskResult g (fsSteps le refs g op)).1.isOk = true ↔ FsAllows p op := by
  rcases fs_steps (le := le) h op with ⟨h1, steps, h2, -⟩ | ⟨h1, e, h2⟩
  · rw [h2]; exact ⟨fun _ => h1, fun _ => rfl⟩
  · rw [h2]; exact ⟨fun h => (by cases h), fun h => absurd h h1⟩

theorem mem_allows {le : Cid → Cid → Bool} {refs : Cid → List Cid} (hn : ∀ c, (refs c).Nodup) {U : Cid → Prop}
    (hT : ∀ a b, U a → U b → Cid.asV1 a = Cid.asV1 b → a = b) {g : MemPins} {p : Pins} (h : MemInv refs U g p) (op : PinOp)
    (ho : ∀ c, op.root? = some c → U c) : (memStep le refs g op).1.isOk = true ↔ MemAllows refs p op := by
  rcases mem_step (le := le) hn hT h op ho with ⟨h1, g', h2, -⟩ | ⟨h1, e, h2⟩
  · rw [h2]; exact ⟨fun _ => h1, fun _ => rfl⟩
  · rw [h2]; exact ⟨fun h => (by cases h), fun h => absurd h h1⟩

theorem pin_direct_answer {env : PinEnv} {st : PinStore σ ε} {s : RepoState σ} {c : Cid} :
    (insertPin env st s c false).1.isOk = true ↔
      (s.blocks.getBlock c).isSome = true ∧ (st.insertDirect s.pins c).1.isOk = true := by
  unfold insertPin
  cases s.blocks.getBlock c with
  | none => simp [Except.isOk, Except.toBool]
  | some b => simp [(pinsAfter_isOk _ _).1]

/-- **C69** (store on disk): when requests succeed. -/
theorem C69_disk_answers (env : PinEnv) (content : Cid → Bytes) (U : Cid → Prop) (le : Cid → Cid → Bool)
    (ops : List NodeOp) (hu : InUse env content U ops) (c : Cid) (hc : U c) :
    let r := nodeRun env (fsStore le) pinsMoved ⟨[], [], []⟩ Pins.none ops
    ((insertPin env (fsStore le) r.1 c false).1.isOk = true ↔
      (r.1.blocks.getBlock c).isSome = true ∧ r.2.root c = false) ∧
    ((removePin env (fsStore le) r.1 c false).1.isOk = true ↔ r.2.direct c = true) ∧
    ((insertPin env (fsStore le) r.1 c true).1 ≠ .error .endless →
      ((insertPin env (fsStore le) r.1 c true).1.isOk = true ↔
        Here env content r.1.blocks c ∧ ∀ d, Below env content c d → Here env content r.1.blocks d)) ∧
    ((removePin env (fsStore le) r.1 c true).1 ≠ .error .endless →
      ((removePin env (fsStore le) r.1 c true).1.isOk = true ↔
        r.2.root c = true ∨ (r.2.direct c = true ∧ Here env content r.1.blocks c))) := by
  intro r
  have h := nodeInv_disk env content U le ops hu
  have ha := fun op => fs_allows (le := le) h.pins op
  refine ⟨?_, ?_, fun he => ?_, fun he => ?_⟩
  · rw [pin_direct_answer]
    exact and_congr_right fun _ => ha (.insertDirect c)
  · simp only [removePin, Bool.false_eq_true, if_false, (pinsAfter_isOk _ _).1]
    exact ha (.removeDirect c)
  · rw [pin_answer hu.closed (fsGuard le (treeRefs env content) U).insertCut h hc he]
    exact ⟨fun h => h.1, fun h => ⟨h, (ha (.insertRecursive c)).mpr trivial⟩⟩
  · rw [unpin_answer h hc ((fsGuard le (treeRefs env content) U).rootKeeps _ c) (fun L _ => rfl) he]
    have := ha (.removeRecursive c)
    simp only [FsAllows] at this
    simp only [fsStore] at this ⊢
    simp only [fsSteps] at this
    rw [this]
    exact ⟨fun ⟨h1, h2⟩ => by rcases h2 with h2 | h2
                              · exact Or.inl h2
                              · exact h1.imp id (fun h1 => ⟨h2, h1⟩),
      fun h => by rcases h with h | h
                  · exact ⟨Or.inl h, Or.inl h⟩
                  · exact ⟨Or.inr h.2, Or.inr h.1⟩⟩

/-- **C69**: a block is removed just if it is there and nothing pins it, and then it is gone; else nothing changes. -/
theorem C69_removal (env : PinEnv) (st : PinStore σ ε) (s : RepoState σ) (c : Cid) :
    ((nodeStep env st s (.remove c)).1 = true ↔ st.isPinned s.pins c = false ∧ (s.blocks.getBlock c).isSome = true) ∧
    ((nodeStep env st s (.remove c)).1 = true → (nodeStep env st s (.remove c)).2.blocks.getBlock c = none) ∧
    (nodeStep env st s (.remove c)).2.pins = s.pins := by
  cases hp : st.isPinned s.pins c with
  | true =>
    have h := (C29_remove_block st.api s c).1 hp
    simp [nodeStep, h]
  | false =>
    obtain ⟨h1, h2, h3, h4⟩ := (C29_remove_block st.api s c).2 hp
    refine ⟨?_, fun _ => ?_, removeBlock_pins _ s c⟩
    · simp only [nodeStep, h4]
      cases (s.blocks.getBlock c).isSome <;> simp
    · simp only [nodeStep]
      rw [h3, if_pos rfl]

/-- **C69** (store on disk): if it cannot be told whether a block is pinned, it is not removed. -/
theorem C69_disk_unsure (env : PinEnv) (le : Cid → Cid → Bool) (s : RepoState FsPins) (c : Cid) (e : PinErr) (h : s.pins.isPinned c = .error e) :
    nodeStep env (fsStore le) s (.remove c) = (false, s) := by
  have hp : (fsStore le).isPinned s.pins c = true := by simp [fsStore, h]
  have := (C29_remove_block (fsStore le).api s c).1 hp
  simp [nodeStep, this]

/-- **C69** (in-memory store): when requests succeed. -/
theorem C69_memory_answers (env : PinEnv) (content : Cid → Bytes) (U : Cid → Prop) (le : Cid → Cid → Bool)
    (ops : List NodeOp) (hu : InUse env content U ops) (hal : AllThere env content (memStore le) ⟨[], [], []⟩ ops)
    (c : Cid) (hc : U c) :
    let r := nodeRun env (memStore le) pinsMoved ⟨[], [], []⟩ Pins.none ops
    ((insertPin env (memStore le) r.1 c false).1.isOk = true ↔
      (r.1.blocks.getBlock c).isSome = true ∧ r.2.root c = false) ∧
    ((removePin env (memStore le) r.1 c false).1.isOk = true ↔ r.2.direct c = true) ∧
    ((insertPin env (memStore le) r.1 c true).1 ≠ .error .endless →
      ((insertPin env (memStore le) r.1 c true).1.isOk = true ↔ r.2.root c = false ∧
        Here env content r.1.blocks c ∧ ∀ d, Below env content c d → Here env content r.1.blocks d)) ∧
    ((removePin env (memStore le) r.1 c true).1 ≠ .error .endless →
      ((removePin env (memStore le) r.1 c true).1.isOk = true ↔ r.2.root c = true ∨
        (r.2.direct c = true ∧ (¬ ∃ x, r.2.root x = true ∧ Below env content x c) ∧ Here env content r.1.blocks c))) := by
  intro r
  have h := nodeInv_memory env content U le ops hu hal
  have hn := treeRefs_nodup env content
  have ha := fun op ho => mem_allows (le := le) hn hu.v1 h.pins op ho
  have hroot : ∀ op : PinOp, op.root? = some c → ∀ x, op.root? = some x → U x := by
    intro op h1 x h2
    rw [h1, Option.some.injEq] at h2
    subst h2; exact hc
  refine ⟨?_, ?_, fun he => ?_, fun he => ?_⟩
  · rw [pin_direct_answer]
    exact and_congr_right fun _ => ha (.insertDirect c) (by simp [PinOp.root?])
  · simp only [removePin, Bool.false_eq_true, if_false, (pinsAfter_isOk _ _).1]
    exact ha (.removeDirect c) (by simp [PinOp.root?])
  · rw [pin_answer hu.closed (memGuard le (treeRefs env content) hn U hu.v1).insertCut h hc he]
    have := ha (.insertRecursive c) (hroot _ rfl)
    simp only [MemAllows] at this
    rw [and_comm]
    exact and_congr_left fun _ => this
  · rw [unpin_answer h hc ((memGuard le (treeRefs env content) hn U hu.v1).rootKeeps _ c) ?_ he]
    · have h1 := ha (.removeRecursive c) (hroot _ rfl)
      simp only [MemAllows] at h1
      have h2 : r.2.Indirect (treeRefs env content) c ↔ ∃ x, r.2.root x = true ∧ Below env content x c := by
        constructor
        · rintro ⟨x, h1, h2⟩
          obtain ⟨ls, items, hw⟩ := h.whole x h1
          exact ⟨x, h1, (hw.below c).mp h2⟩
        · rintro ⟨x, h1, h2⟩
          obtain ⟨ls, items, hw⟩ := h.whole x h1
          exact ⟨x, h1, (hw.below c).mpr h2⟩
      have h3 : ((memStore le).removeRecursive r.1.pins c ((treeRefs env content c).map some)).1.isOk = true ↔
          r.2.root c = true ∨ (r.2.direct c = true ∧ ¬ r.2.Indirect (treeRefs env content) c) := h1
      rw [h3, h2]
      constructor
      · rintro ⟨h4, h5 | h5⟩
        · exact Or.inl h5
        · exact h4.imp id (fun h4 => ⟨h5.1, h5.2, h4⟩)
      · rintro (h4 | ⟨h4, h5, h6⟩)
        · exact ⟨Or.inl h4, Or.inl h4⟩
        · exact ⟨Or.inr h6, Or.inr ⟨h4, h5⟩⟩
    · intro L hL
      cases hr : r.2.root c with
      | true => rw [hL hr]
      | false =>
        exact congrArg (fun x => x.1.isOk) (mem_removeUnread (le := le) h.pins c hr L)

/-! ### Walks end -/

theorem refs_more {o : Opts} {look : Cid → Look} {roots} {a b : Nat} (hab : a ≤ b)
    (h : (refs o look a roots).isSome = true) : (refs o look b roots).isSome = true := by
  unfold refs at h ⊢
  split at h
  · rename_i h0; rw [if_pos h0]; rfl
  · rename_i h0
    rw [if_neg h0]
    induction hab with
    | refl => exact h
    | step _ ih =>
      obtain ⟨r, hr⟩ := Option.isSome_iff_exists.mp ih
      rw [loop_more _ _ _ _ hr]; rfl

/-- Cids of every codec that can be decoded. -/
def codecCids : List Cid := [codecDagCbor, codecDagPb, codecDagJson, codecRaw].map (fun k => ⟨.v1, k, 0, []⟩)

/-- Where the links of a block lead, with any codec. -/
def allLinks (env : PinEnv) (data : Bytes) : List Cid :=
  codecCids.flatMap (fun x => match look env.ipld env.size (fun _ => some data) x with
    | .links ls => ls.map Prod.snd
    | _ => [])

theorem look_codec {env : PinEnv} {fetch : Cid → Option Bytes} {c : Cid} {data : Bytes} {ls : List (Option Bytes × Cid)}
    (hf : fetch c = some data) (h : look env.ipld env.size fetch c = .links ls) (l) (hl : l ∈ ls) :
    l.2 ∈ allLinks env data := by
  unfold look at h
  simp only [hf] at h
  have hc : ∃ x ∈ codecCids, x.codec = c.codec := by
    simp only [codecCids, List.mem_map, List.mem_cons, List.not_mem_nil, or_false]
    unfold decodeIpld at h
    split at h
    · cases h
    · rename_i d hd
      split at hd
      · rename_i hx; exact ⟨_, ⟨_, Or.inl rfl, rfl⟩, hx.symm⟩
      split at hd
      · rename_i hx; exact ⟨_, ⟨_, Or.inr (Or.inl rfl), rfl⟩, hx.symm⟩
      split at hd
      · rename_i hx; exact ⟨_, ⟨_, Or.inr (Or.inr (Or.inl rfl)), rfl⟩, hx.symm⟩
      split at hd
      · rename_i hx; exact ⟨_, ⟨_, Or.inr (Or.inr (Or.inr rfl)), rfl⟩, hx.symm⟩
      · cases hd
  obtain ⟨x, hx, he⟩ := hc
  simp only [allLinks, List.mem_flatMap]
  refine ⟨x, hx, ?_⟩
  have e : look env.ipld env.size (fun _ => some data) x = .links ls := by
    rw [← h]
    simp only [look, decodeIpld, ipldLinks, he]
  rw [e]
  exact List.mem_map.mpr ⟨l, hl, rfl⟩

theorem get_mem {α β : Type} [DecidableEq α] (m : AMap α β) (a : α) (b : β) (h : m.get a = some b) : (a, b) ∈ m := by
  induction m with
  | nil => simp [AMap.get] at h
  | cons x m ih =>
    simp only [AMap.get] at h
    split at h
    · rename_i hx
      simp only [Option.some.injEq] at h
      subst h; subst hx
      exact List.mem_cons_self
    · exact List.mem_cons_of_mem _ (ih h)

/-- **C69**: the walks of pinning and unpinning end, cycles or not. -/
theorem C69_ends (env : PinEnv) (st : PinStore σ ε) (s : RepoState σ) (c : Cid) (recursive : Bool) :
    ∃ n, ∀ fuel, n ≤ fuel → (insertPin { env with fuel := fuel } st s c recursive).1 ≠ .error .endless ∧
      (removePin { env with fuel := fuel } st s c recursive).1 ≠ .error .endless := by
  have hstore : ∀ r : Except ε Unit × σ, (pinsAfter s r).1 ≠ .error .endless := by
    intro r
    unfold pinsAfter
    split <;> simp
  have key : ∀ b, s.blocks.getBlock c = some b → ∃ n, ∀ fuel, n ≤ fuel →
      descendants (ε := ε) { env with fuel := fuel } s.blocks c b.data ≠ .error .endless := by
    intro b hg
    unfold descendants
    cases hd : decodeIpld env.ipld env.size c b.data with
    | error x => exact ⟨0, fun _ _ => by simp [hd]⟩
    | ok doc =>
      cases hl : ipldLinks c doc with
      | none => exact ⟨0, fun _ _ => by simp [hd, hl]⟩
      | some ls =>
        obtain ⟨n, hn⟩ := C38_unique_terminates walkOpts (repoLook env s.blocks) [(c, ls)] rfl
          (ls.map Prod.snd ++ s.blocks.flatMap (fun e => allLinks env e.2.2.data))
          (by
            intro r hr l hl
            obtain rfl := List.mem_singleton.mp hr
            exact List.mem_append.mpr (Or.inl (List.mem_map.mpr ⟨l, hl, rfl⟩)))
          (by
            intro d _ ld hd l hl
            refine List.mem_append.mpr (Or.inr ?_)
            cases hgd : s.blocks.getBlock d with
            | none => simp [repoLook, look, hgd] at hd
            | some bd =>
              have hx := look_codec (data := bd.data) (by simp [hgd]) hd l hl
              unfold MemBlocks.getBlock at hgd
              obtain ⟨v, h1, h2⟩ := Option.map_eq_some_iff.mp hgd
              refine List.mem_flatMap.mpr ⟨_, get_mem _ _ _ h1, ?_⟩
              rw [h2]; exact hx)
        refine ⟨n, fun fuel hf => ?_⟩
        have := refs_more hf hn
        obtain ⟨r, hr⟩ := Option.isSome_iff_exists.mp this
        have hr' : refs walkOpts (repoLook { env with fuel := fuel } s.blocks) fuel [(c, ls)] = some r := hr
        simp [hd, hl, hr']
  cases hg : s.blocks.getBlock c with
  | none =>
    refine ⟨0, fun fuel _ => ⟨?_, ?_⟩⟩
    · simp [insertPin, hg]
    · unfold removePin
      split
      · simp [hg]
      · exact hstore _
  | some b =>
    obtain ⟨n, hn⟩ := key b hg
    refine ⟨n, fun fuel hf => ⟨?_, ?_⟩⟩
    · unfold insertPin
      simp only [hg]
      split
      · split
        · rename_i e he
          intro hx
          simp only [Except.error.injEq] at hx
          subst hx
          exact hn fuel hf he
        · exact hstore _
      · exact hstore _
    · unfold removePin
      simp only [hg]
      split
      · split
        · rename_i e he
          intro hx
          simp only [Except.error.injEq] at hx
          subst hx
          exact hn fuel hf he
        · exact hstore _
      · exact hstore _

/-! ### What goes wrong -/

/-- **C69 fails** for blocks whose codec is not known: pinned directly, they cannot be unpinned recursively, which is
the default of the HTTP request. -/
theorem C69_unknown_codec (env : PinEnv) (st : PinStore σ ε) (s : RepoState σ) (c : Cid) (b : Block)
    (hb : s.blocks.getBlock c = some b) (h : c.codec ∉ [codecDagCbor, codecDagPb, codecDagJson, codecRaw]) :
    removePin env st s c true = (.error (.decode (.unsupportedCodec c.codec)), s) := by
  simp only [List.mem_cons, List.not_mem_nil, or_false, not_or] at h
  obtain ⟨h1, h2, h3, h4⟩ := h
  simp [removePin, hb, descendants, decodeIpld, h1, h2, h3, h4]

def exPinEnv : PinEnv := ⟨⟨fun _ b => b, fun _ => none, fun _ => none⟩, 100, 50⟩

def exPinCid (codec n : Nat) : Cid := ⟨.v1, codec, mhSha256, List.replicate 32 (UInt8.ofNat n)⟩

def exLeaf : Cid := exPinCid codecRaw 1
def exRootA : Cid := exPinCid codecDagCbor 2
def exRootB : Cid := exPinCid codecDagCbor 3

/-- Both roots link to the leaf, the second to the first as well. -/
def exPinContent (c : Cid) : Bytes :=
  if c = exRootA then (enc (.list [.link exLeaf])).getD []
  else if c = exRootB then (enc (.list [.link exLeaf, .link exRootA])).getD []
  else [7]

def exBlockOf (c : Cid) : Block := ⟨c, exPinContent c⟩

/-- A history in which some requests fail. -/
def exNodeOps : List NodeOp :=
  [.put (exBlockOf exRootA), .pin exRootA false, .pin exRootA true, .put (exBlockOf exLeaf), .pin exRootA true,
   .put (exBlockOf exRootB), .pin exRootB true, .remove exLeaf, .unpin exRootA true, .remove exLeaf, .remove exRootA,
   .pin exLeaf false, .unpin exRootB true, .remove exLeaf, .remove exRootB, .remove exRootA]

theorem exFullLook : fullLook exPinEnv exPinContent exLeaf = .links [] ∧
    fullLook exPinEnv exPinContent exRootA = .links [(none, exLeaf)] ∧
    fullLook exPinEnv exPinContent exRootB = .links [(none, exLeaf), (none, exRootA)] := by decide +kernel

theorem exInUse : InUse exPinEnv exPinContent (fun c => c ∈ [exLeaf, exRootA, exRootB]) exNodeOps := by
  have ha : ∀ a ∈ [exLeaf, exRootA, exRootB], ∀ b ∈ [exLeaf, exRootA, exRootB], a.mh = b.mh → a = b := by decide +kernel
  refine ⟨fun a b h1 h2 => ha a h1 b h2, ?_, ?_, ?_, ?_, ?_⟩
  · intro a b ha hl
    simp only [List.mem_cons, List.not_mem_nil, or_false] at ha
    rcases ha with rfl | rfl | rfl
    · obtain ⟨l, hm, rfl⟩ := (fullLook_links exFullLook.1 b).mpr hl
      cases hm
    · obtain ⟨l, hm, rfl⟩ := (fullLook_links exFullLook.2.1 b).mpr hl
      simp only [List.mem_cons, List.not_mem_nil, or_false] at hm
      subst hm; simp
    · obtain ⟨l, hm, rfl⟩ := (fullLook_links exFullLook.2.2 b).mpr hl
      simp only [List.mem_cons, List.not_mem_nil, or_false] at hm
      rcases hm with rfl | rfl <;> simp
  · intro b hb
    simp only [exNodeOps, List.mem_cons, reduceCtorEq, NodeOp.put.injEq, false_or, or_false, List.not_mem_nil] at hb
    rcases hb with rfl | rfl | rfl <;> simp [exBlockOf]
  · intro c r hb
    simp only [exNodeOps, List.mem_cons, reduceCtorEq, NodeOp.pin.injEq, false_or, or_false, List.not_mem_nil] at hb
    rcases hb with ⟨rfl, -⟩ | ⟨rfl, -⟩ | ⟨rfl, -⟩ | ⟨rfl, -⟩ | ⟨rfl, -⟩ <;> simp
  · intro c r hb
    simp only [exNodeOps, List.mem_cons, reduceCtorEq, NodeOp.unpin.injEq, false_or, or_false, List.not_mem_nil] at hb
    rcases hb with ⟨rfl, -⟩ | ⟨rfl, -⟩ <;> simp
  · intro c hb
    simp only [exNodeOps, List.mem_cons, reduceCtorEq, NodeOp.remove.injEq, false_or, or_false, List.not_mem_nil] at hb
    rcases hb with rfl | rfl | rfl | rfl | rfl | rfl <;> simp

/-- Which requests went well. -/
def nodeAnswers (env : PinEnv) (st : PinStore σ ε) : RepoState σ → List NodeOp → List Bool
  | _, [] => []
  | s, op :: ops => (nodeStep env st s op).1 :: nodeAnswers env st (nodeStep env st s op).2 ops

-- the file of another pin cannot be read
example : FsPins.isPinned [((exRootA, .recursive), .torn)] exLeaf = .error .panic := by decide +kernel

example : nodeAnswers exPinEnv (fsStore exLe) ⟨[], [], []⟩ exNodeOps =
    [true, true, false, true, true, true, true, false, true, false, false, true, true, false, true, true] := by
  decide +kernel

theorem exBelowA (d : Cid) (h : Below exPinEnv exPinContent exRootA d) : d = exLeaf := by
  induction h with
  | link h =>
    obtain ⟨l, hm, rfl⟩ := (fullLook_links exFullLook.2.1 _).mpr h
    simp only [List.mem_cons, List.not_mem_nil, or_false] at hm
    rw [hm]
  | step _ h ih =>
    subst ih
    obtain ⟨l, hm, rfl⟩ := (fullLook_links exFullLook.1 _).mpr h
    cases hm

-- the in-memory store: everything is there when it is pinned
example : AllThere exPinEnv exPinContent (memStore exLe) ⟨[], [], []⟩
    [.put (exBlockOf exRootA), .put (exBlockOf exLeaf), .pin exRootA true] := by
  refine ⟨fun c h => (by simp at h), fun c h => (by simp at h), fun c h d hd => ?_, trivial⟩
  simp only [NodeOp.pin.injEq, and_true] at h
  subst h
  rw [exBelowA d hd]
  exact ⟨by decide +kernel, _, exFullLook.1⟩

/-- **C69 fails** with the key-value store: two recursive pins share a block, and once one of them is removed the
block is not kept any more although the other is still there. -/
theorem C69_kv_shared :
    let r := nodeRun exPinEnv (kvStore exLe) pinsMoved ⟨[], [], []⟩ Pins.none
      [.put (exBlockOf exLeaf), .put (exBlockOf exRootA), .put (exBlockOf exRootB), .pin exRootA true, .pin exRootB true,
       .unpin exRootA true, .remove exLeaf]
    r.2.root exRootB = true ∧ LinkTo exPinEnv exPinContent exRootB exLeaf ∧ r.1.blocks.getBlock exLeaf = none := by
  refine ⟨by decide +kernel, ?_, by decide +kernel⟩
  exact (fullLook_links exFullLook.2.2 _).mp ⟨(none, exLeaf), by simp, rfl⟩

/-- **C69 fails** if requests overlap with the store on disk, which is locked only after the walk: a block removed
meanwhile is missing below a recursive pin that succeeded. -/
theorem C69_overlap :
    let s := (nodeRun exPinEnv (fsStore exLe) pinsMoved ⟨[], [], []⟩ Pins.none
      [.put (exBlockOf exLeaf), .put (exBlockOf exRootA)]).1
    let s' := (nodeStep exPinEnv (fsStore exLe) s (.remove exLeaf)).2
    descendants (ε := PinErr) exPinEnv s.blocks exRootA (exPinContent exRootA) = .ok [some exLeaf] ∧
    (nodeStep exPinEnv (fsStore exLe) s (.remove exLeaf)).1 = true ∧
    (pinsAfter s' ((fsStore exLe).insertRecursive s'.pins exRootA [some exLeaf])).1 = .ok () ∧
    (fsStore exLe).isPinned (pinsAfter s' ((fsStore exLe).insertRecursive s'.pins exRootA [some exLeaf])).2.pins exLeaf = true ∧
    (pinsAfter s' ((fsStore exLe).insertRecursive s'.pins exRootA [some exLeaf])).2.blocks.getBlock exLeaf = none := by
  decide +kernel

/-- **C69 fails** with the in-memory store in that failing requests have an effect: a direct pin is lost by trying to
pin and unpin recursively, both without success. -/
theorem C69_memory_lost : nodeAnswers exPinEnv (memStore exLe) ⟨[], [], []⟩
    [.put (exBlockOf exRootA), .pin exRootA false, .pin exRootA true, .unpin exRootA true, .remove exRootA] =
    [true, true, false, false, true] := by decide +kernel

end Verif.Props
