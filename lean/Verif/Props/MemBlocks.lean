import Verif.Base.Snoc
import Verif.Repo.MemBlocks

/-!
# C25: the in-memory block store is a map from multihashes
-/

namespace Verif.Props

open Verif Verif.Repo

/-! ### Specification -/

/-- The call makes every block of multihash `m` go away. -/
def Forgets (m : Mh) : BlockOp → Bool
  | .remove c => c.mh == m
  | .wipe => true
  | _ => false

/-- The call puts a block of multihash `m`. -/
def putOf (m : Mh) : BlockOp → Option Block
  | .put b => if b.cid.mh = m then some b else none
  | _ => none

/-- The calls since the last one that made `m` go away. -/
def recent (m : Mh) (hist : List BlockOp) : List BlockOp :=
  (hist.reverse.takeWhile (fun op => !Forgets m op)).reverse

/-- The first block of multihash `m` put since the last removal. -/
def stored (hist : List BlockOp) (m : Mh) : Option Block := (recent m hist).findSome? (putOf m)

/-! ### Proof -/

theorem recent_snoc (m : Mh) (hist : List BlockOp) (op : BlockOp) :
    recent m (hist ++ [op]) = if Forgets m op then [] else recent m hist ++ [op] := by
  unfold recent
  cases h : Forgets m op <;> simp [h]

theorem stored_snoc (m : Mh) (hist : List BlockOp) (op : BlockOp) :
    stored (hist ++ [op]) m =
      if Forgets m op then none else (stored hist m).or (putOf m op) := by
  unfold stored
  rw [recent_snoc]
  split
  · rfl
  · rw [List.findSome?_append]
    simp [List.findSome?_cons]
    cases putOf m op <;> rfl

theorem after_snoc (hist : List BlockOp) (op : BlockOp) :
    MemBlocks.after (hist ++ [op]) = ((MemBlocks.after hist).step op).1 := by
  simp [MemBlocks.after]

/-- The store after a history. -/
theorem after_spec (hist : List BlockOp) (m : Mh) :
    AMap.get (MemBlocks.after hist) m = (stored hist m).map (fun b => (b.cid, b)) := by
  refine snocInd (P := fun hist => AMap.get (MemBlocks.after hist) m =
    (stored hist m).map (fun b => (b.cid, b))) rfl ?_ hist
  intro hist op ih
  rw [after_snoc, stored_snoc]
  cases op with
  | put b =>
    simp only [MemBlocks.step, MemBlocks.put, Forgets, putOf, Bool.false_eq_true, if_false]
    by_cases hb : b.cid.mh = m
    · subst hb
      cases hg : AMap.get (MemBlocks.after hist) b.cid.mh with
      | some v =>
        rw [hg] at ih
        simp only [hg, if_true]
        cases hs : stored hist b.cid.mh with
        | none => simp [hs] at ih
        | some b' => rw [hs] at ih; simpa using ih
      | none =>
        rw [hg] at ih
        simp only [AMap.get_set_eq, if_true]
        cases hs : stored hist b.cid.mh with
        | none => simp
        | some b' => simp [hs] at ih
    · simp only [if_neg hb, Option.or_none]
      split
      · exact ih
      · simp only [AMap.get_set_ne _ _ (Ne.symm hb)]; exact ih
  | get c => simpa [MemBlocks.step, Forgets, putOf] using ih
  | contains c => simpa [MemBlocks.step, Forgets, putOf] using ih
  | list => simpa [MemBlocks.step, Forgets, putOf] using ih
  | wipe => simp [MemBlocks.step, MemBlocks.wipe, Forgets, AMap.get]
  | remove c =>
    simp only [MemBlocks.step, MemBlocks.remove, Forgets, putOf, beq_iff_eq, Option.or_none,
      AMap.get_erase]
    by_cases hc : c.mh = m
    · simp [hc]
    · simp [hc, Ne.symm hc, ih]

theorem after_uniq (hist : List BlockOp) : AMap.Uniq (MemBlocks.after hist) := by
  refine snocInd (P := fun hist => AMap.Uniq (MemBlocks.after hist)) List.nodup_nil ?_ hist
  intro hist op ih
  rw [after_snoc]
  cases op with
  | put b =>
    simp only [MemBlocks.step, MemBlocks.put]
    split
    · exact ih
    · exact ih.set _ _
  | remove c => exact ih.erase _
  | wipe => exact List.nodup_nil
  | _ => exact ih

theorem stored_mh {hist : List BlockOp} {m : Mh} {b : Block} (h : stored hist m = some b) :
    b.cid.mh = m := by
  unfold stored at h
  obtain ⟨op, _, hop⟩ := List.exists_of_findSome?_eq_some h
  cases op <;> simp only [putOf] at hop <;> first | (cases hop; done) | skip
  split at hop
  · cases hop; assumption
  · cases hop

/-- **C25**: for every history and every next call the answer is that of a map keyed by multihash,
whose entry is the first block put since the last removal. -/
theorem C25_mem_blocks (hist : List BlockOp) (op : BlockOp) :
    ((MemBlocks.after hist).step op).2 =
      match op with
      | .put b => .put b.cid (if (stored hist b.cid.mh).isSome then .existed else .newBlock)
      | .get c => .got (stored hist c.mh)
      | .contains c => .has (stored hist c.mh).isSome
      | .remove c => if (stored hist c.mh).isSome then .removed c else .notFound c
      | .list => .cids (MemBlocks.after hist).list
      | .wipe => .unit := by
  cases op with
  | put b =>
    simp only [MemBlocks.step, MemBlocks.put, after_spec]
    cases stored hist b.cid.mh <;> rfl
  | get c =>
    simp only [MemBlocks.step, MemBlocks.getBlock, after_spec]
    cases stored hist c.mh <;> rfl
  | contains c =>
    simp only [MemBlocks.step, MemBlocks.contains, after_spec]
    cases stored hist c.mh <;> rfl
  | remove c =>
    simp only [MemBlocks.step, MemBlocks.remove, after_spec]
    cases stored hist c.mh <;> rfl
  | list => rfl
  | wipe => rfl

/-- **C25**, listing: exactly the cids of the stored blocks, each multihash once. -/
theorem C25_mem_list (hist : List BlockOp) :
    (∀ c, c ∈ (MemBlocks.after hist).list ↔ (stored hist c.mh).map Block.cid = some c) ∧
    ((MemBlocks.after hist).list.map Cid.mh).Nodup := by
  have hu := after_uniq hist
  have hent : ∀ e ∈ MemBlocks.after hist, e.2.1.mh = e.1 := by
    rintro ⟨m, c, b⟩ he
    have h := (AMap.mem_iff_get hu _ _).mp he
    rw [after_spec] at h
    cases hs : stored hist m with
    | none => simp [hs] at h
    | some b' =>
      simp only [hs, Option.map_some, Option.some.injEq, Prod.mk.injEq] at h
      show c.mh = m
      rw [← h.1]
      exact stored_mh hs
  refine ⟨fun c => ?_, ?_⟩
  · constructor
    · intro h
      obtain ⟨⟨m, c', b⟩, he, rfl⟩ := List.mem_map.mp h
      have h1 := (AMap.mem_iff_get hu _ _).mp he
      have h2 := hent _ he
      simp only at h2
      rw [after_spec, ← h2] at h1
      cases hs : stored hist c'.mh with
      | none => simp [hs] at h1
      | some b' =>
        simp only [hs, Option.map_some, Option.some.injEq, Prod.mk.injEq] at h1
        simp [h1.1]
    · intro h
      cases hs : stored hist c.mh with
      | none => simp [hs] at h
      | some b =>
        simp only [hs, Option.map_some, Option.some.injEq] at h
        refine List.mem_map.mpr ⟨(c.mh, (b.cid, b)), AMap.mem_of_get ?_, h⟩
        rw [after_spec, hs]; rfl
  · have : (MemBlocks.after hist).list.map Cid.mh = AMap.keys (MemBlocks.after hist) := by
      simp only [MemBlocks.list, AMap.keys, List.map_map]
      exact List.map_congr_left fun e he => hent e he
    rw [this]
    exact hu

/-- Two blocks, one put again under another codec, a removal and a get. -/
example :
    let a : Block := ⟨⟨.v1, codecRaw, mhSha256, [1]⟩, [10]⟩
    let a' : Block := ⟨⟨.v1, codecDagPb, mhSha256, [1]⟩, [10]⟩
    let b : Block := ⟨⟨.v1, codecRaw, mhSha256, [2]⟩, [20]⟩
    let hist : List BlockOp := [.put a', .remove a.cid, .put a, .put b, .put a', .remove b.cid]
    ((MemBlocks.after hist).step (.get a'.cid)).2 = .got (some a) ∧
    ((MemBlocks.after hist).step (.remove b.cid)).2 = .notFound b.cid ∧
    (MemBlocks.after hist).list = [a.cid] := by decide +kernel

end Verif.Props
