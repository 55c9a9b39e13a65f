import Verif.Props.File

/-!
# Property C08: walking a file over arbitrary blocks

The property as first stated ("never panics") does not hold of the code: the four panics are
reachable, see the witnesses at the end. What holds: without a range only two of the panics are
possible, and the leaves delivered always declare consecutive ranges starting at 0.
-/

namespace Verif.Props

open Verif Verif.Unixfs

/-! ## Specification -/

/-- Byte ranges, each starting where the one before ended, the first at `e`. -/
def Consecutive : Nat → List Rng → Prop
  | _, [] => True
  | e, r :: rs => r.start = e ∧ r.start ≤ r.stop ∧ Consecutive r.stop rs

/-- The range declared by the block `data` when it is visited at offset `start`: nothing for an
inner node, `start ..< start + filesize` for a leaf. -/
def declared (start : Nat) (data : Bytes) : List Rng :=
  match Flat.parse data with
  | .error _ => []
  | .ok f => if f.links = [] then [⟨start, start + f.data.filesize.getD 0⟩] else []

/-- A walk over arbitrary blocks: the ranges declared by the leaves delivered so far, and the visit
to continue with, if any. -/
inductive Walk (target : Option Rng) (root : Bytes) : List Rng → Option Visit → Prop where
  | start {bytes : Bytes} {size : Nat} {m : Metadata} {v : Option Visit} :
      visitStart target root = .ok (bytes, size, m, v) → Walk target root (declared 0 root) v
  | next {rs : List Rng} {v : Visit} {c : Cid} {r : Rng} {rest : List (Cid × Rng)} (data : Bytes)
      {bytes : Bytes} {v' : Option Visit} : Walk target root rs (some v) →
      v.pending = (c, r) :: rest → v.continueWalk data = .ok (bytes, v') →
      Walk target root (rs ++ declared r.start data) v'

/-! ## Facts about the readers -/

theorem fromParts_ok {f : Flat} {o : Nat} {m : Metadata} {fr : FileReader}
    (h : FileReader.fromParts f o m = .ok fr) :
    fr.offset = o ∧ fr.links = f.links ∧ fr.blocksizes = f.data.blocksizes ∧
      f.links.length = f.data.blocksizes.length ∧
      (f.links = [] → fr.ending = .chunk (o + f.data.filesize.getD 0)) ∧
      (f.links ≠ [] → ∃ e, fr.ending = .treeCoverage e) := by
  unfold FileReader.fromParts at h
  simp only [] at h
  split at h
  · cases h
  split at h
  · cases h
  rename_i hlen
  split at h
  · cases h
  split at h
  · cases h
  split at h
  · cases h
  rename_i hend
  split at h
  · cases h
  rename_i hfs
  cases h
  refine ⟨rfl, rfl, rfl, by omega, ?_, ?_⟩
  · intro hl
    simp only [hl, List.isEmpty_nil, if_true, hfs, Option.getD_some] at hend
    split at hend
    · cases hend; simp [hfs]
    · cases hend
  · intro hl
    have : f.links.isEmpty = false := by simpa using hl
    simp only [this, Bool.false_eq_true, if_false, hfs] at hend
    split at hend
    · cases hend; exact ⟨_, rfl⟩
    · cases hend

theorem fromBlock_ok {bs : Bytes} {fr : FileReader} (h : FileReader.fromBlock bs = .ok fr) :
    ∃ f m, Flat.parse bs = .ok f ∧ FileReader.fromParts f 0 m = .ok fr := by
  unfold FileReader.fromBlock parseFlat at h
  cases hp : Flat.parse bs with
  | error e => rw [hp] at h; cases h
  | ok f => rw [hp] at h; exact ⟨f, _, rfl, h⟩

theorem fromContinued_ok {t : Traversal} {o : Nat} {bs : Bytes} {fr : FileReader}
    (h : FileReader.fromContinued t o bs = .ok fr) :
    ∃ f m, Flat.parse bs = .ok f ∧ FileReader.fromParts f o m = .ok fr := by
  unfold FileReader.fromContinued parseFlat at h
  cases hp : Flat.parse bs with
  | error e => rw [hp] at h; cases h
  | ok f =>
    rw [hp] at h
    simp only [] at h
    split at h
    · cases h
    · exact ⟨f, _, rfl, h⟩

theorem collectPending_cons {i base : Nat} {p : PBLink × Nat} {ps : List (PBLink × Nat)}
    {l : List (Cid × Rng)} (h : collectPending none i base (p :: ps) = .ok l) :
    ∃ c e rest, l = (c, ⟨base, e⟩) :: rest := by
  obtain ⟨link, n⟩ := p
  unfold collectPending at h
  split at h
  · cases h
  · simp only [inTarget, if_true] at h
    split at h
    · cases h
    · split at h
      · cases h
      · cases h; exact ⟨_, _, _, rfl⟩

theorem zip_cons {α β : Type} {l : List α} {m : List β} (hl : l ≠ []) (h : l.length = m.length) :
    ∃ p ps, l.zip m = p :: ps := by
  cases l with
  | nil => exact absurd rfl hl
  | cons a as =>
    cases m with
    | nil => simp at h
    | cons b bs => exact ⟨_, _, rfl⟩

/-- Where the next leaf will start: after a leaf the check against its end decides, after an inner
node it is the start of the first pending link. -/
def NextAt (e : Nat) (v : Visit) : Prop :=
  v.range = none ∧ (v.state.lastEnding = .chunk e ∨
    ∃ x c s rest, v.state.lastEnding = .treeCoverage x ∧ v.pending = (c, ⟨e, s⟩) :: rest)

/-- The end of the last of consecutive ranges. -/
def endOf : Nat → List Rng → Nat
  | e, [] => e
  | _, r :: rs => endOf r.stop rs

theorem endOf_append (e : Nat) (a b : List Rng) : endOf e (a ++ b) = endOf (endOf e a) b := by
  induction a generalizing e with
  | nil => rfl
  | cons r rs ih => exact ih _

theorem Consecutive.append {e : Nat} {a b : List Rng} (ha : Consecutive e a)
    (hb : Consecutive (endOf e a) b) : Consecutive e (a ++ b) := by
  induction a generalizing e with
  | nil => exact hb
  | cons r rs ih => exact ⟨ha.1, ha.2.1, ih ha.2.2 hb⟩

theorem walk_inv {root : Bytes} {rs : List Rng} {v : Option Visit} (h : Walk none root rs v) :
    Consecutive 0 rs ∧ ∀ v', v = some v' → NextAt (endOf 0 rs) v' ∧ v'.pending ≠ [] := by
  induction h with
  | @start bytes size m v hs =>
    unfold visitStart startFromReader at hs
    cases hb : FileReader.fromBlock root with
    | error e => rw [hb] at hs; cases hs
    | ok fr =>
      rw [hb] at hs
      simp only [] at hs
      obtain ⟨f, m', hp, hf⟩ := fromBlock_ok hb
      obtain ⟨h1, h2, h3, h4, h5, h6⟩ := fromParts_ok hf
      by_cases hl : f.links = []
      · rw [h2, hl] at hs
        simp only [List.isEmpty_nil, if_true, maybeTargetSlice] at hs
        cases hs
        refine ⟨?_, by intro v' hv; cases hv⟩
        simp [declared, hp, hl, Consecutive]
      · have he : fr.links.isEmpty = false := by rw [h2]; simpa using hl
        have hd : declared 0 root = [] := by simp [declared, hp, hl]
        obtain ⟨p, ps, hz⟩ := zip_cons hl h4
        rw [he, h2, h3, hz] at hs
        rw [hd]
        refine ⟨trivial, ?_⟩
        simp only [Bool.false_eq_true, if_false] at hs
        cases hc : collectPending none 0 fr.offset (p :: ps) with
        | error e => rw [hc] at hs; cases hs
        | ok l =>
          obtain ⟨c, e, rest, rfl⟩ := collectPending_cons hc
          rw [hc] at hs
          cases hs
          intro v' hv
          cases hv
          obtain ⟨x, hx⟩ := h6 hl
          refine ⟨⟨rfl, Or.inr ⟨x, c, e, rest, hx, ?_⟩⟩, by simp⟩
          rw [h1]; rfl
  | @next rs v c r rest0 data bytes v' _ hpend hcont ih =>
    obtain ⟨hcons, hv⟩ := ih
    obtain ⟨⟨hrange, hnext⟩, _⟩ := hv v rfl
    unfold Visit.continueWalk at hcont
    rw [hpend] at hcont
    simp only [] at hcont
    unfold Traversal.continueWalk at hcont
    cases hchk : v.state.lastEnding.check v.state.lastOffset r with
    | error e => rw [hchk] at hcont; cases hcont
    | ok u =>
      rw [hchk] at hcont
      simp only [] at hcont
      have hstart : r.start = endOf 0 rs := by
        rcases hnext with hn | ⟨x, c', s, rest', hn, hp⟩
        · rw [hn] at hchk
          unfold Ending.check at hchk
          simp only [] at hchk
          split at hchk
          · cases hchk
          · rename_i h; simpa using h
        · rw [hpend] at hp
          cases hp
          rfl
      cases hb : FileReader.fromContinued v.state r.start data with
      | error e => rw [hb] at hcont; cases hcont
      | ok fr =>
        rw [hb] at hcont
        simp only [] at hcont
        obtain ⟨f, m', hp, hf⟩ := fromContinued_ok hb
        obtain ⟨h1, h2, h3, h4, h5, h6⟩ := fromParts_ok hf
        by_cases hl : f.links = []
        · have hd : declared r.start data = [⟨r.start, r.start + f.data.filesize.getD 0⟩] := by
            simp [declared, hp, hl]
          rw [h2, hl, hrange] at hcont
          simp only [List.isEmpty_nil, if_true, maybeTargetSlice] at hcont
          refine ⟨?_, ?_⟩
          · rw [hd]
            exact hcons.append ⟨hstart, Nat.le_add_right _ _, trivial⟩
          · rw [hd, endOf_append]
            cases rest0 with
            | nil => cases hcont; intro v' hv; cases hv
            | cons p ps =>
              cases hcont
              intro v' hv
              cases hv
              exact ⟨⟨rfl, Or.inl (h5 hl)⟩, by simp⟩
        · have he : fr.links.isEmpty = false := by rw [h2]; simpa using hl
          have hd : declared r.start data = [] := by simp [declared, hp, hl]
          obtain ⟨p, ps, hz⟩ := zip_cons hl h4
          rw [he, h2, h3, hz, hrange] at hcont
          rw [hd, List.append_nil]
          refine ⟨hcons, ?_⟩
          simp only [Bool.false_eq_true, if_false] at hcont
          cases hc : collectPending none 0 fr.offset (p :: ps) with
          | error e => rw [hc] at hcont; cases hcont
          | ok l =>
            obtain ⟨c, e, rest, rfl⟩ := collectPending_cons hc
            rw [hc] at hcont
            cases hcont
            intro v' hv
            cases hv
            obtain ⟨x, hx⟩ := h6 hl
            refine ⟨⟨rfl, Or.inr ⟨x, c, e, rest ++ rest0, hx, ?_⟩⟩, by simp⟩
            simp only [List.cons_append]
            rw [h1, hstart]

/-- **C08 (ranges).** Whatever blocks are fed to a walk without range, the leaves delivered declare
consecutive ranges from 0 on. -/
theorem C08_consecutive {root : Bytes} {rs : List Rng} {v : Option Visit}
    (h : Walk none root rs v) : Consecutive 0 rs :=
  (walk_inv h).1

theorem fromParts_panic {f : Flat} {o : Nat} {m : Metadata} {p : Panic}
    (h : FileReader.fromParts f o m = .error (.panic p)) :
    p = .leafWithoutSize ∨ p = .sizeOverflow := by
  unfold FileReader.fromParts at h
  simp only [] at h
  split at h
  · cases h
  split at h
  · cases h
  split at h
  · cases h
  split at h
  · cases h
  split at h
  · rename_i hend
    cases h
    split at hend
    · split at hend
      · cases hend
      · cases hend; exact Or.inr rfl
    · split at hend
      · split at hend
        · cases hend
        · cases hend; exact Or.inr rfl
      · cases hend
  · split at h
    · cases h; exact Or.inl rfl
    · cases h

theorem collectPending_panic {target : Option Rng} {p : Panic} {l : List (PBLink × Nat)} :
    ∀ {i base : Nat}, collectPending target i base l = .error (.panic p) → p = .sizeOverflow := by
  induction l with
  | nil => intro i base h; cases h
  | cons x xs ih =>
    intro i base h
    obtain ⟨link, n⟩ := x
    unfold collectPending at h
    split at h
    · cases h; rfl
    · simp only [] at h
      split at h
      · split at h
        · cases h
        · split at h
          · rename_i heq
            cases h
            exact ih heq
          · cases h
      · exact ih h

theorem continueWalk_panic {v : Visit} (hr : v.range = none) (hp : v.pending ≠ []) {data : Bytes}
    {p : Panic} (h : v.continueWalk data = .error (.panic p)) :
    p = .leafWithoutSize ∨ p = .sizeOverflow := by
  unfold Visit.continueWalk at h
  split at h
  · rename_i hnil; exact absurd hnil hp
  · split at h
    · rename_i e he
      cases h
      unfold Traversal.continueWalk at he
      split at he
      · cases he
      · unfold FileReader.fromContinued parseFlat at he
        cases hpf : Flat.parse data with
        | error e => rw [hpf] at he; cases he
        | ok f =>
          rw [hpf] at he
          simp only [] at he
          split at he
          · cases he
          · exact fromParts_panic he
    · rw [hr] at h
      split at h
      · simp only [maybeTargetSlice] at h
        split at h <;> cases h
      · split at h
        · rename_i he
          cases h
          exact Or.inr (collectPending_panic he)
        · cases h

theorem visitStart_panic {root : Bytes} {p : Panic} (h : visitStart none root = .error (.panic p)) :
    p = .leafWithoutSize ∨ p = .sizeOverflow := by
  unfold visitStart startFromReader at h
  split at h
  · rename_i e he
    cases h
    unfold FileReader.fromBlock parseFlat at he
    cases hpf : Flat.parse root with
    | error e => rw [hpf] at he; cases he
    | ok f =>
      rw [hpf] at he
      exact fromParts_panic he
  · split at h
    · simp only [maybeTargetSlice] at h
      cases h
    · split at h
      · rename_i he
        cases h
        exact Or.inr (collectPending_panic he)
      · cases h
      · cases h

/-- **C08 (panics), partial.** Without a range, over arbitrary blocks, `cat` can only panic for a
leaf without a file size or for declared sizes beyond 64 bits: it never slices out of bounds and
never runs out of pending links. The full claim is that it never panics; that is false of the
code, see `C08_panics_without_range`. -/
theorem C08_panics_partial (fetch : Cid → Option Bytes) (root : Bytes) (fuel : Nat) {p : Panic}
    (h : (cat fetch none root fuel).2 = .panic p) : p = .leafWithoutSize ∨ p = .sizeOverflow := by
  have loop : ∀ (fuel : Nat) (rs : List Rng) (v : Visit), Walk none root rs (some v) →
      (catLoop fetch fuel v).2 = .panic p → p = .leafWithoutSize ∨ p = .sizeOverflow := by
    intro fuel
    induction fuel with
    | zero => intro rs v _ h; cases h
    | succ fuel ih =>
      intro rs v hw h
      obtain ⟨⟨hr, _⟩, hp⟩ := (walk_inv hw).2 v rfl
      unfold catLoop at h
      split at h
      · rename_i hn; exact absurd hn hp
      · rename_i c r rest hpend
        split at h
        · cases h
        · rename_i data hd
          split at h
          · rename_i p' he
            cases h
            exact continueWalk_panic hr hp he
          · cases h
          · rename_i bytes more he
            simp only [] at h
            split at h
            · cases h
            · exact ih _ _ (Walk.next data hw hpend he) h
  unfold cat at h
  split at h
  · rename_i p' he
    cases h
    exact visitStart_panic he
  · cases h
  · rename_i bytes size m visit he
    simp only [] at h
    split at h
    · cases h
    · exact loop _ _ _ (Walk.start he) h

/-! ## The code does panic: witnesses -/

/-- A leaf whose message has no file size. -/
def hostileNoSize : Bytes := Flat.write { data := { type := .file, data := some [1] } }

/-- A leaf declaring `n` bytes but holding three. -/
def hostileLeaf (n : Nat) : Bytes :=
  Flat.write { data := { type := .file, data := some [1, 2, 3], filesize := some n } }

/-- A node with one link for `n` bytes to the cid with digest `d`, declaring `total` bytes. -/
def hostileNode (d : Bytes) (total n : Nat) : Bytes :=
  Flat.write
    { links := [{ hash := some (Cid.v0 d).toBytes, name := some [], tsize := some 1 }]
      data := { type := .file, filesize := some total, blocksizes := [n] } }

def digestOf (b : UInt8) : Bytes := List.replicate 32 b

/-- A single block from the network makes `cat` panic. -/
theorem C08_panics_without_range :
    (cat (fun _ => none) none hostileNoSize 1).2 = .panic .leafWithoutSize := by
  decide +kernel

/-- Every leaf without a file size does, whatever its data is, none included. -/
theorem C08_panics_no_size (flat : Flat) (h1 : flat.data.type = .file ∨ flat.data.type = .raw) (h2 : flat.links = []) (h3 : flat.data.blocksizes = [])
    (h4 : flat.data.filesize = none) (h5 : flat.data.hashType = none ∧ flat.data.fanout = none) (offset : Nat)
    (h6 : offset + (flat.data.data.getD []).length < 2 ^ 64) (m : Metadata) :
    FileReader.fromParts flat offset m = .error (.panic .leafWithoutSize) := by
  unfold FileReader.fromParts
  rw [if_neg (by rcases h1 with h | h <;> simp [h])]
  simp [h2, h3, h4, h5.1, h5.2, h6]

/-- Such a leaf, without data. -/
example : FileReader.fromParts { data := { type := .file } } 5 {} = .error (.panic .leafWithoutSize) :=
  C08_panics_no_size _ (Or.inl rfl) rfl rfl rfl ⟨rfl, rfl⟩ 5 (by decide) _

/-- So do sizes that overflow: a leaf of 2^64-1 bytes at offset 5. -/
theorem C08_panics_overflow :
    (cat (fun _ => some (hostileLeaf (2 ^ 64 - 1))) none
      (Flat.write
        { links := List.replicate 2 { hash := some (Cid.v0 (digestOf 7)).toBytes, tsize := some 1 }
          data := { type := .file, filesize := some (2 ^ 64 - 1), blocksizes := [5, 2 ^ 64 - 5] } }) 2).2 =
      .panic .sizeOverflow := by
  decide +kernel

/-- With a range, a leaf shorter than it declares is sliced out of bounds. -/
theorem C08_panics_slice :
    (cat (fun _ => some (hostileLeaf 10)) (some ⟨0, 8⟩) (hostileNode (digestOf 7) 10 10) 3).2 =
      .panic .sliceOutOfBounds := by
  decide +kernel

/-- With a range, an inner node whose children all lie outside of it empties the list of pending
links without ending the walk. -/
theorem C08_panics_no_pending :
    (cat (fun _ => some (hostileNode (digestOf 8) 10 2)) (some ⟨5, 8⟩) (hostileNode (digestOf 7) 10 10) 3).2 =
      .panic .noPending := by
  decide +kernel

/-- The walk ends at a size other than the root's: the root declares 10 bytes, its only leaf 3. -/
theorem C08_end_not_root_size :
    ∃ f, Flat.parse (hostileNode (digestOf 7) 10 3) = .ok f ∧ f.data.filesize = some 10 ∧
      Walk none (hostileNode (digestOf 7) 10 3) [⟨0, 3⟩] none := by
  have h1 : visitStart none (hostileNode (digestOf 7) 10 3) =
      .ok ([], 10, {}, some
        { pending := [(Cid.v0 (digestOf 7), ⟨0, 3⟩)]
          range := none
          state := { lastEnding := .treeCoverage 10, lastOffset := 0, fileSize := 10,
                     metadata := {} } }) := by
    decide +kernel
  have h2 := Walk.next (hostileLeaf 3) (bytes := [1, 2, 3]) (v' := none) (Walk.start h1) rfl
    (by decide +kernel)
  have h3 : declared 0 (hostileNode (digestOf 7) 10 3) ++ declared 0 (hostileLeaf 3) = [⟨0, 3⟩] := by
    decide +kernel
  simp only at h2
  rw [h3] at h2
  exact ⟨_, Flat.parse_write _ ⟨by
    intro l hl
    simp at hl
    subst hl
    exact ⟨by simp [OptAll]; decide +kernel, by simp [OptAll, utf8Ok], by simp [OptAll], by decide +kernel⟩,
    by constructor <;> simp [OptAll], by decide +kernel⟩, rfl, h2⟩

end Verif.Props
