import Verif.Unixfs.PbLemmas
import Verif.Unixfs.Symlink
import Verif.Unixfs.WalkLemmas

/-!
# C17: symlinks round-trip
-/

namespace Verif.Props

open Verif Verif.Unixfs

/-! ### Helpers -/

theorem varint_le_ten (n : Nat) : sizeofVarint n ≤ 10 := by
  unfold sizeofVarint; (repeat' split) <;> omega

theorem symlink_wf {target : Bytes} (h : target.length < 2 ^ 31) :
    ({ links := [], data := { type := .symlink, data := some target } } : Flat).WF where
  links := by simp
  data := by constructor <;> simp [OptAll]; omega
  size := by
    have := varint_le_ten target.length
    simp only [UnixFs.getSize, optSize, sizeofLen, List.map_nil, List.sum_nil]
    have h2 : sizeofVarint FsType.symlink.toWire = 1 := rfl
    omega

/-! ### Theorems -/

/-- C17. Serializing appends a block to the buffer, which reads back as a symlink with exactly that target and
nothing else. -/
theorem C17_parse {target : Bytes} (h : target.length < 2 ^ 31) (buffer : Bytes) :
    ∃ block, serializeSymlink target buffer = buffer ++ block ∧
      Flat.parse block = .ok { links := [], data := { type := .symlink, data := some target } } :=
  ⟨_, rfl, Flat.parse_write _ (symlink_wf h)⟩

/-- C17. Walking from the block gives only the symlink. -/
theorem C17_walk {target : Bytes} (h : target.length < 2 ^ 31) (debug : Bool) (cid : Cid) {name : Bytes}
    (hname : name = [] ∨ PlainName name) {fetch : Cid → Option Bytes}
    (hf : fetch cid = some (serializeSymlink target [])) {fuel : Nat} (hfuel : 0 < fuel) :
    (Walker.new debug cid name).feed fetch fuel = ([.symlink target cid name {}], .done) := by
  have hp := Flat.parse_write _ (symlink_wf h)
  have hi : ∀ e, (Walker.new debug cid name).current = some e → e.kind.idle = true := by intro e he; cases he
  have hpush : pathPush [] name = name := by
    unfold pathPush
    have : name.head? ≠ some 47 := by
      rcases hname with rfl | h1
      · simp
      · intro he
        cases hn : name with
        | nil => rw [hn] at he; cases he
        | cons c x => rw [hn] at he h1; cases he; exact h1.noSlash 47 List.mem_cons_self rfl
    rw [if_neg this, if_pos (Or.inl rfl)]
    rfl
  have hstep : (Walker.new debug cid name).step (serializeSymlink target []) =
      .ok (.symlink target cid name {}, (Walker.new debug cid name).advance
        ⟨cid, .symlink, name, {}, if name = [] then 1 else 2⟩ []) := by
    rw [step_idle hi, Walker.nextEntry, serializeSymlink, List.nil_append, hp]
    simp only [Walker.nextSymlink, Walker.new, become, WEntry.newRoot, hpush, Option.getD_some]
    rfl
  exact WSteps.feed (.step rfl (wanted_idle rfl hi) hf hstep (.refl _)) rfl (by simp only [List.length_singleton]; omega)

/-- The target of another symlink gives another block. -/
theorem C17_injective {a b : Bytes} (ha : a.length < 2 ^ 31) (hb : b.length < 2 ^ 31)
    (h : serializeSymlink a [] = serializeSymlink b []) : a = b := by
  obtain ⟨x, hx, hpx⟩ := C17_parse ha []
  obtain ⟨y, hy, hpy⟩ := C17_parse hb []
  rw [hx, hy] at h
  simp only [List.nil_append] at h
  subst h
  rw [hpx] at hpy
  cases hpy
  rfl

/-- A target with a slash, after something in the buffer; the block has the bytes `0a` (data of the node),
`08 04` (type symlink), `12` (data). -/
example : serializeSymlink "../b".toUTF8.toList [255] = [255, 10, 8, 8, 4, 18, 4, 46, 46, 47, 98] ∧
    Flat.parse [10, 8, 8, 4, 18, 4, 46, 46, 47, 98] =
      .ok { links := [], data := { type := .symlink, data := some "../b".toUTF8.toList } } := by
  decide +kernel

end Verif.Props
