import Verif.Unixfs.TreeIter
import Verif.Unixfs.PbLemmas

/-!
# What a directory tree is rendered to

The specification of the iterator in `Verif.Unixfs.TreeIter`: blocks, identifiers and totals as functions
of the tree.
-/

namespace Verif.Unixfs

open Verif

/-- The link a named leaf stands for. -/
def NamedLeaf.toLink (l : NamedLeaf) : PBLink := ⟨some l.cid.toBytes, some l.name, some l.total⟩

/-- A directory with links. -/
def dirFlat (ls : List NamedLeaf) : Flat := { links := ls.map NamedLeaf.toLink, data := { type := .directory } }

/-- Its block. -/
def dirBlock (ls : List NamedLeaf) : Bytes := (dirFlat ls).write

/-- The identifier and the total size of a directory with links. -/
def dirLeaf (H : Bytes → Bytes) (ls : List NamedLeaf) : Leaf :=
  ⟨Cid.v0 (H (dirBlock ls)), (dirBlock ls).length + (ls.map NamedLeaf.total).sum⟩

mutual
/-- What an entry is linked as. -/
def Entry.link (H : Bytes → Bytes) : Entry → Leaf
  | .leaf l => l
  | .directory d => dirLeaf H (dirLinks H d)
/-- The links of a directory. -/
def dirLinks (H : Bytes → Bytes) : DirOf Entry → List NamedLeaf
  | ⟨nodes, _, _, _⟩ => nodeLinks H nodes
/-- The links for entries, in their order. -/
def nodeLinks (H : Bytes → Bytes) : List (Bytes × Entry) → List NamedLeaf
  | [] => []
  | e :: es => nodeLink H e :: nodeLinks H es
/-- The link for one entry. -/
def nodeLink (H : Bytes → Bytes) : Bytes × Entry → NamedLeaf
  | (name, e) => ⟨name, (Entry.link H e).link, (Entry.link H e).total⟩
end

/-- The path of an entry. -/
def joinPath (path name : Bytes) : Bytes := if path = [] then name else path ++ 47 :: name

/-- The node given for a directory at a path. -/
def dirNode (H : Bytes → Bytes) (path : Bytes) (ls : List NamedLeaf) : TreeNode :=
  ⟨path, (dirLeaf H ls).link, (dirLeaf H ls).total, dirBlock ls⟩

mutual
/-- What an entry at a path gives. -/
def Entry.emits (H : Bytes → Bytes) (path : Bytes) : Entry → List TreeNode
  | .leaf _ => []
  | .directory d => dirEmits H path d
/-- What a directory at a path gives: what its entries give, then its own node. -/
def dirEmits (H : Bytes → Bytes) (path : Bytes) : DirOf Entry → List TreeNode
  | ⟨nodes, _, _, _⟩ => nodesEmit H path nodes ++ [dirNode H path (nodeLinks H nodes)]
/-- What the entries of a directory at a path give: the last one comes first. -/
def nodesEmit (H : Bytes → Bytes) (path : Bytes) : List (Bytes × Entry) → List TreeNode
  | [] => []
  | e :: es => nodesEmit H path es ++ nodeEmit H path e
/-- What one entry of a directory at a path gives. -/
def nodeEmit (H : Bytes → Bytes) (path : Bytes) : Bytes × Entry → List TreeNode
  | (name, e) => Entry.emits H (joinPath path name) e
end

/-- What a tree gives: without wrapping, not the root. -/
def treeEmits (H : Bytes → Bytes) (wrap : Bool) (root : DirBuilder) : List TreeNode :=
  nodesEmit H [] root.nodes ++ (if wrap then [dirNode H [] (nodeLinks H root.nodes)] else [])

/-- The nodes are given one by one until one is too large; then the rest. -/
def emitThen (limit : Option Nat) : List TreeNode → List TreeNode × BuildEnd → List TreeNode × BuildEnd
  | [], k => k
  | n :: ns, k =>
    if tooLarge limit n.block.length then ([], .failed (.tooLargeBlock n.block.length))
    else (n :: (emitThen limit ns k).1, (emitThen limit ns k).2)

theorem emitThen_append (limit : Option Nat) (a b : List TreeNode) (k : List TreeNode × BuildEnd) :
    emitThen limit (a ++ b) k = emitThen limit a (emitThen limit b k) := by
  induction a with
  | nil => rfl
  | cons n a ih => simp only [List.cons_append, emitThen, ih]

/-! ## Sizes -/

/-- A link that can be written. -/
structure NamedLeaf.Ok (l : NamedLeaf) : Prop where
  cid : l.cid.Valid
  short : l.cid.toBytes.length < 2 ^ 30
  name : l.name.length < 2 ^ 30
  utf8 : utf8Ok l.name = true
  total : l.total < 2 ^ 64

theorem sizeofVarint_le_ten (n : Nat) : sizeofVarint n ≤ 10 := by
  unfold sizeofVarint; (repeat' split) <;> omega

theorem NamedLeaf.Ok.wf {l : NamedLeaf} (h : l.Ok) : l.toLink.WF where
  hash := by intro b hb; cases hb; have := h.short; omega
  name := by intro b hb; cases hb; have := h.name; exact ⟨by omega, h.utf8⟩
  tsize := by intro b hb; cases hb; exact h.total
  size := by
    have h1 := h.short
    have h2 := h.name
    have h3 := sizeofVarint_le_ten l.total
    have h4 := sizeofVarint_le_ten l.cid.toBytes.length
    have h5 := sizeofVarint_le_ten l.name.length
    simp only [PBLink.getSize, NamedLeaf.toLink, optSize, sizeofLen]
    omega

theorem cidWrite_eq (c : Cid) : cidWrite c = c.toBytes := by
  obtain ⟨v, codec, code, d⟩ := c
  cases v with
  | v0 => rfl
  | v1 => simp [cidWrite, Cid.toBytes, writeVarint_small (n := 1) (by decide)]

theorem cidSize_eq {c : Cid} (h : c.Valid) : cidSize c = c.toBytes.length := by
  obtain ⟨v, codec, code, d⟩ := c
  cases v with
  | v0 => rfl
  | v1 =>
    have := knownCodec_lt h.2.1
    simp only at this
    simp only [cidSize, Cid.toBytes, writeVarint_small (n := 1) (by decide), List.length_append,
      writeVarint_length codec this, List.length_singleton]

theorem NamedLeaf.getSize_eq {l : NamedLeaf} (h : l.Ok) : l.getSize = l.toLink.getSize := by
  simp only [NamedLeaf.getSize, PBLink.getSize, NamedLeaf.toLink, optSize, cidSize_eq h.cid]
  omega

theorem NamedLeaf.write_eq {l : NamedLeaf} (h : l.Ok) : l.write = l.toLink.write := by
  simp only [NamedLeaf.write, PBLink.write, NamedLeaf.toLink, optField, cidWrite_eq]
  rw [msgField_eq_lenField (cidSize_eq h.cid)]

theorem dirData_wf : ({ type := .directory } : UnixFs).WF := by
  constructor <;> simp [OptAll]

theorem dirFlat_wf {ls : List NamedLeaf} (h : ∀ l ∈ ls, l.Ok) : (dirFlat ls).WF where
  links := by
    intro l hl
    obtain ⟨x, hx, rfl⟩ := List.mem_map.mp hl
    exact (h x hx).wf
  data := dirData_wf
  size := by show UnixFs.getSize { type := .directory } < 2 ^ 32; decide

theorem customWrite_eq {ls : List NamedLeaf} (h : ∀ l ∈ ls, l.Ok) :
    customWrite ls { type := .directory } = dirBlock ls := by
  unfold customWrite dirBlock Flat.write dirFlat
  simp only [List.map_map]
  congr 2
  refine List.map_congr_left (fun l hl => ?_)
  simp only [Function.comp, NamedLeaf.getSize_eq (h l hl), NamedLeaf.write_eq (h l hl)]

theorem customSize_eq {ls : List NamedLeaf} (h : ∀ l ∈ ls, l.Ok) :
    customSize ls { type := .directory } = (dirBlock ls).length := by
  unfold dirBlock
  rw [Flat.write_length _ (dirFlat_wf h)]
  unfold customSize Flat.getSize dirFlat
  simp only [List.map_map]
  have : (ls.map (fun l => 1 + sizeofLen l.getSize)) =
      (ls.map ((fun s : PBLink => 1 + sizeofLen s.getSize) ∘ NamedLeaf.toLink)) := by
    refine List.map_congr_left (fun l hl => ?_)
    simp only [Function.comp, NamedLeaf.getSize_eq (h l hl)]
  rw [this]
  omega

theorem mapped_some (ls : List NamedLeaf) : mapped (ls.map some) = some ls := by
  induction ls with
  | nil => rfl
  | cons l ls ih => simp [mapped, ih]

theorem addU64_lt {debug : Bool} {a b : Nat} (h : a + b < 2 ^ 64) : addU64 debug a b = some (a + b) := if_pos h

theorem sumU64_lt {debug : Bool} {acc : Nat} {xs : List Nat} (h : acc + xs.sum < 2 ^ 64) :
    sumU64 debug acc xs = some (acc + xs.sum) := by
  induction xs generalizing acc with
  | nil => simp [sumU64]
  | cons x xs ih =>
    simp only [List.sum_cons] at h
    rw [sumU64, addU64_lt (by omega)]
    simp only []
    rw [ih (by omega), List.sum_cons, Nat.add_assoc]

/-- Rendering a directory whose links are all known. -/
theorem render_eq {H : Bytes → Bytes} {opts : TreeOpts} {ls : List NamedLeaf} {buffer : Bytes}
    (h : ∀ l ∈ ls, l.Ok) (ht : (dirLeaf H ls).total < 2 ^ 64) :
    renderDirectory H opts (ls.map some) buffer =
      if tooLarge opts.blockSizeLimit (dirBlock ls).length then .error (.tooLargeBlock (dirBlock ls).length)
      else .ok (dirLeaf H ls, dirBlock ls) := by
  unfold renderDirectory
  rw [mapped_some]
  simp only [customSize_eq h, customWrite_eq h]
  split
  · rfl
  · have hlen : (dirBlock ls).length ≤
        (buffer ++ List.replicate ((dirBlock ls).length - buffer.length) 0).length := by
      simp only [List.length_append, List.length_replicate]; omega
    simp only [overwrite]
    rw [if_pos hlen]
    simp only [List.take_left']
    unfold dirLeaf at ht ⊢
    simp only at ht
    rw [sumU64_lt (by omega)]
    simp only [Nat.zero_add]
    rw [addU64_lt ht]

/-! ## Paths -/

theorem cutLast_none {s : Bytes} (h : NoSlash s) : cutLast s = none := by
  induction s with
  | nil => rfl
  | cons c s ih =>
    rw [cutLast, ih (fun x hx => h x (by simp [hx]))]
    simp only []
    rw [if_neg (h c (by simp))]

theorem cutLast_join {a s : Bytes} (h : NoSlash s) : cutLast (a ++ 47 :: s) = some (a, s) := by
  induction a with
  | nil =>
    rw [List.nil_append, cutLast, cutLast_none h]
    simp
  | cons c a ih => rw [List.cons_append, cutLast, ih]

/-- The path kept is that of a directory at some depth, or that of one of its entries. -/
def InPath (path : Bytes) (depth : Nat) (full : Bytes) (old : Nat) : Prop :=
  (full = path ∧ old = depth) ∨
    (path ≠ [] ∨ depth = 0) ∧ ∃ sib, NoSlash sib ∧ full = joinPath path sib ∧ old = depth + 1

/-- Going to an entry. -/
theorem update_child {path : Bytes} {depth : Nat} {full : Bytes} {old : Nat} {name : Bytes}
    (h : InPath path depth full old) (h1 : depth ≠ 0 → path ≠ []) (h0 : depth = 0 → path = []) :
    updateFullPath full old (some name) (depth + 1) = some (joinPath path name, depth + 1) := by
  unfold updateFullPath
  cases depth with
  | zero =>
    rw [h0 rfl]
    simp [joinPath]
  | succ d =>
    have hp := h1 (by simp)
    rw [if_neg (by omega)]
    rcases h with ⟨rfl, rfl⟩ | ⟨_, sib, hs, rfl, rfl⟩
    · rw [popPath, if_neg (by omega)]
      simp [joinPath, hp]
    · rw [popPath, if_pos (by omega), joinPath, if_neg hp, cutLast_join hs]
      simp only []
      by_cases hn : sib = name
      · subst hn
        simp [joinPath, hp]
      · rw [if_neg (by simp [hn]), popPath, if_neg (by omega)]
        simp [joinPath, hp]

/-- Coming back to a directory. -/
theorem update_post {path name : Bytes} {depth : Nat} {full : Bytes} {old : Nat} (hn : NoSlash name)
    (h : InPath (joinPath path name) (depth + 1) full old) (h1 : depth ≠ 0 → path ≠ [])
    (h0 : depth = 0 → path = []) :
    updateFullPath full old (some name) (depth + 1) = some (joinPath path name, depth + 1) := by
  cases depth with
  | zero =>
    unfold updateFullPath
    rw [h0 rfl]
    simp [joinPath]
  | succ d =>
    have hp := h1 (by simp)
    rcases h with ⟨rfl, rfl⟩ | ⟨hne, sib, hs, rfl, rfl⟩
    · exact update_child (Or.inr ⟨Or.inl hp, name, hn, rfl, rfl⟩) h1 h0
    · unfold updateFullPath
      have hne : joinPath path name ≠ [] := hne.resolve_right (by omega)
      rw [if_neg (by omega), popPath, if_pos (by omega)]
      have e : joinPath (joinPath path name) sib = joinPath path name ++ 47 :: sib := if_neg hne
      rw [e, cutLast_join hs]
      simp only []
      rw [if_neg (by omega), popPath, if_pos (by omega)]
      have e : joinPath path name = path ++ 47 :: name := if_neg hp
      rw [e, cutLast_join hn]
      simp

theorem update_root (full : Bytes) (old : Nat) : updateFullPath full old none 0 = some ([], 0) := by
  simp [updateFullPath]

end Verif.Unixfs
