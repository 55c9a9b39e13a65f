import Verif.Base.Utf8
import Verif.Props.DirInsert
import Verif.Unixfs.Dir
import Verif.Unixfs.TreeRun

/-!
# C12, C14: the blocks of a directory tree
-/

namespace Verif.Props

open Verif Verif.Unixfs

/-! ### Specification -/

/-- The arguments are what the types of the code allow, and not absurdly long. -/
structure OpFits (op : DirOp) : Prop where
  text : utf8Ok op.path = true
  short : op.path.length < 2 ^ 30
  leaf : ∀ p c n, op = .put p c n → c.Valid ∧ c.toBytes.length < 2 ^ 30 ∧ n < 2 ^ 64

/-- The totals fit into 64 bits. -/
def TotalsFit (H : Bytes → Bytes) (b : Builder) : Prop :=
  ∀ n ∈ treeEmits H b.opts.wrapWithDirectory b.root, n.total < 2 ^ 64

/-- The link a directory has for an entry, when the nodes of directories are known. -/
def linkFor (out : List Bytes → TreeNode) (q : List Bytes) (name : Bytes) : Kind → PBLink
  | .leaf l => ⟨some l.link.toBytes, some name, some l.total⟩
  | .dir => ⟨some (out (q ++ [name])).cid.toBytes, some name, some (out (q ++ [name])).total⟩

/-- The node of the directory at a path: named by the segments, identified by its block, which is a
plain directory with one link for every entry in the order of the names, and of the total size of its
block and of what it links to. -/
structure NodeFor (H : Bytes → Bytes) (A : List Bytes → Option Kind) (out : List Bytes → TreeNode)
    (q : List Bytes) (n : TreeNode) : Prop where
  path : n.path = joinSlash q
  cid : n.cid = Cid.v0 (H n.block)
  links : ∃ links : List PBLink,
    Flat.parse n.block = .ok { links, data := { type := .directory } } ∧
    links.Pairwise (fun a b => blt a.nameOr b.nameOr = true) ∧
    (∀ l, l ∈ links ↔ ∃ name k, A (q ++ [name]) = some k ∧ l = linkFor out q name k) ∧
    n.total = n.block.length + (links.map (fun l => l.tsize.getD 0)).sum

/-! ### Helpers -/

theorem splitSlash_length (p : Bytes) : ∀ x ∈ splitSlash p, x.length ≤ p.length := by
  induction p with
  | nil => simp [splitSlash]
  | cons c p ih =>
    rw [splitSlash]
    split
    · intro x hx
      rcases List.mem_cons.mp hx with rfl | hx
      · simp
      · have := ih x hx; simp; omega
    · cases hs : splitSlash p with
      | nil => exact absurd hs (splitSlash_ne_nil p)
      | cons y ys =>
        rw [hs] at ih
        intro x hx
        rcases List.mem_cons.mp hx with rfl | hx
        · have := ih y (by simp); simpa using this
        · have := ih x (by simp [hx]); simp; omega

theorem builderAfter_good {opts : TreeOpts} {ops : List DirOp} (h : ∀ op ∈ ops, OpFits op) :
    Good LeafOk NameOk (builderAfter opts ops).counter true (builderAfter opts ops).root := by
  induction ops using ops_induction with
  | h0 => exact Good.fresh rfl (by simp [builderAfter, Builder.new, DirBuilder.root])
  | h1 ops op ih =>
    have hop := h op (by simp)
    have ih := ih (fun o ho => h o (by simp [ho]))
    rw [builderAfter_snoc]
    have hseg : ∀ x ∈ splitSlash op.path, NameOk x := by
      intro x hx
      have h1 := splitSlash_length _ x hx
      have h2 := hop.short
      exact ⟨splitSlash_noSlash _ x hx, by omega, utf8Ok_split hop.text x hx⟩
    cases op with
    | put p c n =>
      obtain ⟨h1, h2, h3⟩ := hop.leaf p c n rfl
      exact (modify_sound (FnOk.putLeaf (M := NameOk) (L := LeafOk) (l := ⟨c, n⟩) ⟨h1, h2, h3⟩) hseg ih
        (Prod.eta _).symm).1
    | attrs p m => exact (modify_sound (FnOk.putMeta (M := NameOk) (L := LeafOk) m) hseg ih (Prod.eta _).symm).1

/-- The directory at a path. -/
def subdir : DirBuilder → List Bytes → Option DirBuilder
  | d, [] => some d
  | d, k :: q =>
    match AMap.get d.nodes k with
    | some (.directory c) => subdir c q
    | _ => none

mutual
/-- The paths of the directories of an entry, in the order of their nodes. -/
def entryDirs : Entry → List (List Bytes)
  | .leaf _ => []
  | .directory d => dirsOf d
/-- The paths of the directories of a directory. -/
def dirsOf : DirOf Entry → List (List Bytes)
  | ⟨nodes, _, _, _⟩ => nodesDirs nodes ++ [[]]
/-- The paths of the directories below a directory. -/
def nodesDirs : List (Bytes × Entry) → List (List Bytes)
  | [] => []
  | e :: es => nodesDirs es ++ nodeDirs e
/-- The paths of the directories for one entry. -/
def nodeDirs : Bytes × Entry → List (List Bytes)
  | (k, e) => (entryDirs e).map (k :: ·)
end

theorem dirsOf_eq (d : DirBuilder) : dirsOf d = nodesDirs d.nodes ++ [[]] := by
  obtain ⟨nodes, m, p, id⟩ := d; rw [dirsOf]

theorem nodeDirs_dir (k : Bytes) (c : DirBuilder) : nodeDirs (k, .directory c) = (dirsOf c).map (k :: ·) := by
  rw [nodeDirs, entryDirs]

theorem nodeDirs_leaf (k : Bytes) (l : Leaf) : nodeDirs (k, .leaf l) = [] := by
  rw [nodeDirs, entryDirs]; rfl

theorem mem_nodesDirs {es : List (Bytes × Entry)} {q : List Bytes} :
    q ∈ nodesDirs es ↔ ∃ k c q', (k, Entry.directory c) ∈ es ∧ q' ∈ dirsOf c ∧ q = k :: q' := by
  induction es with
  | nil => rw [nodesDirs]; simp
  | cons e es ih =>
    obtain ⟨k, e⟩ := e
    rw [nodesDirs, List.mem_append, ih]
    cases e with
    | leaf l =>
      rw [nodeDirs_leaf]
      constructor
      · rintro (⟨k, c, q', h, h2⟩ | h)
        · exact ⟨k, c, q', List.mem_cons_of_mem _ h, h2⟩
        · cases h
      · rintro ⟨k, c, q', h, h2⟩
        rcases List.mem_cons.mp h with h | h
        · cases h
        · exact Or.inl ⟨k, c, q', h, h2⟩
    | directory c =>
      rw [nodeDirs_dir]
      constructor
      · rintro (⟨k, c, q', h, h2⟩ | h)
        · exact ⟨k, c, q', List.mem_cons_of_mem _ h, h2⟩
        · obtain ⟨q', h1, rfl⟩ := List.mem_map.mp h
          exact ⟨k, c, q', by simp, h1, rfl⟩
      · rintro ⟨k', c', q', h, h2, rfl⟩
        rcases List.mem_cons.mp h with h | h
        · cases h; exact Or.inr (List.mem_map.mpr ⟨q', h2, rfl⟩)
        · exact Or.inl ⟨k', c', q', h, h2, rfl⟩

section
variable {L : Leaf → Prop} {M : Bytes → Prop}

theorem good_get {n : Nat} {r : Bool} {d : DirBuilder} (hg : Good L M n r d) {k : Bytes} {e : Entry} :
    (k, e) ∈ d.nodes ↔ AMap.get d.nodes k = some e := AMap.mem_iff_get hg.sorted.uniq k e

/-- The paths listed are those of the directories. -/
theorem mem_dirsOf {n : Nat} {r : Bool} {d : DirBuilder} (hg : Good L M n r d) (q : List Bytes) :
    q ∈ dirsOf d ↔ entryAt d q = some .dir := by
  induction q generalizing d r with
  | nil => rw [dirsOf_eq]; simp [entryAt]
  | cons k q ih =>
    rw [dirsOf_eq, List.mem_append, mem_nodesDirs]
    simp only [entryAt]
    constructor
    · rintro (⟨k', c, q', h, h2, he⟩ | h)
      · cases he
        rw [(good_get hg).mp h]
        exact (ih (hg.child _ _ h)).mp h2
      · simp at h
    · intro h
      split at h
      · cases h
      · split at h <;> cases h
      · rename_i c hc
        have hmem := (good_get hg).mpr hc
        exact Or.inl ⟨k, c, q, hmem, (ih (hg.child _ _ hmem)).mpr h, rfl⟩

theorem subdir_some {d : DirBuilder} {q : List Bytes} : (∃ c, subdir d q = some c) ↔ entryAt d q = some .dir := by
  induction q generalizing d with
  | nil => simp [subdir, entryAt]
  | cons k q ih =>
    simp only [subdir, entryAt]
    cases hk : AMap.get d.nodes k with
    | none => simp
    | some e =>
      cases e with
      | leaf l => simp only []; split <;> simp
      | directory c => exact ih

theorem entryAt_sub {d c : DirBuilder} {q : List Bytes} (h : subdir d q = some c) (r : List Bytes) :
    entryAt d (q ++ r) = entryAt c r := by
  induction q generalizing d with
  | nil => simp only [subdir, Option.some.injEq] at h; subst h; rfl
  | cons k q ih =>
    simp only [subdir] at h
    split at h
    · rename_i hk
      simp only [List.cons_append, entryAt, hk]
      exact ih h
    · cases h

theorem good_sub {n : Nat} {r : Bool} {d c : DirBuilder} {q : List Bytes} (hg : Good L M n r d)
    (h : subdir d q = some c) : ∃ r', Good L M n r' c := by
  induction q generalizing d r with
  | nil => simp only [subdir, Option.some.injEq] at h; subst h; exact ⟨r, hg⟩
  | cons k q ih =>
    simp only [subdir] at h
    split at h
    · rename_i c' hk
      exact ih (hg.child _ _ ((good_get hg).mpr hk)) h
    · cases h

theorem subdir_append {d c : DirBuilder} {q r : List Bytes} (h : subdir d q = some c) :
    subdir d (q ++ r) = subdir c r := by
  induction q generalizing d with
  | nil => simp only [subdir, Option.some.injEq] at h; subst h; rfl
  | cons k q ih =>
    simp only [subdir] at h
    split at h
    · rename_i hk
      simp only [List.cons_append, subdir, hk]
      exact ih h
    · cases h

/-- No path is listed twice, and none before one it is a prefix of. -/
theorem dirsOf_order {n : Nat} {r : Bool} {d : DirBuilder} (hg : Good L M n r d) :
    (dirsOf d).Nodup ∧ (dirsOf d).Pairwise (fun a b => ¬ a <+: b) := by
  induction hg with
  | @mk root d hid hsorted hname hnon hleaf hparent hlt hempty hchild ih =>
    rw [dirsOf_eq]
    have key : ∀ es : List (Bytes × Entry), BMap.Sorted es → (∀ k c, (k, Entry.directory c) ∈ es →
        (dirsOf c).Nodup ∧ (dirsOf c).Pairwise (fun a b => ¬ a <+: b)) →
        (nodesDirs es).Nodup ∧ (nodesDirs es).Pairwise (fun a b => ¬ a <+: b) := by
      intro es
      induction es with
      | nil => intro _ _; rw [nodesDirs]; simp
      | cons e es ihes =>
        obtain ⟨k, e⟩ := e
        intro hs he
        have hs' : BMap.Sorted es := (List.pairwise_cons.mp hs).2
        have hne : ∀ e' ∈ es, e'.1 ≠ k := by
          intro e' he' heq
          have := (List.pairwise_cons.mp hs).1 e' he'
          simp only [heq] at this
          rw [blt_irrefl] at this
          cases this
        obtain ⟨i1, i2⟩ := ihes hs' (fun k c h => he k c (List.mem_cons_of_mem _ h))
        rw [nodesDirs]
        cases e with
        | leaf l => rw [nodeDirs_leaf, List.append_nil]; exact ⟨i1, i2⟩
        | directory c =>
          rw [nodeDirs_dir]
          obtain ⟨j1, j2⟩ := he k c (by simp)
          have hdiff : ∀ a ∈ nodesDirs es, ∀ b ∈ (dirsOf c).map (k :: ·), ¬ a <+: b := by
            intro a ha b hb
            obtain ⟨k', c', q', h1, h2, rfl⟩ := mem_nodesDirs.mp ha
            obtain ⟨q, h3, rfl⟩ := List.mem_map.mp hb
            rintro ⟨t, ht⟩
            simp only [List.cons_append, List.cons.injEq] at ht
            exact hne _ h1 ht.1
          refine ⟨?_, ?_⟩
          · rw [List.nodup_append]
            refine ⟨i1, ?_, ?_⟩
            · rw [List.nodup_iff_pairwise_ne] at j1 ⊢
              rw [List.pairwise_map]
              exact j1.imp (fun h e => h (by simpa using e))
            · intro a ha b hb heq
              subst heq
              exact hdiff a ha a hb (List.prefix_refl _)
          · rw [List.pairwise_append]
            refine ⟨i2, ?_, hdiff⟩
            rw [List.pairwise_map]
            exact j2.imp (fun h e => h (cons_prefix_cons.mp e))
    obtain ⟨k1, k2⟩ := key d.nodes hsorted ih
    have hnil : ∀ a ∈ nodesDirs d.nodes, a ≠ [] := by
      intro a ha
      obtain ⟨k', c', q', h1, h2, rfl⟩ := mem_nodesDirs.mp ha
      simp
    refine ⟨?_, ?_⟩
    · rw [List.nodup_append]
      refine ⟨k1, by simp, ?_⟩
      intro a ha b hb
      rw [List.mem_singleton.mp hb]
      exact hnil a ha
    · rw [List.pairwise_append]
      refine ⟨k2, by simp, ?_⟩
      intro a ha b hb
      rw [List.mem_singleton.mp hb]
      intro h
      exact hnil a ha (List.prefix_nil.mp h)

end

variable {H : Bytes → Bytes}

/-- The links of the directory at a path. -/
def linksAt (H : Bytes → Bytes) (d : DirBuilder) (q : List Bytes) : List NamedLeaf :=
  match subdir d q with
  | some c => nodeLinks H c.nodes
  | none => []

theorem linksAt_cons {d c : DirBuilder} {k : Bytes} (h : AMap.get d.nodes k = some (.directory c)) (q : List Bytes) :
    linksAt H d (k :: q) = linksAt H c q := by
  simp only [linksAt, subdir, h]

/-- The nodes are those of the paths listed. -/
theorem nodesEmit_eq {L : Leaf → Prop} {M : Bytes → Prop} {n : Nat} {r : Bool} {d : DirBuilder} (hg : Good L M n r d)
    (path : Bytes) :
    nodesEmit H path d.nodes =
      (nodesDirs d.nodes).map (fun q => dirNode H (q.foldl joinPath path) (linksAt H d q)) := by
  induction hg generalizing path with
  | @mk root d hid hsorted hname hnon hleaf hparent hlt hempty hchild ih =>
    have key : ∀ es : List (Bytes × Entry), (∀ k c, (k, Entry.directory c) ∈ es →
        (k, Entry.directory c) ∈ d.nodes) →
        nodesEmit H path es =
          (nodesDirs es).map (fun q => dirNode H (q.foldl joinPath path) (linksAt H d q)) := by
      intro es
      induction es with
      | nil => intro _; rw [nodesEmit, nodesDirs]; rfl
      | cons e es ihes =>
        obtain ⟨k, e⟩ := e
        intro hsub
        rw [nodesEmit, nodesDirs, List.map_append, ihes (fun k c h => hsub k c (List.mem_cons_of_mem _ h))]
        congr 1
        cases e with
        | leaf l => rw [nodeEmit_leaf, nodeDirs_leaf]; rfl
        | directory c =>
          have hmem := hsub k c (by simp)
          have hget := (AMap.mem_iff_get hsorted.uniq _ _).mp hmem
          rw [nodeEmit_dir, nodeDirs_dir, dirEmits_eq, dirsOf_eq, ih k c hmem]
          simp only [List.map_append, List.map_map, List.map_cons, List.map_nil]
          congr 1
          · refine List.map_congr_left (fun q _ => ?_)
            simp only [Function.comp, List.foldl_cons, linksAt_cons hget]
          · simp only [List.foldl_cons, List.foldl_nil, linksAt_cons hget]
            rfl
    exact key d.nodes (fun k c h => h)

theorem joinSlash_join {path x : Bytes} {q : List Bytes} :
    joinSlash ((path ++ 47 :: x) :: q) = joinSlash (path :: x :: q) := by
  cases q <;> simp [joinSlash]

theorem foldl_joinPath {path : Bytes} (h : path ≠ []) (q : List Bytes) :
    q.foldl joinPath path = joinSlash (path :: q) := by
  induction q generalizing path with
  | nil => rfl
  | cons x q ih =>
    have e : joinPath path x = path ++ 47 :: x := if_neg h
    rw [List.foldl_cons, e, ih (by simp), joinSlash_join]

/-- The path of a directory is made of its segments. -/
theorem path_eq {L : Leaf → Prop} {M : Bytes → Prop} {n : Nat} {r : Bool} {d : DirBuilder} (hg : Good L M n r d)
    {q : List Bytes} (hq : entryAt d q = some .dir) : q.foldl joinPath [] = joinSlash q := by
  cases q with
  | nil => rfl
  | cons x q =>
    have e : joinPath [] x = x := if_pos rfl
    rw [List.foldl_cons, e]
    by_cases hx : x = []
    · subst hx
      simp only [entryAt] at hq
      split at hq
      · cases hq
      · split at hq <;> cases hq
      · rename_i c hc
        have hn := hg.emptyName _ _ ((good_get hg).mpr hc) rfl
        cases q with
        | nil => rfl
        | cons y q => simp [entryAt, hn, AMap.get] at hq
    · exact foldl_joinPath hx q

/-- The paths of the nodes of a tree. -/
def treeDirs (wrap : Bool) (d : DirBuilder) : List (List Bytes) := nodesDirs d.nodes ++ (if wrap then [[]] else [])

theorem treeEmits_eq {L : Leaf → Prop} {M : Bytes → Prop} {n : Nat} {r : Bool} {d : DirBuilder}
    (hg : Good L M n r d) (wrap : Bool) :
    treeEmits H wrap d = (treeDirs wrap d).map (fun q => dirNode H (joinSlash q) (linksAt H d q)) := by
  unfold treeEmits treeDirs
  rw [nodesEmit_eq hg, List.map_append]
  congr 1
  · refine List.map_congr_left (fun q hq => ?_)
    rw [path_eq hg]
    rw [← mem_dirsOf hg, dirsOf_eq]
    exact List.mem_append_left _ hq
  · cases wrap <;> rfl

theorem mem_treeDirs {L : Leaf → Prop} {M : Bytes → Prop} {n : Nat} {r : Bool} {d : DirBuilder}
    (hg : Good L M n r d) (wrap : Bool) (q : List Bytes) :
    q ∈ treeDirs wrap d ↔ entryAt d q = some .dir ∧ (wrap = true ∨ q ≠ []) := by
  rw [← mem_dirsOf hg, dirsOf_eq, treeDirs, List.mem_append, List.mem_append]
  constructor
  · rintro (h | h)
    · refine ⟨Or.inl h, Or.inr ?_⟩
      obtain ⟨k', c', q', h1, h2, rfl⟩ := mem_nodesDirs.mp h
      simp
    · cases wrap with
      | false => simp at h
      | true => exact ⟨Or.inr h, Or.inl rfl⟩
  · rintro ⟨h | h, h2⟩
    · exact Or.inl h
    · rcases h2 with h2 | h2
      · rw [h2]; exact Or.inr h
      · exact absurd (List.mem_singleton.mp h) h2

theorem treeDirs_order {L : Leaf → Prop} {M : Bytes → Prop} {n : Nat} {r : Bool} {d : DirBuilder}
    (hg : Good L M n r d) (wrap : Bool) :
    (treeDirs wrap d).Nodup ∧ (treeDirs wrap d).Pairwise (fun a b => ¬ a <+: b) := by
  obtain ⟨h1, h2⟩ := dirsOf_order hg
  rw [dirsOf_eq] at h1 h2
  unfold treeDirs
  cases wrap with
  | true => exact ⟨h1, h2⟩
  | false =>
    rw [if_neg (by simp), List.append_nil]
    exact ⟨(List.nodup_append.mp h1).1, (List.pairwise_append.mp h2).1⟩

/-- What is linked for an entry of the directory at a path. -/
theorem linkFor_eq {d c : DirBuilder} {q : List Bytes} (hc : subdir d q = some c) {k : Bytes} {e : Entry}
    (he : AMap.get c.nodes k = some e) :
    ∃ kd, entryAt d (q ++ [k]) = some kd ∧ (nodeLink H (k, e)).toLink =
      linkFor (fun q => dirNode H (joinSlash q) (linksAt H d q)) q k kd := by
  rw [entryAt_sub hc]
  simp only [entryAt, he]
  cases e with
  | leaf l => exact ⟨.leaf l, by simp, by rw [nodeLink, Entry.link]; rfl⟩
  | directory c' =>
    refine ⟨.dir, by simp, ?_⟩
    have : linksAt H d (q ++ [k]) = nodeLinks H c'.nodes := by
      simp only [linksAt, subdir_append hc, subdir, he]
    simp only [nodeLink, Entry.link, NamedLeaf.toLink, linkFor, dirNode, this, dirLinks_eq]

/-- Every node is as specified. -/
theorem nodeFor (hH : ∀ b, (H b).length = 32) {n : Nat} {r : Bool} {d : DirBuilder}
    (hg : Good LeafOk NameOk n r d) {wrap : Bool} (hfit : ∀ x ∈ treeEmits H wrap d, x.total < 2 ^ 64)
    {q : List Bytes} (hq : entryAt d q = some .dir) :
    NodeFor H (entryAt d) (fun q => dirNode H (joinSlash q) (linksAt H d q)) q
      (dirNode H (joinSlash q) (linksAt H d q)) := by
  obtain ⟨c, hc⟩ := subdir_some.mpr hq
  obtain ⟨r', hgc⟩ := good_sub hg hc
  have hl : linksAt H d q = nodeLinks H c.nodes := by simp only [linksAt, hc]
  -- the totals of directories below fit
  have hbelow : ∀ x ∈ nodesEmit H [] c.nodes, x.total < 2 ^ 64 := by
    intro x hx
    rw [nodesEmit_eq hgc] at hx
    obtain ⟨q', hq', rfl⟩ := List.mem_map.mp hx
    have hdir : entryAt c q' = some .dir := by
      rw [← mem_dirsOf hgc, dirsOf_eq]; exact List.mem_append_left _ hq'
    have hne : q' ≠ [] := by
      obtain ⟨k', c', q'', h1, h2, rfl⟩ := mem_nodesDirs.mp hq'
      simp
    have hin : q ++ q' ∈ treeDirs wrap d := by
      rw [mem_treeDirs hg, entryAt_sub hc]
      exact ⟨hdir, Or.inr (by simp [hne])⟩
    have := hfit _ (by rw [treeEmits_eq hg]; exact List.mem_map.mpr ⟨_, hin, rfl⟩)
    have e : linksAt H d (q ++ q') = linksAt H c q' := by simp only [linksAt, subdir_append hc]
    rw [e] at this
    exact this
  have hok := nodeLinks_ok hH hgc hbelow
  rw [hl]
  refine ⟨rfl, rfl, (nodeLinks H c.nodes).map NamedLeaf.toLink, ?_, ?_, ?_, ?_⟩
  · exact Flat.parse_write (dirFlat (nodeLinks H c.nodes)) (dirFlat_wf hok)
  · rw [nodeLinks_eq, List.map_map, List.pairwise_map]
    refine hgc.sorted.imp (fun {a b} h => ?_)
    obtain ⟨k, e⟩ := a
    obtain ⟨k', e'⟩ := b
    simpa only [Function.comp, nodeLink, NamedLeaf.toLink, PBLink.nameOr, Option.getD_some] using h
  · intro l
    rw [nodeLinks_eq, List.map_map, List.mem_map]
    constructor
    · rintro ⟨⟨k, e⟩, hmem, rfl⟩
      obtain ⟨kd, h1, h2⟩ := linkFor_eq (H := H) hc ((good_get hgc).mp hmem)
      exact ⟨k, kd, h1, h2⟩
    · rintro ⟨k, kd, h1, rfl⟩
      have h1' := h1
      rw [entryAt_sub hc] at h1'
      cases he : AMap.get c.nodes k with
      | none => simp [entryAt, he] at h1'
      | some e =>
        obtain ⟨kd', h2, h3⟩ := linkFor_eq (H := H) hc he
        rw [h1] at h2
        cases h2
        exact ⟨(k, e), (good_get hgc).mpr he, h3⟩
  · simp only [dirNode, dirLeaf, List.map_map]
    rfl

theorem emitThen_cases (limit : Option Nat) (ns : List TreeNode) :
    (emitThen limit ns ([], .done) = (ns, .done) ∧ ∀ n ∈ ns, tooLarge limit n.block.length = false) ∨
    ∃ a n b, ns = a ++ n :: b ∧ emitThen limit ns ([], .done) = (a, .failed (.tooLargeBlock n.block.length)) ∧
      tooLarge limit n.block.length = true ∧ ∀ n ∈ a, tooLarge limit n.block.length = false := by
  induction ns with
  | nil => exact Or.inl ⟨rfl, by simp⟩
  | cons x ns ih =>
    by_cases hx : tooLarge limit x.block.length = true
    · exact Or.inr ⟨[], x, ns, rfl, by rw [emitThen, if_pos hx], hx, by simp⟩
    · have hx' : tooLarge limit x.block.length = false := by simpa using hx
      rw [emitThen, if_neg hx]
      rcases ih with ⟨h1, h2⟩ | ⟨a, n, b, h1, h2, h3, h4⟩
      · rw [h1]
        refine Or.inl ⟨rfl, ?_⟩
        intro n hn
        rcases List.mem_cons.mp hn with rfl | hn
        · exact hx'
        · exact h2 n hn
      · refine Or.inr ⟨x :: a, n, b, by rw [h1]; rfl, by rw [h2], h3, ?_⟩
        intro n hn
        rcases List.mem_cons.mp hn with rfl | hn
        · exact hx'
        · exact h4 n hn

theorem tooLarge_iff {limit : Option Nat} {size : Nat} : tooLarge limit size = true ↔ ∃ l, limit = some l ∧ l < size := by
  cases limit <;> simp [tooLarge]

/-- What the run gives. -/
theorem run_eq (hH : ∀ b, (H b).length = 32) {opts : TreeOpts} {ops : List DirOp} (hops : ∀ op ∈ ops, OpFits op)
    (hfit : TotalsFit H (builderAfter opts ops)) :
    (builderAfter opts ops).build.run H =
      emitThen opts.blockSizeLimit (treeEmits H opts.wrapWithDirectory (builderAfter opts ops).root) ([], .done) := by
  have ho := (builderAfter_sound opts ops).2
  have := run_build hH (builderAfter_good hops) hfit
  rw [ho] at this
  exact this

/-! ### Theorems -/

/-- C12. A run that is not stopped by the limit gives one node for every directory of the tree (the root
only when wrapping), those of directories within before those around, and so the root last. Each node is
named by its path, identified by the hash of its block, is a directory with a link for every entry in
order, leaves as they were put and directories as the nodes given for them, and its total is the
length of its block plus the totals of its entries. -/
theorem C12_nodes (hH : ∀ b, (H b).length = 32) (opts : TreeOpts) (ops : List DirOp)
    (hops : ∀ op ∈ ops, OpFits op) (hfit : TotalsFit H (builderAfter opts ops)) {out : List TreeNode}
    (hrun : (builderAfter opts ops).build.run H = (out, .done)) :
    ∃ (qs : List (List Bytes)) (node : List Bytes → TreeNode),
      qs.Nodup ∧ qs.Pairwise (fun a b => ¬ a <+: b) ∧
      (∀ q, q ∈ qs ↔ entryAt (builderAfter opts ops).root q = some .dir ∧ (opts.wrapWithDirectory = true ∨ q ≠ [])) ∧
      out = qs.map node ∧
      ∀ q ∈ qs, NodeFor H (entryAt (builderAfter opts ops).root) node q (node q) := by
  have hg := builderAfter_good (opts := opts) hops
  have ho := (builderAfter_sound opts ops).2
  have hfit' := hfit
  unfold TotalsFit at hfit'
  rw [ho] at hfit'
  rw [run_eq hH hops hfit] at hrun
  refine ⟨treeDirs opts.wrapWithDirectory (builderAfter opts ops).root,
    fun q => dirNode H (joinSlash q) (linksAt H (builderAfter opts ops).root q),
    (treeDirs_order hg _).1, (treeDirs_order hg _).2, mem_treeDirs hg _, ?_, ?_⟩
  · rw [← treeEmits_eq hg]
    rcases emitThen_cases opts.blockSizeLimit (treeEmits H opts.wrapWithDirectory (builderAfter opts ops).root) with
      ⟨h1, _⟩ | ⟨a, n, b, _, h2, _⟩
    · rw [h1] at hrun; cases hrun; rfl
    · rw [h2] at hrun; cases hrun
  · intro q hq
    exact nodeFor hH hg hfit' ((mem_treeDirs hg _ q).mp hq).1

/-- C12. When wrapping, the root is given last. -/
theorem C12_root_last (hH : ∀ b, (H b).length = 32) (opts : TreeOpts) (ops : List DirOp)
    (hops : ∀ op ∈ ops, OpFits op) (hfit : TotalsFit H (builderAfter opts ops)) {out : List TreeNode}
    (hw : opts.wrapWithDirectory = true)
    (hrun : (builderAfter opts ops).build.run H = (out, .done)) :
    ∃ front root, out = front ++ [root] ∧ root.path = [] ∧
      ∀ name k, entryAt (builderAfter opts ops).root [name] = some k →
        ∃ links, Flat.parse root.block = .ok { links, data := { type := .directory } } ∧
          ∃ l ∈ links, l.name = some name := by
  have hg := builderAfter_good (opts := opts) hops
  have ho := (builderAfter_sound opts ops).2
  have hfit' := hfit
  unfold TotalsFit at hfit'
  rw [ho] at hfit'
  rw [run_eq hH hops hfit] at hrun
  rcases emitThen_cases opts.blockSizeLimit (treeEmits H opts.wrapWithDirectory (builderAfter opts ops).root) with
      ⟨h1, _⟩ | ⟨a, n, b, _, h2, _⟩
  · rw [h1] at hrun
    cases hrun
    refine ⟨nodesEmit H [] (builderAfter opts ops).root.nodes,
      dirNode H [] (nodeLinks H (builderAfter opts ops).root.nodes), ?_, rfl, ?_⟩
    · unfold treeEmits; rw [hw]; rfl
    · intro name k hk
      obtain ⟨links, h1, _, h3, _⟩ := (nodeFor hH hg hfit' (q := []) rfl).links
      exact ⟨links, h1, _, (h3 _).mpr ⟨name, k, hk, rfl⟩, by cases k <;> rfl⟩
  · rw [h2] at hrun; cases hrun

/-- C14. No block larger than the limit is given. -/
theorem C14_limit (hH : ∀ b, (H b).length = 32) (opts : TreeOpts) (ops : List DirOp)
    (hops : ∀ op ∈ ops, OpFits op) (hfit : TotalsFit H (builderAfter opts ops)) {limit : Nat}
    (hl : opts.blockSizeLimit = some limit) :
    ∀ n ∈ ((builderAfter opts ops).build.run H).1, n.block.length ≤ limit := by
  rw [run_eq hH hops hfit]
  intro n hn
  have : tooLarge opts.blockSizeLimit n.block.length = false := by
    rcases emitThen_cases opts.blockSizeLimit (treeEmits H opts.wrapWithDirectory (builderAfter opts ops).root) with
      ⟨h1, h2⟩ | ⟨a, n', b, _, h2, _, h4⟩
    · rw [h1] at hn; exact h2 n hn
    · rw [h2] at hn; exact h4 n hn
  rw [hl] at this
  simpa [tooLarge] using this

/-- C14. A run stops early only at a directory whose block is too large; the error has the size of that
block, all nodes before it were given, and a run without such a directory gives all nodes. -/
theorem C14_too_large (hH : ∀ b, (H b).length = 32) (opts : TreeOpts) (ops : List DirOp)
    (hops : ∀ op ∈ ops, OpFits op) (hfit : TotalsFit H (builderAfter opts ops)) :
    let all := treeEmits H opts.wrapWithDirectory (builderAfter opts ops).root
    let run := (builderAfter opts ops).build.run H
    (run = (all, .done) ∧ ∀ n ∈ all, ∀ limit, opts.blockSizeLimit = some limit → n.block.length ≤ limit) ∨
    ∃ before n after limit, all = before ++ n :: after ∧ opts.blockSizeLimit = some limit ∧
      limit < n.block.length ∧ run = (before, .failed (.tooLargeBlock n.block.length)) := by
  simp only
  rw [run_eq hH hops hfit]
  rcases emitThen_cases opts.blockSizeLimit (treeEmits H opts.wrapWithDirectory (builderAfter opts ops).root) with
    ⟨h1, h2⟩ | ⟨a, n, b, h1, h2, h3, h4⟩
  · refine Or.inl ⟨h1, fun n hn limit hl => ?_⟩
    have := h2 n hn
    rw [hl] at this
    simpa [tooLarge] using this
  · obtain ⟨l, hl, hlt⟩ := tooLarge_iff.mp h3
    exact Or.inr ⟨a, n, b, l, h1, hl, hlt, h2⟩

/-- C14. The size computed before writing is the length of what is written. -/
theorem C14_size {ls : List NamedLeaf} (h : ∀ l ∈ ls, l.Ok) :
    customSize ls { type := .directory } = (customWrite ls { type := .directory }).length := by
  rw [customSize_eq h, customWrite_eq h]

/-- The example of this file: `a/b`, `a/c/d` and `e` under a wrapped root. -/
def exDirOps : List DirOp :=
  [.put "a/b".toUTF8.toList (Cid.v0 (List.replicate 32 1)) 10,
   .put "a/c/d".toUTF8.toList (Cid.v0 (List.replicate 32 2)) 20,
   .put "e".toUTF8.toList (Cid.v0 (List.replicate 32 3)) 30]

/-- A hash for the example: the number of the bytes and their sum. -/
def exDirHash (b : Bytes) : Bytes :=
  List.replicate 30 0 ++ [UInt8.ofNat b.length, UInt8.ofNat (b.foldl (fun n c => n + c.toNat) 0)]

theorem exDirOps_fit : ∀ op ∈ exDirOps, OpFits op := by
  intro op h
  simp only [exDirOps, List.mem_cons, List.not_mem_nil, or_false] at h
  have hv : ∀ x : UInt8, (Cid.v0 (List.replicate 32 x)).Valid ∧ (Cid.v0 (List.replicate 32 x)).toBytes.length < 2 ^ 30 := by
    intro x
    refine ⟨Cid.v0_valid _ (by simp), ?_⟩
    simp [Cid.v0, Cid.toBytes, mhBytes, mhSha256, writeVarint_small]
  rcases h with rfl | rfl | rfl <;>
    exact ⟨by decide +kernel, by decide +kernel, by intro p c n h; cases h; exact ⟨(hv _).1, (hv _).2, by decide⟩⟩

/-- It satisfies the hypotheses of the theorems above and has three directories. -/
example :
    (∀ b, (exDirHash b).length = 32) ∧ (∀ op ∈ exDirOps, OpFits op) ∧
    TotalsFit exDirHash (builderAfter { wrapWithDirectory := true } exDirOps) ∧
    ((treeEmits exDirHash true (builderAfter { wrapWithDirectory := true } exDirOps).root).map TreeNode.path =
      ["a/c".toUTF8.toList, "a".toUTF8.toList, []]) ∧
    (builderAfter { wrapWithDirectory := true } exDirOps).build.run exDirHash =
      (treeEmits exDirHash true (builderAfter { wrapWithDirectory := true } exDirOps).root, .done) := by
  have hH : ∀ b, (exDirHash b).length = 32 := by intro b; simp [exDirHash]
  have hfit : TotalsFit exDirHash (builderAfter { wrapWithDirectory := true } exDirOps) := by
    unfold TotalsFit; decide +kernel
  refine ⟨hH, exDirOps_fit, hfit, by decide +kernel, ?_⟩
  rcases C14_too_large hH { wrapWithDirectory := true } exDirOps exDirOps_fit hfit with h | ⟨a, n, b, l, h1, h2, h3, _⟩
  · exact h.1
  · exfalso
    have : ∀ n ∈ treeEmits exDirHash true (builderAfter { wrapWithDirectory := true } exDirOps).root,
        n.block.length ≤ 512 * 1024 := by decide +kernel
    have h4 := this n (by rw [h1]; simp)
    cases h2
    omega

/-- A block with a limit of 60 bytes: `a/c` fits, `a` does not. -/
example :
    (builderAfter { wrapWithDirectory := true, blockSizeLimit := some 60 } exDirOps).build.run exDirHash =
      ((treeEmits exDirHash true (builderAfter { wrapWithDirectory := true } exDirOps).root).take 1,
        .failed (.tooLargeBlock 90)) := by
  rw [run_eq (by intro b; simp [exDirHash]) exDirOps_fit (by unfold TotalsFit; decide +kernel)]
  decide +kernel

/-- `TreeIter.run` for at most so many rounds. -/
def runRounds (H : Bytes → Bytes) : Nat → TreeIter → Option (List TreeNode × BuildEnd)
  | 0, _ => none
  | n + 1, it =>
    if it.pending.isEmpty then some ([], .done)
    else
      match it.round H with
      | .next it => runRounds H n it
      | .emit x it => (runRounds H n it).map (fun r => (x :: r.1, r.2))
      | .stop _ => some ([], .done)
      | .fail e _ => some ([], .failed e)

theorem runRounds_eq {H : Bytes → Bytes} {n : Nat} {it : TreeIter} {r : List TreeNode × BuildEnd}
    (h : runRounds H n it = some r) : it.run H = r := by
  induction n generalizing it r with
  | zero => cases h
  | succ n ih =>
    rw [runRounds] at h
    by_cases hp : it.pending = []
    · rw [if_pos (by simp [hp])] at h
      cases h
      exact run_nil hp
    · rw [if_neg (by simp [hp])] at h
      split at h
      · rename_i it' hr; rw [run_next hp hr]; exact ih h
      · rename_i x it' hr
        rw [run_emit hp hr]
        cases hq : runRounds H n it' with
        | none => rw [hq] at h; cases h
        | some q => rw [hq] at h; cases h; rw [ih hq]
      · rename_i it' hr; rw [run_stop hp hr]; cases h; rfl
      · rename_i e it' hr; rw [run_fail hp hr]; cases h; rfl

/-- The totals are added as 64-bit numbers: with checks for overflow the code panics, without them the
total is too small. -/
theorem C12_overflow :
    let ops : List DirOp := [.put [97] (Cid.v0 (List.replicate 32 1)) (2 ^ 63),
      .put [98] (Cid.v0 (List.replicate 32 2)) (2 ^ 63)]
    (builderAfter { wrapWithDirectory := true } ops).build.run exDirHash = ([], .failed .panic) ∧
      ∃ n, (builderAfter { wrapWithDirectory := true, debug := false } ops).build.run exDirHash = ([n], .done) ∧
        n.total = n.block.length := by
  refine ⟨runRounds_eq (n := 4) (by decide +kernel), ?_⟩
  cases hq : runRounds exDirHash 4 (builderAfter { wrapWithDirectory := true, debug := false }
      [.put [97] (Cid.v0 (List.replicate 32 1)) (2 ^ 63), .put [98] (Cid.v0 (List.replicate 32 2)) (2 ^ 63)]).build with
  | none => exact absurd hq (by decide +kernel)
  | some r =>
    have h : (runRounds exDirHash 4 (builderAfter { wrapWithDirectory := true, debug := false }
      [.put [97] (Cid.v0 (List.replicate 32 1)) (2 ^ 63), .put [98] (Cid.v0 (List.replicate 32 2)) (2 ^ 63)]).build).map
      (fun r => (r.1.map (fun n => decide (n.total = n.block.length)), r.2)) = some ([true], .done) := by
      decide +kernel
    rw [hq] at h
    obtain ⟨ns, e⟩ := r
    simp only [Option.map_some, Option.some.injEq, Prod.mk.injEq] at h
    obtain ⟨h1, rfl⟩ := h
    cases ns with
    | nil => cases h1
    | cons n ns =>
      cases ns with
      | nil => exact ⟨n, runRounds_eq hq, by simpa using h1⟩
      | cons _ _ => simp at h1

theorem mapped_none {ls : List (Option NamedLeaf)} (h : none ∈ ls) : mapped ls = none := by
  induction ls with
  | nil => cases h
  | cons x ls ih =>
    cases x with
    | none => rfl
    | some l =>
      simp only [List.mem_cons, reduceCtorEq, false_or] at h
      simp [mapped, ih h]

/-- C14. A directory below which one was not given is not given: the code panics there, whatever the limit. -/
theorem C14_unfilled (H : Bytes → Bytes) (it : TreeIter) (leaves : LeafStorage) {ls : List (Option NamedLeaf)}
    {rest : AMap Nat (List (Option NamedLeaf))} (h : leaves.intoInner it.persisted = some (ls, rest)) (hn : none ∈ ls) :
    (∀ parentId depth name index, it.visit H (.post parentId depth name index leaves) = .fail .panic { it with persisted := rest }) ∧
    (it.opts.wrapWithDirectory = true → it.visit H (.postRoot leaves) = .fail .panic { it with persisted := rest }) := by
  have hr : renderDirectory H it.opts ls it.buffer = .error .panic := by simp [renderDirectory, mapped_none hn]
  constructor
  · intro parentId depth name index
    simp [TreeIter.visit, h, hr]
  · intro hw
    simp [TreeIter.visit, h, hr, hw]

/-- What comes of calling `next` again and again, for at most so many rounds, also after errors. -/
def goOn (H : Bytes → Bytes) : Nat → TreeIter → List (Except BuildErr TreeNode)
  | 0, _ => []
  | n + 1, it =>
    if it.pending.isEmpty then []
    else
      match it.round H with
      | .next it => goOn H n it
      | .emit x it => .ok x :: goOn H n it
      | .stop _ => []
      | .fail e it => .error e :: goOn H n it

/-- C14. Who goes on after the error for a block that is too large makes the code panic: `a/c` is given, `a` is too large, and the root lacks it. -/
theorem C14_go_on :
    (goOn exDirHash 9 (builderAfter { wrapWithDirectory := true, blockSizeLimit := some 60 } exDirOps).build).map
        (fun r => match r with | .ok n => Except.ok n.path | .error e => Except.error e) =
      [Except.ok "a/c".toUTF8.toList, Except.error (.tooLargeBlock 90), Except.error .panic] := by decide +kernel

end Verif.Props
