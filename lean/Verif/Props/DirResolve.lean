import Verif.Props.DirOrder

/-!
# C10: paths resolve in the blocks of the tree to what was inserted
-/

namespace Verif.Props

open Verif Verif.Unixfs

/-! ### Specification -/

/-- How following a path ends. -/
inductive Followed where
  | reached (c : Cid)
  | noSuchName
  /-- a block is missing, or resolving a name in it failed or asked for more blocks -/
  | stuck
deriving DecidableEq, Repr

/-- Following a path, one segment after the other, by resolving names in blocks. -/
def followNames (fetch : Cid → Option Bytes) : Cid → List Bytes → Followed
  | c, [] => .reached c
  | c, name :: rest =>
    match fetch c with
    | none => .stuck
    | some block =>
      match dirResolve block name with
      | .ok (.found c') => followNames fetch c' rest
      | .ok .notFound => .noSuchName
      | _ => .stuck

/-- The blocks can be loaded. -/
def Serves (fetch : Cid → Option Bytes) (out : List TreeNode) : Prop := ∀ n ∈ out, fetch n.cid = some n.block

/-! ### Helpers -/

theorem matching_none {needle : Bytes} {links : List PBLink} (h : ∀ l ∈ links, l.nameOr ≠ needle) :
    matching needle links = [] := by
  unfold matching
  rw [List.filter_eq_nil_iff]
  intro l hl
  simpa using h l hl

theorem matching_one {links : List PBLink}
    (hs : links.Pairwise (fun a b => blt a.nameOr b.nameOr = true)) {l : PBLink} (hl : l ∈ links) :
    matching l.nameOr links = [l] := by
  induction links with
  | nil => cases hl
  | cons x xs ih =>
    obtain ⟨h1, h2⟩ := List.pairwise_cons.mp hs
    rcases List.mem_cons.mp hl with rfl | hl
    · have : matching l.nameOr xs = [] := matching_none fun y hy => (blt_ne (h1 y hy)).symm
      unfold matching at this ⊢
      rw [List.filter_cons_of_pos (by simp), this]
    · have hx : x.nameOr ≠ l.nameOr := blt_ne (h1 l hl)
      have := ih h2 hl
      unfold matching at this ⊢
      rw [List.filter_cons_of_neg (by simpa using hx), this]

theorem linkFor_name (out : List Bytes → TreeNode) (q : List Bytes) (name : Bytes) (k : Kind) :
    (linkFor out q name k).nameOr = name := by cases k <;> rfl

/-- Where the entry of a directory leads. -/
def kindCid (out : List Bytes → TreeNode) (q : List Bytes) : Kind → Cid
  | .leaf l => l.link
  | .dir => (out q).cid

theorem resolve_node {H : Bytes → Bytes} {A : List Bytes → Option Kind}
    {out : List Bytes → TreeNode} {q : List Bytes} (hn : NodeFor H A out q (out q)) {name : Bytes}
    (hv : ∀ k, A (q ++ [name]) = some k → (kindCid out (q ++ [name]) k).Valid) :
    dirResolve (out q).block name =
      match A (q ++ [name]) with
      | none => .ok .notFound
      | some k => .ok (.found (kindCid out (q ++ [name]) k)) := by
  obtain ⟨links, hp, hs, hm, _⟩ := hn.links
  unfold dirResolve
  rw [hp]
  simp only [reduceCtorEq, if_false, if_true]
  have hsup : dirSupported { type := .directory } = true := rfl
  rw [if_pos hsup]
  unfold resolveLinks
  cases hA : A (q ++ [name]) with
  | none =>
    have : matching name links = [] := by
      refine matching_none fun l hl he => ?_
      obtain ⟨name', k, hk, rfl⟩ := (hm l).mp hl
      rw [linkFor_name] at he
      rw [he, hA] at hk
      cases hk
    rw [this]
  | some k =>
    have h1 := matching_one hs ((hm (linkFor out q name k)).mpr ⟨name, k, hA, rfl⟩)
    rw [linkFor_name] at h1
    rw [h1]
    have hcid : (linkFor out q name k).cid = some (kindCid out (q ++ [name]) k) := by
      have hv := hv k hA
      cases k with
      | leaf l => exact Cid.ofBytes_toBytes _ hv
      | dir => exact Cid.ofBytes_toBytes _ hv
    simp only [hcid]

section
variable {H : Bytes → Bytes} {A : List Bytes → Option Kind} {out : List Bytes → TreeNode}
  {fetch : Cid → Option Bytes}

theorem kindCid_valid {opts : TreeOpts} {ops : List DirOp} (hops : ∀ op ∈ ops, OpFits op)
    (hH : ∀ b, (H b).length = 32)
    (hnode : ∀ q, entryAt (builderAfter opts ops).root q = some .dir → q ≠ [] → (out q).cid = Cid.v0 (H (out q).block))
    (q : List Bytes) (hq : q ≠ []) (k : Kind) (h : entryAt (builderAfter opts ops).root q = some k) :
    (kindCid out q k).Valid := by
  cases k with
  | dir =>
    show (out q).cid.Valid
    rw [hnode q h hq]
    exact Cid.v0_valid _ (hH _)
  | leaf l =>
    obtain ⟨op, ho, _, hk⟩ := ((C11_tree opts ops q).1 l).mp h
    have ho := mem_acceptedOps ho
    cases op with
    | put p c n => cases hk; exact ((hops _ ho).leaf p c n rfl).1
    | attrs p m => cases hk

/-- Following within the tree. -/
theorem follow_tree
    (hnode : ∀ q, A q = some .dir → q ≠ [] → NodeFor H A out q (out q) ∧ fetch (out q).cid = some (out q).block)
    (hv : ∀ q k, q ≠ [] → A q = some k → (kindCid out q k).Valid)
    (hup : ∀ q r, r ≠ [] → A (q ++ r) ≠ none → A q = some .dir)
    (r : List Bytes) : ∀ q, NodeFor H A out q (out q) → fetch (out q).cid = some (out q).block →
    (∀ k, A (q ++ r) = some k → (k = .dir ∨ r ≠ []) → followNames fetch (out q).cid r = .reached (kindCid out (q ++ r) k)) ∧
    (∀ name, A (q ++ r) = some .dir → A (q ++ r ++ [name]) = none →
      followNames fetch (out q).cid (r ++ [name]) = .noSuchName) := by
  induction r with
  | nil =>
    intro q hq hf
    refine ⟨fun k hk hr => ?_, fun name hd hn => ?_⟩
    · rcases hr with rfl | hr
      · simp [followNames, kindCid]
      · exact absurd rfl hr
    · have h1 := resolve_node (name := name) hq (fun k hk => hv _ k (by simp) hk)
      rw [List.append_nil] at hn
      rw [hn] at h1
      simp [followNames, hf, h1]
  | cons x r ih =>
    intro q hq hf
    have h1 := resolve_node (name := x) hq (fun k hk => hv _ k (by simp) hk)
    have hqx : q ++ x :: r = (q ++ [x]) ++ r := by simp
    have hqr : ∀ t, q ++ x :: t = (q ++ [x]) ++ t := by simp
    have hstep : A (q ++ [x]) = some .dir → ∀ t, followNames fetch (out q).cid (x :: t) = followNames fetch (out (q ++ [x])).cid t := by
      intro hd t
      rw [hd] at h1
      simp [followNames, hf, h1, kindCid]
    refine ⟨fun k hk _ => ?_, fun name hd hn => ?_⟩
    · rw [hqr] at hk ⊢
      by_cases hr : r = []
      · subst hr
        rw [List.append_nil] at hk ⊢
        rw [hk] at h1
        simp [followNames, hf, h1]
      · have hd : A (q ++ [x]) = some .dir := hup _ r hr (by rw [hk]; simp)
        obtain ⟨n1, n2⟩ := hnode _ hd (by simp)
        rw [hstep hd]
        exact (ih _ n1 n2).1 k hk (Or.inr hr)
    · have hd0 : A (q ++ [x]) = some .dir := by
        by_cases hr : r = []
        · subst hr; exact hd
        · exact hup _ r hr (by rw [hqr] at hd; rw [hd]; simp)
      obtain ⟨n1, n2⟩ := hnode _ hd0 (by simp)
      rw [List.cons_append, hstep hd0]
      rw [hqr] at hd hn
      exact (ih _ n1 n2).2 name hd hn

end

/-- Above an entry there are directories. -/
theorem above_dir {d : DirBuilder} {q r : List Bytes} (hr : r ≠ []) (h : entryAt d (q ++ r) ≠ none) :
    entryAt d q = some .dir := by
  induction q generalizing d with
  | nil => rw [entryAt]
  | cons k q ih =>
    rw [List.cons_append, entryAt] at h
    rw [entryAt]
    cases hg : AMap.get d.nodes k with
    | none => rw [hg] at h; exact absurd rfl h
    | some e =>
      rw [hg] at h
      cases e with
      | leaf l =>
        simp only at h
        rw [if_neg (by simp [hr])] at h
        exact absurd rfl h
      | directory c => exact ih h

/-! ### Theorems -/

section
variable {H : Bytes → Bytes}

/-- Where to start: what is given last is the root, or without wrapping the only directory in it. -/
theorem start_node (hH : ∀ b, (H b).length = 32) (opts : TreeOpts) (ops : List DirOp)
    (hops : ∀ op ∈ ops, OpFits op) (hfit : TotalsFit H (builderAfter opts ops)) {out : List TreeNode}
    (hrun : (builderAfter opts ops).build.run H = (out, .done)) {fetch : Cid → Option Bytes}
    (hs : Serves fetch out) :
    ∃ node : List Bytes → TreeNode,
      (∀ q, entryAt (builderAfter opts ops).root q = some .dir → (opts.wrapWithDirectory = true ∨ q ≠ []) →
        NodeFor H (entryAt (builderAfter opts ops).root) node q (node q) ∧ node q ∈ out ∧
          fetch (node q).cid = some (node q).block) ∧
      (∀ front root, out = front ++ [root] → opts.wrapWithDirectory = true → root = node []) ∧
      (∀ front root, out = front ++ [root] → opts.wrapWithDirectory = false →
        ∃ name, root = node [name] ∧ entryAt (builderAfter opts ops).root [name] = some .dir) := by
  obtain ⟨qs, node, hnd, hord, hmem, hout, hnode⟩ := C12_nodes hH opts ops hops hfit hrun
  have hin : ∀ q ∈ qs, node q ∈ out := fun q hq => by rw [hout]; exact List.mem_map_of_mem hq
  refine ⟨node, fun q hd hw => ?_, fun front root ho hw => ?_, fun front root ho hw => ?_⟩
  · have hq := (hmem q).mpr ⟨hd, hw⟩
    exact ⟨hnode q hq, hin q hq, hs _ (hin q hq)⟩
  · have hq : ([] : List Bytes) ∈ qs := (hmem []).mpr ⟨by rw [entryAt], Or.inl hw⟩
    obtain ⟨a, b, hab⟩ := List.append_of_mem hq
    rw [hab] at hord hout
    obtain ⟨_, h2, _⟩ := List.pairwise_append.mp hord
    have hb : b = [] := by
      cases b with
      | nil => rfl
      | cons y b =>
        exact absurd (List.nil_prefix) ((List.pairwise_cons.mp h2).1 y List.mem_cons_self)
    subst hb
    rw [List.map_append, ho] at hout
    exact (List.append_inj' hout rfl).2 |> fun h => by simpa using h
  · cases hqs : qs with
    | nil => rw [hqs] at hout; rw [ho] at hout; simp at hout
    | cons q0 qs0 =>
      have hne : qs ≠ [] := by rw [hqs]; simp
      have hl := List.dropLast_concat_getLast hne
      generalize hqa : qs.getLast hne = q at hl
      have hqm : q ∈ qs := by rw [← hl]; simp
      have hroot : root = node q := by
        rw [ho, ← hl, List.map_append] at hout
        exact (List.append_inj' hout rfl).2 |> fun h => by simpa using h
      obtain ⟨hd, hq⟩ := (hmem q).mp hqm
      rcases hq with hq | hq
      · rw [hw] at hq; cases hq
      · cases q with
        | nil => exact absurd rfl hq
        | cons name q =>
          by_cases hq0 : q = []
          · subst hq0; exact ⟨name, hroot, hd⟩
          · exfalso
            have hd1 : entryAt (builderAfter opts ops).root [name] = some .dir :=
              above_dir (q := [name]) hq0 (by rw [List.singleton_append, hd]; simp)
            have hm1 : [name] ∈ qs := (hmem _).mpr ⟨hd1, Or.inr (by simp)⟩
            rw [← hl] at hm1 hord
            rcases List.mem_append.mp hm1 with hm1 | hm1
            · exact (List.pairwise_append.mp hord).2.2 _ hm1 _ (by simp) ⟨q, rfl⟩
            · rw [List.mem_singleton] at hm1; cases hm1; exact hq0 rfl

/-- C10. Following an inserted path from the root reaches what was inserted. -/
theorem C10_found (hH : ∀ b, (H b).length = 32) (opts : TreeOpts) (ops : List DirOp)
    (hops : ∀ op ∈ ops, OpFits op) (hfit : TotalsFit H (builderAfter opts ops)) {front : List TreeNode}
    {root : TreeNode} (hw : opts.wrapWithDirectory = true)
    (hrun : (builderAfter opts ops).build.run H = (front ++ [root], .done)) {fetch : Cid → Option Bytes}
    (hs : Serves fetch (front ++ [root])) {p : Bytes} {c : Cid} {n : Nat}
    (hp : .put p c n ∈ acceptedOps (Builder.new opts) ops) :
    followNames fetch root.cid (splitSlash p) = .reached c := by
  obtain ⟨node, hnode, hroot, _⟩ := start_node hH opts ops hops hfit hrun hs
  rw [hroot _ _ rfl hw]
  obtain ⟨n1, _, n2⟩ := hnode [] (by rw [entryAt]) (Or.inl hw)
  have hA := ((C11_tree opts ops (splitSlash p)).1 ⟨c, n⟩).mpr ⟨_, hp, rfl, rfl⟩
  exact (follow_tree (fun q hd _ => ⟨(hnode q hd (Or.inl hw)).1, (hnode q hd (Or.inl hw)).2.2⟩)
    (fun q k hq hk => kindCid_valid hops hH (fun q hd _ => (hnode q hd (Or.inl hw)).1.cid) q hq k hk)
    (fun q r => above_dir) _ [] n1 n2).1 _ hA (Or.inr (splitSlash_ne_nil p))

/-- C10. A name that was not inserted into a directory of the tree is not found. -/
theorem C10_not_found (hH : ∀ b, (H b).length = 32) (opts : TreeOpts) (ops : List DirOp)
    (hops : ∀ op ∈ ops, OpFits op) (hfit : TotalsFit H (builderAfter opts ops)) {front : List TreeNode}
    {root : TreeNode} (hw : opts.wrapWithDirectory = true)
    (hrun : (builderAfter opts ops).build.run H = (front ++ [root], .done)) {fetch : Cid → Option Bytes}
    (hs : Serves fetch (front ++ [root])) {q : List Bytes} {name : Bytes}
    (hq : q = [] ∨ ∃ op ∈ acceptedOps (Builder.new opts) ops, q <+: splitSlash op.path ∧ q ≠ splitSlash op.path)
    (hname : ∀ op ∈ acceptedOps (Builder.new opts) ops, ¬ q ++ [name] <+: splitSlash op.path) :
    followNames fetch root.cid (q ++ [name]) = .noSuchName := by
  obtain ⟨node, hnode, hroot, _⟩ := start_node hH opts ops hops hfit hrun hs
  rw [hroot _ _ rfl hw]
  obtain ⟨n1, _, n2⟩ := hnode [] (by rw [entryAt]) (Or.inl hw)
  have hd : entryAt (builderAfter opts ops).root q = some .dir := by
    refine (C11_tree opts ops q).2.mpr ?_
    rcases hq with hq | ⟨op, ho, h⟩
    · exact Or.inl hq
    · exact Or.inr ⟨op, ho, Or.inl h⟩
  have hA : entryAt (builderAfter opts ops).root (q ++ [name]) = none := by
    obtain ⟨t1, t2⟩ := C11_tree opts ops (q ++ [name])
    cases hk : entryAt (builderAfter opts ops).root (q ++ [name]) with
    | none => rfl
    | some k =>
      exfalso
      cases k with
      | leaf l =>
        obtain ⟨op, ho, h, _⟩ := (t1 l).mp hk
        exact hname op ho (h ▸ List.prefix_refl _)
      | dir =>
        rcases t2.mp hk with h | ⟨op, ho, ⟨h, _⟩ | ⟨h, _⟩⟩
        · simp at h
        · exact hname op ho h
        · exact hname op ho (h ▸ List.prefix_refl _)
  exact (follow_tree (fun q hd _ => ⟨(hnode q hd (Or.inl hw)).1, (hnode q hd (Or.inl hw)).2.2⟩)
    (fun q k hq hk => kindCid_valid hops hH (fun q hd _ => (hnode q hd (Or.inl hw)).1.cid) q hq k hk)
    (fun q r => above_dir) q [] n1 n2).2 name hd hA

/-- C10. Without a wrapping directory the last node is the directory all paths begin with; following
the rest of a path from there reaches what was inserted. -/
theorem C10_unwrapped (hH : ∀ b, (H b).length = 32) (opts : TreeOpts) (ops : List DirOp)
    (hops : ∀ op ∈ ops, OpFits op) (hfit : TotalsFit H (builderAfter opts ops)) {front : List TreeNode}
    {root : TreeNode} (hw : opts.wrapWithDirectory = false)
    (hrun : (builderAfter opts ops).build.run H = (front ++ [root], .done)) {fetch : Cid → Option Bytes}
    (hs : Serves fetch (front ++ [root])) :
    ∃ top, (∀ p c n, .put p c n ∈ acceptedOps (Builder.new opts) ops →
        ∃ rest, splitSlash p = top :: rest ∧ followNames fetch root.cid rest = .reached c) ∧
      ∀ q name, (∃ op ∈ acceptedOps (Builder.new opts) ops, top :: q <+: splitSlash op.path ∧ top :: q ≠ splitSlash op.path) →
        (∀ op ∈ acceptedOps (Builder.new opts) ops, ¬ top :: q ++ [name] <+: splitSlash op.path) →
        followNames fetch root.cid (q ++ [name]) = .noSuchName := by
  obtain ⟨node, hnode, _, hroot⟩ := start_node hH opts ops hops hfit hrun hs
  obtain ⟨top, rfl, htop⟩ := hroot _ _ rfl hw
  obtain ⟨n1, _, n2⟩ := hnode [top] htop (Or.inr (by simp))
  have hfollow := follow_tree (fun q hd hq => ⟨(hnode q hd (Or.inr hq)).1, (hnode q hd (Or.inr hq)).2.2⟩)
    (fun q k hq hk => kindCid_valid hops hH (fun q hd hq => (hnode q hd (Or.inr hq)).1.cid) q hq k hk)
    (fun q r => above_dir (d := (builderAfter opts ops).root))
  refine ⟨top, fun p c n hp => ?_, fun q name hq hname => ?_⟩
  · have hA := ((C11_tree opts ops (splitSlash p)).1 ⟨c, n⟩).mpr ⟨_, hp, rfl, rfl⟩
    obtain ⟨name, rest, hsp⟩ := splitSlash_cons_ne p
    have hname : name = top := by
      have h1 : entryAt (builderAfter opts ops).root [name] ≠ none := by
        intro h0
        rw [hsp, entryAt_none h0 rest] at hA
        cases hA
      exact root_one hw ops name top h1 (by rw [htop]; simp)
    subst hname
    have hrest : rest ≠ [] := by
      rintro rfl
      rw [hsp, htop] at hA
      cases hA
    refine ⟨rest, hsp, ?_⟩
    rw [hsp] at hA
    exact (hfollow rest [name] n1 n2).1 _ hA (Or.inr hrest)
  · have hd : entryAt (builderAfter opts ops).root (top :: q) = some .dir := by
      obtain ⟨op, ho, h⟩ := hq
      exact (C11_tree opts ops _).2.mpr (Or.inr ⟨op, ho, Or.inl h⟩)
    have hA : entryAt (builderAfter opts ops).root (top :: q ++ [name]) = none := by
      obtain ⟨t1, t2⟩ := C11_tree opts ops (top :: q ++ [name])
      cases hk : entryAt (builderAfter opts ops).root (top :: q ++ [name]) with
      | none => rfl
      | some k =>
        exfalso
        cases k with
        | leaf l =>
          obtain ⟨op, ho, h, _⟩ := (t1 l).mp hk
          exact hname op ho (h ▸ List.prefix_refl _)
        | dir =>
          rcases t2.mp hk with h | ⟨op, ho, ⟨h, _⟩ | ⟨h, _⟩⟩
          · simp at h
          · exact hname op ho h
          · exact hname op ho (h ▸ List.prefix_refl _)
    exact (hfollow q [top] n1 n2).2 name hd hA

/-- C10. Without collisions the blocks that were given serve themselves. -/
theorem C10_serves {out : List TreeNode} (hcid : ∀ n ∈ out, n.cid = Cid.v0 (H n.block))
    (hinj : ∀ n ∈ out, ∀ m ∈ out, H n.block = H m.block → n.block = m.block) :
    Serves (fun c => (out.find? (fun n => n.cid = c)).map TreeNode.block) out := by
  intro n hn
  show (out.find? (fun m => m.cid = n.cid)).map TreeNode.block = some n.block
  cases hf : out.find? (fun m => m.cid = n.cid) with
  | none => exact absurd (List.find?_eq_none.mp hf n hn) (by simp)
  | some m =>
    have h1 := List.find?_some hf
    have h2 := List.mem_of_find?_eq_some hf
    have h1 : m.cid = n.cid := by simpa using h1
    rw [hcid m h2, hcid n hn] at h1
    have h3 : H m.block = H n.block := by simpa [Cid.v0] using h1
    simp [hinj m h2 n hn h3]

end

/-- The example of the builder: its blocks serve themselves, `a/c/d` leads to its leaf, `a/c` to the
first node, and `a/x` does not exist. -/
example :
    let out := treeEmits exDirHash true (builderAfter { wrapWithDirectory := true } exDirOps).root
    let fetch := fun c => (out.find? (fun n => n.cid = c)).map TreeNode.block
    (∀ n ∈ out, n.cid = Cid.v0 (exDirHash n.block)) ∧
    (∀ n ∈ out, ∀ m ∈ out, exDirHash n.block = exDirHash m.block → n.block = m.block) ∧
    (out.getLast?.map (fun r => followNames fetch r.cid (splitSlash "a/c/d".toUTF8.toList))) =
      some (.reached (Cid.v0 (List.replicate 32 2))) ∧
    (out.getLast?.map (fun r => followNames fetch r.cid (splitSlash "a/x".toUTF8.toList))) = some .noSuchName := by
  decide +kernel

end Verif.Props
