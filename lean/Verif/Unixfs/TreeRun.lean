import Verif.Unixfs.TreeSpec
import Verif.Unixfs.BuilderLemmas

/-!
# The iterator gives what the specification says
-/

namespace Verif.Unixfs

open Verif

/-- A leaf that can be linked. -/
structure LeafOk (l : Leaf) : Prop where
  cid : l.link.Valid
  short : l.link.toBytes.length < 2 ^ 30
  total : l.total < 2 ^ 64

/-- A name that can be linked. -/
structure NameOk (k : Bytes) : Prop where
  noSlash : NoSlash k
  short : k.length < 2 ^ 30
  utf8 : utf8Ok k = true

variable {H : Bytes → Bytes}

/-! ## The specification -/

theorem dirLinks_eq (d : DirBuilder) : dirLinks H d = nodeLinks H d.nodes := by
  obtain ⟨nodes, m, p, id⟩ := d; rw [dirLinks]

theorem dirEmits_eq (path : Bytes) (d : DirBuilder) :
    dirEmits H path d = nodesEmit H path d.nodes ++ [dirNode H path (nodeLinks H d.nodes)] := by
  obtain ⟨nodes, m, p, id⟩ := d; rw [dirEmits]

theorem nodeLinks_eq (es : List (Bytes × Entry)) : nodeLinks H es = es.map (nodeLink H) := by
  induction es with
  | nil => rw [nodeLinks]; rfl
  | cons e es ih => rw [nodeLinks, ih]; rfl

theorem nodeEmit_dir (path k : Bytes) (c : DirBuilder) :
    nodeEmit H path (k, .directory c) = dirEmits H (joinPath path k) c := by
  rw [nodeEmit, Entry.emits]

theorem nodeEmit_leaf (path k : Bytes) (l : Leaf) : nodeEmit H path (k, .leaf l) = [] := by
  rw [nodeEmit, Entry.emits]

theorem mem_nodesEmit {path : Bytes} {es : List (Bytes × Entry)} {n : TreeNode} :
    n ∈ nodesEmit H path es ↔ ∃ e ∈ es, n ∈ nodeEmit H path e := by
  induction es with
  | nil => rw [nodesEmit]; simp
  | cons e es ih =>
    rw [nodesEmit, List.mem_append, ih]
    constructor
    · rintro (⟨x, hx, h⟩ | h)
      · exact ⟨x, List.mem_cons_of_mem _ hx, h⟩
      · exact ⟨e, List.mem_cons_self, h⟩
    · rintro ⟨x, hx, h⟩
      rcases List.mem_cons.mp hx with rfl | hx
      · exact Or.inr h
      · exact Or.inl ⟨x, hx, h⟩

/-- Its own node is among those of a directory. -/
theorem dirNode_mem (path : Bytes) (d : DirBuilder) : dirNode H path (nodeLinks H d.nodes) ∈ dirEmits H path d := by
  rw [dirEmits_eq]; simp

theorem nodeLinks_ok (hH : ∀ b, (H b).length = 32) {n : Nat} {r : Bool} {d : DirBuilder}
    (hg : Good LeafOk NameOk n r d) {path : Bytes}
    (hfit : ∀ x ∈ nodesEmit H path d.nodes, x.total < 2 ^ 64) : ∀ l ∈ nodeLinks H d.nodes, l.Ok := by
  intro l hl
  rw [nodeLinks_eq] at hl
  obtain ⟨⟨k, e⟩, hmem, rfl⟩ := List.mem_map.mp hl
  have hk := hg.name _ _ hmem
  rw [nodeLink]
  cases e with
  | leaf l =>
    have h := hg.leaf _ _ hmem
    rw [Entry.link]
    exact ⟨h.cid, h.short, hk.short, hk.utf8, h.total⟩
  | directory c =>
    rw [Entry.link, dirLinks_eq]
    refine ⟨Cid.v0_valid _ (hH _), ?_, hk.short, hk.utf8, ?_⟩
    · simp only [dirLeaf, Cid.v0, Cid.toBytes, mhBytes, hH, mhSha256, writeVarint_small, List.length_append,
        show (18 : Nat) < 128 by decide, show (32 : Nat) < 128 by decide, List.length_singleton]
      decide
    · refine hfit (dirNode H (joinPath path k) (nodeLinks H c.nodes)) ?_
      exact mem_nodesEmit.mpr ⟨_, hmem, by rw [nodeEmit_dir]; exact dirNode_mem _ _⟩

/-! ## Single rounds -/

theorem run_next {it it' : TreeIter} (hne : it.pending ≠ []) (h : it.round H = .next it') :
    it.run H = it'.run H := by
  rw [TreeIter.run, dif_neg hne]
  split
  · rename_i hr; rw [h] at hr; cases hr; rfl
  · rename_i hr; rw [h] at hr; cases hr
  · rename_i hr; rw [h] at hr; cases hr
  · rename_i hr; rw [h] at hr; cases hr

theorem run_emit {it it' : TreeIter} {n : TreeNode} (hne : it.pending ≠ []) (h : it.round H = .emit n it') :
    it.run H = (n :: (it'.run H).1, (it'.run H).2) := by
  rw [TreeIter.run, dif_neg hne]
  split
  · rename_i hr; rw [h] at hr; cases hr
  · rename_i hr; rw [h] at hr; cases hr; rfl
  · rename_i hr; rw [h] at hr; cases hr
  · rename_i hr; rw [h] at hr; cases hr

theorem run_stop {it it' : TreeIter} (hne : it.pending ≠ []) (h : it.round H = .stop it') :
    it.run H = ([], .done) := by
  rw [TreeIter.run, dif_neg hne]
  split
  · rename_i hr; rw [h] at hr; cases hr
  · rename_i hr; rw [h] at hr; cases hr
  · rfl
  · rename_i hr; rw [h] at hr; cases hr

theorem run_fail {it it' : TreeIter} {e : BuildErr} (hne : it.pending ≠ []) (h : it.round H = .fail e it') :
    it.run H = ([], .failed e) := by
  rw [TreeIter.run, dif_neg hne]
  split
  · rename_i hr; rw [h] at hr; cases hr
  · rename_i hr; rw [h] at hr; cases hr
  · rename_i hr; rw [h] at hr; cases hr
  · rename_i hr; rw [h] at hr; cases hr; rfl

theorem run_nil {it : TreeIter} (h : it.pending = []) : it.run H = ([], .done) := by
  rw [TreeIter.run, dif_pos h]

/-! ## Children -/

theorem partition_leaves (path : Bytes) {depth i : Nat} {es : List (Bytes × Entry)}
    (h : (partitionChildren depth i es).2 = []) :
    (partitionChildren depth i es).1 = (nodeLinks H es).map some ∧ nodesEmit H path es = [] := by
  induction es generalizing i with
  | nil => rw [nodeLinks, nodesEmit]; exact ⟨rfl, rfl⟩
  | cons e es ih =>
    obtain ⟨k, e⟩ := e
    cases e with
    | directory c => simp [partitionChildren] at h
    | leaf l =>
      simp only [partitionChildren] at h ⊢
      obtain ⟨h1, h2⟩ := ih h
      rw [h1, nodeLinks, nodesEmit, h2, nodeEmit_leaf, nodeLink, Entry.link]
      exact ⟨rfl, rfl⟩

/-- Visiting a directory gives what it should, fills in its cell, and leaves alone what is kept for
directories with smaller ids. -/
def RunsDir (H : Bytes → Bytes) (d : DirBuilder) : Prop :=
  ∀ (it : TreeIter) (rest : List Visited) (path : Bytes) (depth : Nat) (name : Bytes) (idx p : Nat)
    (vec : List (Option NamedLeaf)),
    it.pending = .descent d name (depth + 1) idx :: rest → d.parentId = some p → p < d.id →
    AMap.get it.persisted p = some vec → vec[idx]? = some none →
    InPath path depth it.fullPath it.oldDepth → (depth ≠ 0 → path ≠ []) → (depth = 0 → path = []) →
    NoSlash name → (name = [] → d.nodes = []) →
    (∀ x ∈ dirEmits H (joinPath path name) d, x.total < 2 ^ 64) →
    ∃ it' : TreeIter,
      it.run H = emitThen it.opts.blockSizeLimit (dirEmits H (joinPath path name) d) (it'.run H) ∧
      it'.pending = rest ∧ it'.opts = it.opts ∧ InPath path depth it'.fullPath it'.oldDepth ∧
      AMap.get it'.persisted p = some (vec.set idx (some (nodeLink H (name, .directory d)))) ∧
      ∀ key < d.id, key ≠ p → AMap.get it'.persisted key = AMap.get it.persisted key

/-- Visiting the directories among some entries. -/
theorem runs_kids {es : List (Bytes × Entry)} (hes : ∀ k c, (k, Entry.directory c) ∈ es → RunsDir H c)
    {id : Nat} (hpar : ∀ k c, (k, Entry.directory c) ∈ es → c.parentId = some id ∧ id < c.id)
    (hname : ∀ k e, (k, e) ∈ es → NoSlash k)
    (hempty : ∀ k c, (k, Entry.directory c) ∈ es → k = [] → c.nodes = [])
    {path : Bytes} {depth : Nat} (h1 : depth ≠ 0 → path ≠ []) (h0 : depth = 0 → path = [])
    (it : TreeIter) (rest : List Visited) (i : Nat) (pre : List (Option NamedLeaf)) (hpre : pre.length = i)
    (hpend : it.pending = (partitionChildren depth i es).2.reverse ++ rest)
    (hget : AMap.get it.persisted id = some (pre ++ (partitionChildren depth i es).1))
    (hin : InPath path depth it.fullPath it.oldDepth)
    (hfit : ∀ x ∈ nodesEmit H path es, x.total < 2 ^ 64) :
    ∃ it' : TreeIter,
      it.run H = emitThen it.opts.blockSizeLimit (nodesEmit H path es) (it'.run H) ∧
      it'.pending = rest ∧ it'.opts = it.opts ∧ InPath path depth it'.fullPath it'.oldDepth ∧
      AMap.get it'.persisted id = some (pre ++ (nodeLinks H es).map some) ∧
      ∀ key < id, AMap.get it'.persisted key = AMap.get it.persisted key := by
  induction es generalizing it rest i pre with
  | nil =>
    refine ⟨it, ?_, by simpa [partitionChildren] using hpend, rfl, hin, ?_, fun _ _ => rfl⟩
    · rw [nodesEmit, emitThen]
    · rw [nodeLinks]; simpa [partitionChildren] using hget
  | cons e es ih =>
    obtain ⟨k, e⟩ := e
    have hes' : ∀ k c, (k, Entry.directory c) ∈ es → RunsDir H c := fun k c h => hes k c (List.mem_cons_of_mem _ h)
    have hpar' := fun k c h => hpar k c (List.mem_cons_of_mem _ h)
    have hname' := fun k e h => hname k e (List.mem_cons_of_mem _ h)
    have hempty' := fun k c h => hempty k c (List.mem_cons_of_mem _ h)
    rw [nodesEmit] at hfit ⊢
    have hfit' : ∀ x ∈ nodesEmit H path es, x.total < 2 ^ 64 := fun x hx => hfit x (List.mem_append_left _ hx)
    cases e with
    | leaf l =>
      simp only [partitionChildren] at hpend hget
      obtain ⟨it', a1, a2, a3, a4, a5, a6⟩ := ih hes' hpar' hname' hempty' it rest (i + 1)
        (pre ++ [some ⟨k, l.link, l.total⟩]) (by simp [hpre]) hpend (by simpa using hget) hin hfit'
      refine ⟨it', ?_, a2, a3, a4, ?_, a6⟩
      · rw [nodeEmit_leaf, List.append_nil]; exact a1
      · rw [a5, nodeLinks, nodeLink, Entry.link]; simp
    | directory c =>
      simp only [partitionChildren] at hpend hget
      obtain ⟨it1, a1, a2, a3, a4, a5, a6⟩ := ih hes' hpar' hname' hempty' it
        (.descent c k (depth + 1) i :: rest) (i + 1)
        (pre ++ [none]) (by simp [hpre]) (by simpa using hpend) (by simpa using hget) hin hfit'
      obtain ⟨hp, hlt⟩ := hpar k c (by simp)
      obtain ⟨it2, b1, b2, b3, b4, b5, b6⟩ := hes k c (by simp) it1 rest path depth k i id
        (pre ++ [none] ++ (nodeLinks H es).map some) a2 hp hlt a5
        (by subst hpre; simp) a4 h1 h0 (hname k (.directory c) (by simp)) (hempty k c (by simp))
        (by intro x hx; exact hfit x (List.mem_append_right _ (by rw [nodeEmit_dir]; exact hx)))
      refine ⟨it2, ?_, b2, by rw [b3, a3], b4, ?_, ?_⟩
      · rw [emitThen_append, a1, b1, nodeEmit_dir, a3]
      · rw [b5, nodeLinks]
        subst hpre
        simp
      · intro key hk
        rw [b6 key (by omega) (by omega), a6 key hk]

theorem tooLarge_emit {limit : Option Nat} {n : TreeNode} (k : List TreeNode × BuildEnd)
    (h : tooLarge limit n.block.length = true) :
    emitThen limit [n] k = ([], .failed (.tooLargeBlock n.block.length)) := by
  rw [emitThen, if_pos h]

theorem emit_one {limit : Option Nat} {n : TreeNode} (k : List TreeNode × BuildEnd)
    (h : ¬ tooLarge limit n.block.length = true) : emitThen limit [n] k = (n :: k.1, k.2) := by
  rw [emitThen, if_neg h]; rfl

/-- Every well-formed directory is visited as it should be. -/
theorem runs_dir (hH : ∀ b, (H b).length = 32) {n : Nat} {r : Bool} {d : DirBuilder}
    (hg : Good LeafOk NameOk n r d) : RunsDir H d := by
  induction hg with
  | @mk root d hid hsorted hname hnon hleaf hparent hlt hempty hchild ih =>
    have hgood : Good LeafOk NameOk n root d := .mk hid hsorted hname hnon hleaf hparent hlt hempty hchild
    intro it rest path depth name idx p vec hpend hpid hp hget hcell hin h1 h0 hns hne hfit
    rw [dirEmits_eq] at hfit ⊢
    have hfit' : ∀ x ∈ nodesEmit H (joinPath path name) d.nodes, x.total < 2 ^ 64 :=
      fun x hx => hfit x (List.mem_append_left _ hx)
    have hown : (dirLeaf H (nodeLinks H d.nodes)).total < 2 ^ 64 :=
      hfit (dirNode H (joinPath path name) (nodeLinks H d.nodes)) (by simp)
    have hok := nodeLinks_ok hH hgood hfit'
    -- the descent
    let it0 : TreeIter := { it with
      pending := (partitionChildren (depth + 1) 0 d.nodes).2.reverse ++ .post p (depth + 1) name idx
        (stash d.id (partitionChildren (depth + 1) 0 d.nodes).1 (partitionChildren (depth + 1) 0 d.nodes).2
          it.persisted).1 :: rest,
      persisted := (stash d.id (partitionChildren (depth + 1) 0 d.nodes).1
        (partitionChildren (depth + 1) 0 d.nodes).2 it.persisted).2,
      fullPath := joinPath path name, oldDepth := depth + 1 }
    have hrun0 : it.run H = it0.run H := by
      refine run_next (by rw [hpend]; simp) ?_
      unfold TreeIter.round
      rw [hpend]
      simp only [Visited.place, update_child hin h1 h0, TreeIter.visit, hpid]
      rfl
    -- coming back, with the links known
    have post : ∀ (it1 : TreeIter) (s : LeafStorage) (stash' : AMap Nat (List (Option NamedLeaf))),
        it1.pending = .post p (depth + 1) name idx s :: rest → it1.opts = it.opts →
        InPath (joinPath path name) (depth + 1) it1.fullPath it1.oldDepth →
        s.intoInner it1.persisted = some ((nodeLinks H d.nodes).map some, stash') →
        AMap.get stash' p = some vec →
        ∃ it' : TreeIter,
          it1.run H = emitThen it.opts.blockSizeLimit [dirNode H (joinPath path name) (nodeLinks H d.nodes)]
            (it'.run H) ∧
          it'.pending = rest ∧ it'.opts = it.opts ∧ InPath path depth it'.fullPath it'.oldDepth ∧
          AMap.get it'.persisted p = some (vec.set idx (some (nodeLink H (name, .directory d)))) ∧
          ∀ key, key ≠ p → AMap.get it'.persisted key = AMap.get stash' key := by
      intro it1 s stash' hp1 ho hin1 hinner hget1
      let it2 : TreeIter := { it1 with
        pending := rest, fullPath := joinPath path name, oldDepth := depth + 1,
        persisted := AMap.set stash' p (vec.set idx (some (nodeLink H (name, .directory d)))),
        buffer := dirBlock (nodeLinks H d.nodes), opts := it.opts }
      have hnl : nodeLink H (name, .directory d) = ⟨name, (dirLeaf H (nodeLinks H d.nodes)).link,
          (dirLeaf H (nodeLinks H d.nodes)).total⟩ := by
        rw [nodeLink, Entry.link, dirLinks_eq]
      refine ⟨it2, ?_, rfl, rfl, ?_, AMap.get_set_eq .., fun key hk => AMap.get_set_ne _ _ hk⟩
      · by_cases htl : tooLarge it.opts.blockSizeLimit (dirBlock (nodeLinks H d.nodes)).length = true
        · rw [tooLarge_emit _ htl]
          refine run_fail (it' := { it1 with pending := rest, fullPath := joinPath path name, oldDepth := depth + 1, persisted := stash', opts := it.opts }) (by rw [hp1]; simp) ?_
          unfold TreeIter.round
          rw [hp1]
          simp only [Visited.place, update_post hns hin1 h1 h0, TreeIter.visit, hinner, render_eq hok hown, ho, htl,
            if_true]
          rfl
        · rw [emit_one _ htl]
          refine run_emit (by rw [hp1]; simp) ?_
          unfold TreeIter.round
          rw [hp1]
          simp only [Visited.place, update_post hns hin1 h1 h0, TreeIter.visit, hinner, render_eq hok hown, ho, htl,
            if_false, fillCell, hget1, hcell, Bool.false_eq_true]
          rw [← hnl]
          rfl
      · exact Or.inr ⟨by rcases Nat.eq_zero_or_pos depth with h | h; exact Or.inr h; exact Or.inl (h1 (by omega)),
          name, hns, rfl, rfl⟩
    rw [hrun0]
    by_cases hnil : (partitionChildren (depth + 1) 0 d.nodes).2 = []
    · obtain ⟨q1, q2⟩ := partition_leaves (H := H) (joinPath path name) hnil
      rw [q2, List.nil_append]
      have hst : stash d.id (partitionChildren (depth + 1) 0 d.nodes).1 (partitionChildren (depth + 1) 0 d.nodes).2
          it.persisted = (.direct (partitionChildren (depth + 1) 0 d.nodes).1, it.persisted) := by
        simp [stash, hnil]
      obtain ⟨it', a1, a2, a3, a4, a5, a6⟩ := post it0 (.direct (partitionChildren (depth + 1) 0 d.nodes).1)
        it.persisted (by simp only [it0]; rw [hst, hnil]; rfl) rfl (Or.inl ⟨rfl, rfl⟩)
        (by simp only [LeafStorage.intoInner, it0]; rw [hst, q1]) hget
      exact ⟨it', a1, a2, a3, a4, a5, fun key _ hk => a6 key hk⟩
    · have hst : stash d.id (partitionChildren (depth + 1) 0 d.nodes).1 (partitionChildren (depth + 1) 0 d.nodes).2
          it.persisted = (.stashed d.id, AMap.set it.persisted d.id (partitionChildren (depth + 1) 0 d.nodes).1) := by
        simp [stash, hnil]
      have hdn : d.nodes ≠ [] := by rintro h; rw [h] at hnil; simp [partitionChildren] at hnil
      have hjp : joinPath path name ≠ [] := by
        unfold joinPath
        split
        · exact fun h => hdn (hne h)
        · simp
      obtain ⟨it1, b1, b2, b3, b4, b5, b6⟩ := runs_kids (H := H) (es := d.nodes) ih
        (fun k c h => ⟨hparent k c h, hlt k c h⟩) (fun k e h => (hname k e h).noSlash) hempty
        (path := joinPath path name) (depth := depth + 1) (fun _ => hjp) (by simp)
        it0 (.post p (depth + 1) name idx (.stashed d.id) :: rest) 0 [] rfl
        (by simp only [it0, hst]) (by simp only [it0, hst, List.nil_append]; exact AMap.get_set_eq ..)
        (Or.inl ⟨rfl, rfl⟩) hfit'
      rw [List.nil_append] at b5
      obtain ⟨it', a1, a2, a3, a4, a5, a6⟩ := post it1 (.stashed d.id) (AMap.erase it1.persisted d.id) b2 b3 b4
        (by simp only [LeafStorage.intoInner, b5])
        (by
          rw [AMap.get_erase_ne _ (by omega), b6 p hp]
          simp only [it0, hst]
          rw [AMap.get_set_ne _ _ (by omega), hget])
      refine ⟨it', ?_, a2, a3, a4, a5, fun key hk1 hk2 => ?_⟩
      · rw [emitThen_append, b1, a1]
      · rw [a6 key hk2, AMap.get_erase_ne _ (by omega), b6 key hk1]
        simp only [it0, hst]
        rw [AMap.get_set_ne _ _ (by omega)]

/-- The whole run. -/
theorem run_build (hH : ∀ b, (H b).length = 32) {b : Builder} (hg : Good LeafOk NameOk b.counter true b.root)
    (hfit : ∀ x ∈ treeEmits H b.opts.wrapWithDirectory b.root, x.total < 2 ^ 64) :
    b.build.run H = emitThen b.opts.blockSizeLimit (treeEmits H b.opts.wrapWithDirectory b.root) ([], .done) := by
  unfold treeEmits at hfit ⊢
  have hfit' : ∀ x ∈ nodesEmit H [] b.root.nodes, x.total < 2 ^ 64 :=
    fun x hx => hfit x (List.mem_append_left _ hx)
  have hok := nodeLinks_ok hH hg hfit'
  let it0 : TreeIter := { b.build with
    pending := (partitionChildren 0 0 b.root.nodes).2.reverse ++ .postRoot
      (stash b.root.id (partitionChildren 0 0 b.root.nodes).1 (partitionChildren 0 0 b.root.nodes).2 []).1 :: [],
    persisted := (stash b.root.id (partitionChildren 0 0 b.root.nodes).1
      (partitionChildren 0 0 b.root.nodes).2 []).2,
    fullPath := [], oldDepth := 0 }
  have hrun0 : b.build.run H = it0.run H := by
    refine run_next (by simp [Builder.build]) ?_
    unfold TreeIter.round
    simp only [Builder.build, Visited.place, update_root, TreeIter.visit]
    rfl
  have post : ∀ (it1 : TreeIter) (s : LeafStorage) (stash' : AMap Nat (List (Option NamedLeaf))),
      it1.pending = [.postRoot s] → it1.opts = b.opts →
      s.intoInner it1.persisted = some ((nodeLinks H b.root.nodes).map some, stash') →
      it1.run H = emitThen b.opts.blockSizeLimit
        (if b.opts.wrapWithDirectory then [dirNode H [] (nodeLinks H b.root.nodes)] else []) ([], .done) := by
    intro it1 s stash' hp1 ho hinner
    by_cases hw : b.opts.wrapWithDirectory = true
    · have hown : (dirLeaf H (nodeLinks H b.root.nodes)).total < 2 ^ 64 :=
        hfit (dirNode H [] (nodeLinks H b.root.nodes)) (by simp [hw])
      rw [if_pos hw]
      by_cases htl : tooLarge b.opts.blockSizeLimit (dirBlock (nodeLinks H b.root.nodes)).length = true
      · rw [tooLarge_emit _ htl]
        refine run_fail (it' := { it1 with pending := [], fullPath := [], oldDepth := 0, persisted := stash', opts := b.opts }) (by rw [hp1]; simp) ?_
        unfold TreeIter.round
        rw [hp1]
        simp only [Visited.place, update_root, TreeIter.visit, hinner, render_eq hok hown, ho, htl, if_true, hw,
          Bool.true_eq_false, if_false]
        rfl
      · rw [emit_one _ htl, run_emit (it' := { it1 with pending := [], fullPath := [], oldDepth := 0, persisted := stash', buffer := dirBlock (nodeLinks H b.root.nodes), opts := b.opts }) (n := dirNode H [] (nodeLinks H b.root.nodes)) (by rw [hp1]; simp) ?_, run_nil rfl]
        unfold TreeIter.round
        rw [hp1]
        simp only [Visited.place, update_root, TreeIter.visit, hinner, render_eq hok hown, ho, htl, hw,
          if_false, Bool.true_eq_false, Bool.false_eq_true]
        rfl
    · have hw : b.opts.wrapWithDirectory = false := by simpa using hw
      rw [if_neg (by simp [hw]), emitThen]
      refine run_stop (it' := { it1 with pending := [], fullPath := [], oldDepth := 0, persisted := stash', opts := b.opts }) (by rw [hp1]; simp) ?_
      unfold TreeIter.round
      rw [hp1]
      simp only [Visited.place, update_root, TreeIter.visit, hinner, ho, hw, if_true]
  rw [hrun0, emitThen_append]
  by_cases hnil : (partitionChildren 0 0 b.root.nodes).2 = []
  · obtain ⟨q1, q2⟩ := partition_leaves (H := H) [] hnil
    rw [q2, emitThen]
    have hst : stash b.root.id (partitionChildren 0 0 b.root.nodes).1 (partitionChildren 0 0 b.root.nodes).2
        [] = (.direct (partitionChildren 0 0 b.root.nodes).1, []) := by
      simp [stash, hnil]
    exact post it0 (.direct (partitionChildren 0 0 b.root.nodes).1) [] (by simp only [it0]; rw [hst, hnil]; rfl) rfl
      (by simp only [LeafStorage.intoInner, it0]; rw [hst, q1])
  · have hst : stash b.root.id (partitionChildren 0 0 b.root.nodes).1 (partitionChildren 0 0 b.root.nodes).2
        [] = (.stashed b.root.id, AMap.set [] b.root.id (partitionChildren 0 0 b.root.nodes).1) := by
      simp [stash, hnil]
    obtain ⟨it1, b1, b2, b3, b4, b5, b6⟩ := runs_kids (H := H) (es := b.root.nodes)
      (fun k c h => runs_dir hH (hg.child k c h))
      (fun k c h => ⟨hg.parent k c h, hg.lt k c h⟩) (fun k e h => (hg.name k e h).noSlash) hg.emptyName
      (path := []) (depth := 0) (by simp) (by simp)
      it0 [.postRoot (.stashed b.root.id)] 0 [] rfl
      (by simp only [it0, hst]) (by simp only [it0, hst, List.nil_append]; exact AMap.get_set_eq ..)
      (Or.inl ⟨rfl, rfl⟩) hfit'
    rw [b1, post it1 (.stashed b.root.id) (AMap.erase it1.persisted b.root.id) b2 b3
      (by simp only [LeafStorage.intoInner, b5]; rfl)]
    rfl

end Verif.Unixfs
