import Verif.Props.DirBuild

/-!
# C13: the order of insertions does not matter
-/

namespace Verif.Props

open Verif Verif.Unixfs

/-! ### Specification -/

/-- No empty segments, except that the whole path may be empty. -/
def PathShape (p : Bytes) : Prop :=
  (∀ q, p ≠ q ++ [47]) ∧ (∀ q r, p ≠ q ++ 47 :: 47 :: r) ∧ (∀ r, p ≠ 47 :: r)

/-- Both can be leaves of one tree: neither is below the other, and without a wrapping directory they
share their first segment. -/
def Together (wrap : Bool) (p p' : Bytes) : Prop :=
  ¬ splitSlash p <+: splitSlash p' ∧ ¬ splitSlash p' <+: splitSlash p ∧
    (wrap = true ∨ (splitSlash p).head? = (splitSlash p').head?)

/-! ### Helpers -/

section
variable {H : Bytes → Bytes} {L L' : Leaf → Prop} {M M' : Bytes → Prop}

/-- What an entry contributes to its directory and to what is given. -/
def shape (H : Bytes → Bytes) (e : Bytes × Entry) : Bytes × (Leaf × (Bytes → List TreeNode)) :=
  (e.1, (Entry.link H e.2, fun path => Entry.emits H path e.2))

theorem get_shape (es : List (Bytes × Entry)) (k : Bytes) :
    AMap.get (es.map (shape H)) k =
      (AMap.get es k).map (fun e => (Entry.link H e, fun path => Entry.emits H path e)) := by
  induction es with
  | nil => rfl
  | cons e es ih =>
    obtain ⟨k', e⟩ := e
    simp only [List.map_cons, shape, AMap.get]
    by_cases h : k' = k
    · simp [h]
    · simp only [h, if_false]
      exact ih

theorem shape_sorted {es : List (Bytes × Entry)} (h : BMap.Sorted es) : BMap.Sorted (es.map (shape H)) := by
  unfold BMap.Sorted at h ⊢
  exact List.pairwise_map.mpr h

theorem links_of_shape (es : List (Bytes × Entry)) :
    nodeLinks H es = (es.map (shape H)).map (fun e => ⟨e.1, e.2.1.link, e.2.1.total⟩) := by
  rw [nodeLinks_eq, List.map_map]
  apply List.map_congr_left
  intro e _
  obtain ⟨k, e⟩ := e
  simp only [Function.comp, shape]
  rw [nodeLink]

theorem emits_of_shape (path : Bytes) (es : List (Bytes × Entry)) :
    nodesEmit H path es = (es.map (shape H)).foldr (fun e r => r ++ e.2.2 (joinPath path e.1)) [] := by
  induction es with
  | nil => rw [nodesEmit]; rfl
  | cons e es ih =>
    obtain ⟨k, e⟩ := e
    rw [nodesEmit, nodeEmit, ih]
    rfl

theorem same_tree {n m : Nat} {r r' : Bool} {d d' : DirBuilder} (h : Good L M n r d) (h' : Good L' M' m r' d')
    (he : ∀ q, entryAt d q = entryAt d' q) :
    nodeLinks H d.nodes = nodeLinks H d'.nodes ∧ ∀ path, nodesEmit H path d.nodes = nodesEmit H path d'.nodes := by
  induction h generalizing d' m r' with
  | @mk r d _ hs _ _ _ _ _ _ hc ih =>
    have key : d.nodes.map (shape H) = d'.nodes.map (shape H) := by
      refine BMap.Sorted.ext (shape_sorted hs) (shape_sorted h'.sorted) (fun k => ?_)
      rw [get_shape, get_shape]
      have hk := he [k]
      cases hg : AMap.get d.nodes k with
      | none =>
        cases hg' : AMap.get d'.nodes k with
        | none => rfl
        | some e' => cases e' <;> simp [entryAt, hg, hg'] at hk
      | some e =>
        cases hg' : AMap.get d'.nodes k with
        | none => cases e <;> simp [entryAt, hg, hg'] at hk
        | some e' =>
          cases e with
          | leaf l =>
            cases e' with
            | leaf l' => simp [entryAt, hg, hg'] at hk; rw [hk]
            | directory c' => simp [entryAt, hg, hg'] at hk
          | directory c =>
            cases e' with
            | leaf l' => simp [entryAt, hg, hg'] at hk
            | directory c' =>
              have hsub : ∀ q, entryAt c q = entryAt c' q := by
                intro q
                have := he (k :: q)
                simpa [entryAt, hg, hg'] using this
              obtain ⟨i1, i2⟩ := ih k c (AMap.mem_of_get hg) (h'.child k c' (AMap.mem_of_get hg')) hsub
              simp only [Option.map_some, Option.some.injEq, Prod.mk.injEq]
              refine ⟨?_, ?_⟩
              · rw [Entry.link, Entry.link, dirLinks_eq, dirLinks_eq, i1]
              · funext path
                rw [Entry.emits, Entry.emits, dirEmits_eq, dirEmits_eq, i1, i2]
    refine ⟨?_, fun path => ?_⟩
    · rw [links_of_shape, links_of_shape, key]
    · rw [emits_of_shape, emits_of_shape, key]

end

theorem acceptedOps_length (b : Builder) (ops : List DirOp) : (acceptedOps b ops).length ≤ ops.length := by
  induction ops generalizing b with
  | nil => simp [acceptedOps]
  | cons op ops ih =>
    rw [acceptedOps]
    rcases op.run b with ⟨b', r⟩
    cases r with
    | error e => have := ih b'; simp; omega
    | ok u => have := ih b'; simp; omega

theorem mem_acceptedOps {b : Builder} {ops : List DirOp} {op : DirOp} (h : op ∈ acceptedOps b ops) : op ∈ ops := by
  induction ops generalizing b with
  | nil => cases h
  | cons o ops ih =>
    rw [acceptedOps] at h
    rcases hr : o.run b with ⟨b', r⟩
    rw [hr] at h
    cases r with
    | error e => exact List.mem_cons_of_mem _ (ih h)
    | ok u =>
      rcases List.mem_cons.mp h with rfl | h
      · exact List.mem_cons_self
      · exact List.mem_cons_of_mem _ (ih h)

theorem entryAt_eq_of_accepted {opts : TreeOpts} {xs ys : List DirOp}
    (h : ∀ op, op ∈ acceptedOps (Builder.new opts) xs ↔ op ∈ acceptedOps (Builder.new opts) ys) (q : List Bytes) :
    entryAt (builderAfter opts xs).root q = entryAt (builderAfter opts ys).root q := by
  obtain ⟨x1, x2⟩ := C11_tree opts xs q
  obtain ⟨y1, y2⟩ := C11_tree opts ys q
  simp only [h] at x1 x2
  cases hx : entryAt (builderAfter opts xs).root q with
  | some k =>
    cases k with
    | leaf l => exact ((y1 l).mpr ((x1 l).mp hx)).symm
    | dir => exact (y2.mpr (x2.mp hx)).symm
  | none =>
    cases hy : entryAt (builderAfter opts ys).root q with
    | none => rfl
    | some k =>
      cases k with
      | leaf l => rw [(x1 l).mpr ((y1 l).mp hy)] at hx; cases hx
      | dir => rw [x2.mpr (y2.mp hy)] at hx; cases hx

theorem splitSlash_cons_ne (p : Bytes) : ∃ name rest, splitSlash p = name :: rest := by
  cases h : splitSlash p with
  | nil => exact absurd h (splitSlash_ne_nil p)
  | cons a b => exact ⟨a, b, rfl⟩

/-- Without a wrapping directory the root has at most one entry. -/
theorem root_one {opts : TreeOpts} (hw : opts.wrapWithDirectory = false) (xs : List DirOp) :
    ∀ a b : Bytes, entryAt (builderAfter opts xs).root [a] ≠ none →
      entryAt (builderAfter opts xs).root [b] ≠ none → a = b := by
  induction xs using ops_induction with
  | h0 => intro a b h; exact absurd (by simp [entryAt, builderAfter, Builder.new, DirBuilder.root, AMap.get]) h
  | h1 xs op ih =>
    intro a b hA hB
    rw [builderAfter_snoc] at hA hB
    cases hr : (op.run (builderAfter opts xs)).2 with
    | error e => rw [entryAt_rejected hr] at hA hB; exact ih a b hA hB
    | ok u =>
      have hroom : Room opts.wrapWithDirectory (entryAt (builderAfter opts xs).root) (splitSlash op.path) := by
        refine Classical.byContradiction fun hn => ?_
        have r1 : ∀ q, op.path ≠ q ++ [47] := fun q hq => by
          rw [(C11_reasons opts xs op _).mpr (.endsInSlash (q := q) hq)] at hr; cases hr
        have r2 : ∀ q r, op.path ≠ q ++ 47 :: 47 :: r := fun q r hq => by
          rw [(C11_reasons opts xs op _).mpr (.repeatSlashes (q := q) (r := r) r1 hq)] at hr; cases hr
        have r3 : ∀ r, op.path ≠ 47 :: r := fun r hq => by
          rw [(C11_reasons opts xs op _).mpr (.rootedPath (r := r) r1 r2 hq)] at hr; cases hr
        rw [(C11_reasons opts xs op _).mpr (.tooManyRootLevelEntries r1 r2 r3 hn)] at hr
        cases hr
      rw [C11_accepted opts xs op hr] at hA hB
      have hcase : ∀ x : Bytes, (if [x] = splitSlash op.path then some op.kind
          else if [x] <+: splitSlash op.path then some Kind.dir
          else entryAt (builderAfter opts xs).root [x]) ≠ none →
          (splitSlash op.path).head? = some x ∨ entryAt (builderAfter opts xs).root [x] ≠ none := by
        intro x hx
        by_cases c1 : [x] = splitSlash op.path
        · left; rw [← c1]; rfl
        · rw [if_neg c1] at hx
          by_cases c2 : [x] <+: splitSlash op.path
          · left; obtain ⟨t, ht⟩ := c2; rw [← ht]; rfl
          · rw [if_neg c2] at hx; exact Or.inr hx
      have hA := hcase a hA
      have hB := hcase b hB
      rcases hroom with hr | hr | ⟨nm, rs, hs, _, hne⟩
      · rw [hw] at hr; cases hr
      · rcases hA with hA | hA
        · rcases hB with hB | hB
          · rw [hA] at hB; cases hB; rfl
          · exact absurd (hr b) hB
        · exact absurd (hr a) hA
      · rw [hs] at hA hB
        have e1 : a = nm := by
          rcases hA with hA | hA
          · cases hA; rfl
          · exact ih a nm hA hne
        have e2 : b = nm := by
          rcases hB with hB | hB
          · cases hB; rfl
          · exact ih b nm hB hne
        rw [e1, e2]

/-- When a leaf is accepted after leaves that all were. -/
theorem put_accepted {opts : TreeOpts} {ops : List DirOp} (hp : ∀ op ∈ ops, ∃ p c n, op = .put p c n)
    (ha : acceptedOps (Builder.new opts) ops = ops) (p : Bytes) (c : Cid) (n : Nat) :
    ((DirOp.put p c n).run (builderAfter opts ops)).2 = .ok () ↔
      PathShape p ∧ ∀ op ∈ ops, Together opts.wrapWithDirectory op.path p := by
  have htree := C11_tree opts ops
  rw [ha] at htree
  have hleaf : ∀ op ∈ ops, ∃ l, entryAt (builderAfter opts ops).root (splitSlash op.path) = some (.leaf l) := by
    intro op ho
    obtain ⟨p', c', n', rfl⟩ := hp op ho
    exact ⟨_, ((htree _).1 ⟨c', n'⟩).mpr ⟨_, ho, rfl, rfl⟩⟩
  have hok : ((DirOp.put p c n).run (builderAfter opts ops)).2 = .ok () ↔
      ∀ e, ¬ Refused opts.wrapWithDirectory (entryAt (builderAfter opts ops).root) (.put p c n) e := by
    constructor
    · intro h e he
      rw [(C11_reasons opts ops _ e).mpr he] at h
      cases h
    · intro h
      cases hr : ((DirOp.put p c n).run (builderAfter opts ops)).2 with
      | ok u => rfl
      | error e => exact absurd ((C11_reasons opts ops _ e).mp hr) (h e)
  rw [hok]
  constructor
  · intro h
    have h1 : ∀ q, p ≠ q ++ [47] := fun q hq => h _ (.endsInSlash (q := q) hq)
    have h2 : ∀ q r, p ≠ q ++ 47 :: 47 :: r := fun q r hq => h _ (.repeatSlashes (q := q) (r := r) h1 hq)
    have h3 : ∀ r, p ≠ 47 :: r := fun r hq => h _ (.rootedPath (r := r) h1 h2 hq)
    have h4 : Room opts.wrapWithDirectory (entryAt (builderAfter opts ops).root) (splitSlash p) :=
      Classical.byContradiction fun hn => h _ (.tooManyRootLevelEntries h1 h2 h3 hn)
    have h5 : ¬ LeafOnWay (entryAt (builderAfter opts ops).root) (splitSlash p) :=
      fun hl => h _ (.leafAsDirectory h1 h2 h3 h4 hl)
    have h6 : entryAt (builderAfter opts ops).root (splitSlash p) = none :=
      Classical.byContradiction fun hn => h _ (.duplicatePath rfl h1 h2 h3 h4 h5 hn)
    refine ⟨⟨h1, h2, h3⟩, fun op ho => ⟨fun hpre => ?_, fun hpre => ?_, ?_⟩⟩
    · obtain ⟨l, hl⟩ := hleaf op ho
      by_cases heq : splitSlash op.path = splitSlash p
      · rw [heq, h6] at hl; cases hl
      · exact h5 ⟨_, l, hpre, heq, hl⟩
    · by_cases heq : splitSlash p = splitSlash op.path
      · obtain ⟨l, hl⟩ := hleaf op ho
        rw [← heq, h6] at hl; cases hl
      · have := (htree (splitSlash p)).2.mpr (Or.inr ⟨op, ho, Or.inl ⟨hpre, heq⟩⟩)
        rw [h6] at this; cases this
    · rcases h4 with h4 | h4 | ⟨name, rest, hs, hrest, hk⟩
      · exact Or.inl h4
      · exfalso
        obtain ⟨name, rest, hs⟩ := splitSlash_cons_ne op.path
        have h7 := h4 name
        obtain ⟨l, hl⟩ := hleaf op ho
        rw [hs] at hl
        rw [entryAt_none h7 rest] at hl
        cases hl
      · refine Classical.byContradiction fun hnw => ?_
        have hw : opts.wrapWithDirectory = false := by
          cases hb : opts.wrapWithDirectory with
          | true => exact absurd (Or.inl hb) hnw
          | false => rfl
        obtain ⟨name', rest', hs'⟩ := splitSlash_cons_ne op.path
        obtain ⟨l, hl⟩ := hleaf op ho
        have hn' : entryAt (builderAfter opts ops).root [name'] ≠ none := by
          intro h0
          rw [hs', entryAt_none h0 rest'] at hl
          cases hl
        apply hnw
        right
        rw [hs', hs, root_one hw ops name' name hn' hk]
        rfl
  · rintro ⟨⟨h1, h2, h3⟩, h⟩ e he
    have hnone : entryAt (builderAfter opts ops).root (splitSlash p) = none := by
      cases hk : entryAt (builderAfter opts ops).root (splitSlash p) with
      | none => rfl
      | some k =>
        exfalso
        cases k with
        | leaf l =>
          obtain ⟨op, ho, hs, _⟩ := ((htree _).1 l).mp hk
          exact (h op ho).1 (hs ▸ List.prefix_refl _)
        | dir =>
          rcases (htree _).2.mp hk with h0 | ⟨op, ho, ⟨hpre, _⟩ | ⟨_, hkind⟩⟩
          · exact splitSlash_ne_nil _ h0
          · exact (h op ho).2.1 hpre
          · obtain ⟨p', c', n', rfl⟩ := hp op ho; cases hkind
    have hway : ¬ LeafOnWay (entryAt (builderAfter opts ops).root) (splitSlash p) := by
      rintro ⟨q, l, hpre, hne, hl⟩
      obtain ⟨op, ho, hs, _⟩ := ((htree _).1 l).mp hl
      exact (h op ho).1 (hs ▸ hpre)
    have hroom : Room opts.wrapWithDirectory (entryAt (builderAfter opts ops).root) (splitSlash p) := by
      cases hw : opts.wrapWithDirectory with
      | true => exact Or.inl rfl
      | false =>
        cases hops : ops with
        | nil => right; left; intro name; simp [entryAt, builderAfter, Builder.new, DirBuilder.root, AMap.get]
        | cons op ops' =>
          right; right
          have ho : op ∈ ops := by rw [hops]; exact List.mem_cons_self
          rw [← hops]
          obtain ⟨t1, t2, t3⟩ := h op ho
          obtain ⟨name, rest, hs⟩ := splitSlash_cons_ne p
          obtain ⟨name', rest', hs'⟩ := splitSlash_cons_ne op.path
          rcases t3 with t3 | t3
          · rw [hw] at t3; cases t3
          · rw [hs, hs'] at t3
            cases t3
            rw [hs, hs'] at t1 t2
            refine ⟨name, rest, hs, ?_, ?_⟩
            · rintro rfl
              exact t2 ⟨rest', rfl⟩
            · have hr' : rest' ≠ [] := by
                rintro rfl
                exact t1 ⟨rest, rfl⟩
              rw [(htree [name]).2.mpr (Or.inr ⟨op, ho, Or.inl ⟨⟨rest', by rw [hs']; rfl⟩, by rw [hs']; intro hc; cases hc; exact hr' rfl⟩⟩)]
              simp
    cases he with
    | endsInSlash hq => exact h1 _ hq
    | repeatSlashes _ hq => exact h2 _ _ hq
    | rootedPath _ _ hq => exact h3 _ hq
    | tooManyRootLevelEntries _ _ _ hn => exact hn hroom
    | leafAsDirectory _ _ _ _ hl => exact hway hl
    | leafHasMetadata hop => cases hop
    | duplicatePath hop _ _ _ _ _ hn => cases hop; exact hn hnone

/-! ### Theorems -/

/-- C13. Whatever was called in between and in whatever order: when the same calls were accepted, the
same nodes are given, and building ends alike. -/
theorem C13_same {H : Bytes → Bytes} (hH : ∀ b, (H b).length = 32) (opts : TreeOpts) (xs ys : List DirOp)
    (hx : ∀ op ∈ xs, OpFits op) (hy : ∀ op ∈ ys, OpFits op) (hfit : TotalsFit H (builderAfter opts xs))
    (h : ∀ op, op ∈ acceptedOps (Builder.new opts) xs ↔ op ∈ acceptedOps (Builder.new opts) ys) :
    (builderAfter opts xs).build.run H = (builderAfter opts ys).build.run H := by
  obtain ⟨h1, h2⟩ := same_tree (H := H) (builderAfter_good (opts := opts) hx) (builderAfter_good (opts := opts) hy)
    (entryAt_eq_of_accepted h)
  have ht : treeEmits H opts.wrapWithDirectory (builderAfter opts xs).root =
      treeEmits H opts.wrapWithDirectory (builderAfter opts ys).root := by
    unfold treeEmits; rw [h1, h2]
  have hfit' : TotalsFit H (builderAfter opts ys) := by
    unfold TotalsFit at hfit ⊢
    rw [(builderAfter_sound opts xs).2, ht] at hfit
    rw [(builderAfter_sound opts ys).2]
    exact hfit
  rw [run_eq hH hx hfit, run_eq hH hy hfit', ht]

/-- C13. Insertions are all accepted exactly if the paths are well formed and fit together. -/
theorem C13_accepted (opts : TreeOpts) (ops : List DirOp) (hp : ∀ op ∈ ops, ∃ p c n, op = .put p c n) :
    acceptedOps (Builder.new opts) ops = ops ↔
      (∀ op ∈ ops, PathShape op.path) ∧
        ops.Pairwise (fun a b => Together opts.wrapWithDirectory a.path b.path) := by
  induction ops using ops_induction with
  | h0 => simp [acceptedOps]
  | h1 ops op ih =>
    have ih := ih (fun o ho => hp o (by simp [ho]))
    obtain ⟨p, c, n, rfl⟩ := hp op (by simp)
    have hps : ∀ op ∈ ops, ∃ p c n, op = .put p c n := fun o ho => hp o (by simp [ho])
    rw [acceptedOps_snoc]
    have hsplit : ∀ ok : Bool, (acceptedOps (Builder.new opts) ops ++ (if ok then [DirOp.put p c n] else []) =
        ops ++ [DirOp.put p c n]) ↔ acceptedOps (Builder.new opts) ops = ops ∧ ok = true := by
      intro ok
      cases ok with
      | true => simp
      | false =>
        simp only [Bool.false_eq_true, if_false, List.append_nil, and_false, iff_false]
        intro h
        have := congrArg List.length h
        have := acceptedOps_length (Builder.new opts) ops
        simp at *
        omega
    have key : acceptedOps (Builder.new opts) ops = ops →
        (((DirOp.put p c n).run (builderAfter opts ops)).2 = .ok () ↔
          PathShape p ∧ ∀ op ∈ ops, Together opts.wrapWithDirectory op.path p) :=
      fun ha => put_accepted hps ha p c n
    simp only [List.mem_append, List.mem_singleton, List.pairwise_append, List.pairwise_cons, List.not_mem_nil,
      or_imp, forall_and, forall_eq]
    cases hr : ((DirOp.put p c n).run (builderAfter opts ops)).2 with
    | ok u =>
      have := hsplit true
      simp only [if_true, and_true] at this
      simp only [this, ih]
      constructor
      · rintro ⟨i1, i2⟩
        obtain ⟨k1, k2⟩ := (key (ih.mpr ⟨i1, i2⟩)).mp hr
        exact ⟨⟨i1, k1⟩, i2, by simp, fun a ha => k2 a ha⟩
      · rintro ⟨⟨i1, k1⟩, i2, _, k2⟩
        exact ⟨i1, i2⟩
    | error e =>
      have := hsplit false
      simp only [Bool.false_eq_true, if_false, and_false] at this
      simp only [this, false_iff]
      rintro ⟨⟨i1, k1⟩, i2, _, k2⟩
      have := (key (ih.mpr ⟨i1, i2⟩)).mpr ⟨k1, fun a ha => k2 a ha⟩
      rw [hr] at this
      cases this

/-- C13. Every permutation of accepted insertions is accepted and gives the same nodes, in particular
the same root. -/
theorem C13_permutation {H : Bytes → Bytes} (hH : ∀ b, (H b).length = 32) (opts : TreeOpts) (xs ys : List DirOp)
    (hp : ∀ op ∈ xs, ∃ p c n, op = .put p c n) (hx : ∀ op ∈ xs, OpFits op)
    (hfit : TotalsFit H (builderAfter opts xs)) (hacc : acceptedOps (Builder.new opts) xs = xs)
    (hperm : xs.Perm ys) :
    acceptedOps (Builder.new opts) ys = ys ∧
      (builderAfter opts xs).build.run H = (builderAfter opts ys).build.run H := by
  have hp' : ∀ op ∈ ys, ∃ p c n, op = .put p c n := fun op ho => hp op (hperm.mem_iff.mpr ho)
  have hacc' : acceptedOps (Builder.new opts) ys = ys := by
    obtain ⟨a, b⟩ := (C13_accepted opts xs hp).mp hacc
    refine (C13_accepted opts ys hp').mpr ⟨fun op ho => a op (hperm.mem_iff.mpr ho), ?_⟩
    exact (List.Perm.pairwise_iff (fun h => ⟨h.2.1, h.1, h.2.2.imp id Eq.symm⟩) hperm).mp b
  refine ⟨hacc', C13_same hH opts xs ys hx (fun op ho => hx op (hperm.mem_iff.mpr ho)) hfit (fun op => ?_)⟩
  rw [hacc, hacc']
  exact hperm.mem_iff

/-- The example in another order. -/
example : acceptedOps (Builder.new { wrapWithDirectory := true }) exDirOps = exDirOps ∧
    exDirOps.Perm exDirOps.reverse ∧ (∀ op ∈ exDirOps, ∃ p c n, op = .put p c n) ∧
    (builderAfter { wrapWithDirectory := true } exDirOps.reverse).build.run exDirHash =
      (treeEmits exDirHash true (builderAfter { wrapWithDirectory := true } exDirOps).root, .done) := by
  have h0 : acceptedOps (Builder.new { wrapWithDirectory := true }) exDirOps = exDirOps := by decide +kernel
  have h1 : ∀ op ∈ exDirOps, ∃ p c n, op = .put p c n := by
    intro op h
    simp only [exDirOps, List.mem_cons, List.not_mem_nil, or_false] at h
    rcases h with rfl | rfl | rfl <;> exact ⟨_, _, _, rfl⟩
  refine ⟨h0, (List.reverse_perm _).symm, h1, ?_⟩
  have hH : ∀ b, (exDirHash b).length = 32 := by intro b; simp [exDirHash]
  have hfit : TotalsFit exDirHash (builderAfter { wrapWithDirectory := true } exDirOps) := by
    unfold TotalsFit; decide +kernel
  rw [← (C13_permutation hH _ exDirOps _ h1 exDirOps_fit hfit h0 (List.reverse_perm _).symm).2,
    run_eq hH exDirOps_fit hfit]
  decide +kernel

end Verif.Props
