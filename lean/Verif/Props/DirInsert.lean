import Verif.Unixfs.BuilderLemmas

/-!
# C11: rejected insertions change nothing, and what accepted ones do
-/

namespace Verif.Props

open Verif Verif.Unixfs

/-! ### Specification -/

/-- What is at a path of the tree under construction. -/
inductive Kind where
  | leaf (l : Leaf)
  | dir
deriving DecidableEq, Repr

/-- The tree as a map from paths. -/
def entryAt : DirBuilder → List Bytes → Option Kind
  | _, [] => some .dir
  | d, name :: rest =>
    match AMap.get d.nodes name with
    | none => none
    | some (.leaf l) => if rest = [] then some (.leaf l) else none
    | some (.directory c) => entryAt c rest

/-- A call. -/
inductive DirOp where
  | put (path : Bytes) (target : Cid) (total : Nat)
  | attrs (path : Bytes) (m : Metadata)
deriving DecidableEq

/-- Doing it. -/
def DirOp.run (b : Builder) : DirOp → Builder × Except PutErr Unit
  | .put p c n => b.putLink p c n
  | .attrs p m => b.setMetadata p m

def DirOp.path : DirOp → Bytes
  | .put p _ _ => p
  | .attrs p _ => p

/-- What an accepted call puts at its path. -/
def DirOp.kind : DirOp → Kind
  | .put _ c n => .leaf ⟨c, n⟩
  | .attrs _ _ => .dir

/-- The builder after some calls, accepted or not. -/
def builderAfter (opts : TreeOpts) (ops : List DirOp) : Builder :=
  ops.foldl (fun b op => (op.run b).1) (Builder.new opts)

/-- A leaf is on the way. -/
def LeafOnWay (A : List Bytes → Option Kind) (segs : List Bytes) : Prop :=
  ∃ q l, q <+: segs ∧ q ≠ segs ∧ A q = some (.leaf l)

/-- There may be another entry of the root, or none is needed. -/
def Room (wrap : Bool) (A : List Bytes → Option Kind) (segs : List Bytes) : Prop :=
  wrap = true ∨ (∀ name, A [name] = none) ∨ ∃ name rest, segs = name :: rest ∧ rest ≠ [] ∧ A [name] ≠ none

/-- Why a call is rejected. -/
inductive Refused (wrap : Bool) (A : List Bytes → Option Kind) (op : DirOp) : PutErr → Prop where
  | endsInSlash {q : Bytes} : op.path = q ++ [47] → Refused wrap A op .endsInSlash
  | repeatSlashes {q r : Bytes} : (∀ q, op.path ≠ q ++ [47]) → op.path = q ++ 47 :: 47 :: r →
      Refused wrap A op .repeatSlashes
  | rootedPath {r : Bytes} : (∀ q, op.path ≠ q ++ [47]) → (∀ q r, op.path ≠ q ++ 47 :: 47 :: r) →
      op.path = 47 :: r → Refused wrap A op .rootedPath
  | tooManyRootLevelEntries : (∀ q, op.path ≠ q ++ [47]) → (∀ q r, op.path ≠ q ++ 47 :: 47 :: r) →
      (∀ r, op.path ≠ 47 :: r) → ¬ Room wrap A (splitSlash op.path) →
      Refused wrap A op .tooManyRootLevelEntries
  | leafAsDirectory : (∀ q, op.path ≠ q ++ [47]) → (∀ q r, op.path ≠ q ++ 47 :: 47 :: r) →
      (∀ r, op.path ≠ 47 :: r) → Room wrap A (splitSlash op.path) → LeafOnWay A (splitSlash op.path) →
      Refused wrap A op .leafAsDirectory
  | leafHasMetadata {p : Bytes} {m : Metadata} {l : Leaf} : op = .attrs p m →
      (∀ q, p ≠ q ++ [47]) → (∀ q r, p ≠ q ++ 47 :: 47 :: r) → (∀ r, p ≠ 47 :: r) →
      Room wrap A (splitSlash p) → A (splitSlash p) = some (.leaf l) → Refused wrap A op .leafAsDirectory
  | duplicatePath {p : Bytes} {c : Cid} {n : Nat} : op = .put p c n →
      (∀ q, p ≠ q ++ [47]) → (∀ q r, p ≠ q ++ 47 :: 47 :: r) → (∀ r, p ≠ 47 :: r) →
      Room wrap A (splitSlash p) → ¬ LeafOnWay A (splitSlash p) → A (splitSlash p) ≠ none →
      Refused wrap A op .duplicatePath

/-! ### Helpers -/

/-- The paths are well-formed enough to be walked. -/
theorem endsInSlash_iff {p : Bytes} : endsInSlash p = true ↔ ∃ q, p = q ++ [47] := by
  unfold endsInSlash
  constructor
  · intro h
    have h := eq_of_beq h
    obtain ⟨hne, he⟩ := List.getLast?_eq_some_iff.mp h
    exact ⟨hne, he⟩
  · rintro ⟨q, rfl⟩
    simp

theorem repeatsSlash_iff {p : Bytes} : repeatsSlash p = true ↔ ∃ q r, p = q ++ 47 :: 47 :: r := by
  constructor
  · intro h
    induction p with
    | nil => simp [repeatsSlash] at h
    | cons c p ih =>
      rw [repeatsSlash.eq_def] at h
      split at h
      · rename_i r heq; exact ⟨[], r, heq⟩
      · cases h
      · rename_i heq
        cases heq
        obtain ⟨q, r, hq⟩ := ih h
        exact ⟨c :: q, r, by rw [hq]; rfl⟩
  · rintro ⟨q, r, rfl⟩
    induction q with
    | nil => simp [repeatsSlash]
    | cons c q ih =>
      rw [repeatsSlash.eq_def]
      split
      · rfl
      · rename_i heq; cases heq
      · rename_i heq; cases heq; exact ih

/-- What putting does to the tree, by what was at the place. -/
structure FnAt (f : PutFn) (fin : Option Kind → Except PutErr Kind) : Prop where
  error : ∀ {n d name e}, fin (entryAt d [name]) = .error e → (f d name n).2.2 = .error e
  ok : ∀ {n d name k}, d.id < n → fin (entryAt d [name]) = .ok k → (f d name n).2.2 = .ok () ∧
    ∀ q, entryAt (f d name n).1 q = if q = [name] then some k else entryAt d q

/-- `put_link` at the last segment. -/
def finPut (l : Leaf) : Option Kind → Except PutErr Kind
  | none => .ok (.leaf l)
  | some _ => .error .duplicatePath

/-- `set_metadata` at the last segment. -/
def finMeta : Option Kind → Except PutErr Kind
  | none => .ok .dir
  | some .dir => .ok .dir
  | some (.leaf _) => .error .leafAsDirectory

theorem entryAt_insert (d : DirBuilder) (name : Bytes) (e : Entry) (x : Bytes) (q : List Bytes) :
    entryAt { d with nodes := BMap.insert d.nodes name e } (x :: q) =
      if x = name then (match e with
        | .leaf l => if q = [] then some (.leaf l) else none
        | .directory c => entryAt c q) else entryAt d (x :: q) := by
  rw [entryAt]
  simp only [BMap.get_insert]
  by_cases h : x = name
  · rw [if_pos h, if_pos h]; cases e <;> rfl
  · rw [if_neg h, if_neg h, entryAt]

theorem entryAt_none {d : DirBuilder} {name : Bytes} (h : entryAt d [name] = none) (q : List Bytes) :
    entryAt d (name :: q) = none := by
  simp only [entryAt] at h ⊢
  split at h
  · rename_i hg; rfl
  · simp at h
  · simp at h

theorem get_of_entryAt_none {d : DirBuilder} {name : Bytes} (h : entryAt d [name] = none) :
    AMap.get d.nodes name = none := by
  simp only [entryAt] at h
  split at h
  · assumption
  · simp at h
  · simp at h

theorem FnAt.put (l : Leaf) : FnAt (putLeaf l) (finPut l) where
  error := by
    intro n d name e h
    simp only [entryAt] at h
    unfold putLeaf
    cases hg : AMap.get d.nodes name with
    | none => rw [hg] at h; simp [finPut] at h
    | some x =>
      rw [hg] at h
      cases x with
      | leaf l' => simp [finPut] at h; rw [← h]
      | directory c => simp [finPut] at h; rw [← h]
  ok := by
    intro n d name k _ h
    have hn : entryAt d [name] = none := by
      cases hx : entryAt d [name] with
      | none => rfl
      | some x => rw [hx] at h; simp [finPut] at h
    rw [hn] at h
    simp only [finPut, Except.ok.injEq] at h
    subst h
    have hg := get_of_entryAt_none hn
    unfold putLeaf
    rw [hg]
    refine ⟨rfl, fun q => ?_⟩
    cases q with
    | nil => simp [entryAt]
    | cons x q =>
      simp only [entryAt_insert]
      by_cases hx : x = name
      · subst hx
        by_cases hq : q = []
        · subst hq; simp
        · simp [hq, entryAt_none hn]
      · simp [hx]

theorem FnAt.attrs (m : Metadata) : FnAt (putMeta m) finMeta where
  error := by
    intro n d name e h
    simp only [entryAt] at h
    unfold putMeta
    cases hg : AMap.get d.nodes name with
    | none => rw [hg] at h; simp [finMeta] at h
    | some x =>
      rw [hg] at h
      cases x with
      | leaf l' => simp [finMeta] at h; rw [← h]
      | directory c => simp [finMeta] at h
  ok := by
    intro n d name k hi h
    have hk : k = .dir := by
      cases hx : entryAt d [name] with
      | none => rw [hx] at h; simp [finMeta] at h; exact h.symm
      | some x => rw [hx] at h; cases x <;> simp [finMeta] at h; exact h.symm
    subst hk
    unfold putMeta
    cases hg : AMap.get d.nodes name with
    | none =>
      have hn : entryAt d [name] = none := by simp only [entryAt, hg]
      have hnew : DirBuilder.new d.id n = some ⟨[], {}, some d.id, n⟩ := if_neg (by omega)
      simp only [hnew]
      refine ⟨trivial, fun q => ?_⟩
      cases q with
      | nil => simp [entryAt]
      | cons x q =>
        simp only [entryAt_insert]
        by_cases hx : x = name
        · subst hx
          cases q with
          | nil => simp [entryAt]
          | cons y q => rw [entryAt_none hn]; simp [entryAt, AMap.get]
        · simp [hx]
    | some x =>
      cases x with
      | leaf l' => simp [entryAt, hg, finMeta] at h
      | directory c =>
        refine ⟨rfl, fun q => ?_⟩
        cases q with
        | nil => simp [entryAt]
        | cons x q =>
          simp only [entryAt_insert]
          by_cases hx : x = name
          · subst hx
            cases q with
            | nil => simp [entryAt]
            | cons y q => simp [entryAt, hg]
          · simp [hx]

/-- What an accepted call does to the map. -/
def putAt (A : List Bytes → Option Kind) (segs : List Bytes) (k : Kind) (q : List Bytes) : Option Kind :=
  if q = segs then some k else if q <+: segs then some .dir else A q

theorem leafOnWay_cons {d c : DirBuilder} {name : Bytes} {rest : List Bytes}
    (hc : AMap.get d.nodes name = some (.directory c)) :
    LeafOnWay (entryAt d) (name :: rest) ↔ LeafOnWay (entryAt c) rest := by
  constructor
  · rintro ⟨q, l, hp, hne, hl⟩
    cases q with
    | nil => simp [entryAt] at hl
    | cons x q =>
      obtain ⟨t, ht⟩ := hp
      simp only [List.cons_append, List.cons.injEq] at ht
      obtain ⟨rfl, ht⟩ := ht
      refine ⟨q, l, ⟨t, ht⟩, fun e => hne (by rw [e]), ?_⟩
      simpa only [entryAt, hc] using hl
  · rintro ⟨q, l, ⟨t, ht⟩, hne, hl⟩
    refine ⟨name :: q, l, ⟨t, by rw [← ht]; rfl⟩, fun e => hne (by simpa using e), ?_⟩
    simpa only [entryAt, hc] using hl

theorem cons_prefix_cons {x : Bytes} {q r : List Bytes} : x :: q <+: x :: r ↔ q <+: r := by
  constructor
  · rintro ⟨t, ht⟩; exact ⟨t, by simpa using ht⟩
  · rintro ⟨t, ht⟩; exact ⟨t, by simp [ht]⟩

/-- Below the root, the walk ends as the specification says. -/
theorem descend_at {f : PutFn} {fin : Option Kind → Except PutErr Kind} (hf : FnAt f fin)
    {L : Leaf → Prop} {M : Bytes → Prop} (hok : FnOk L M f)
    {wrap : Bool} {depth : Nat} {root : Bool} {d : DirBuilder} {n : Nat} {segs : List Bytes}
    (hg : Good L M n root d) (hne : segs ≠ [])
    (hdep : depth ≠ 0 → ∀ x ∈ segs, x ≠ []) (hdep0 : segs.length ≠ 1 → ∀ x ∈ segs, x ≠ [])
    (hroom : depth = 0 → Room wrap (entryAt d) segs) :
    (LeafOnWay (entryAt d) segs ∧ (descend wrap f depth d n segs).2.2 = .error .leafAsDirectory) ∨
    (¬ LeafOnWay (entryAt d) segs ∧ ∃ e, fin (entryAt d segs) = .error e ∧
      (descend wrap f depth d n segs).2.2 = .error e) ∨
    (¬ LeafOnWay (entryAt d) segs ∧ ∃ k, fin (entryAt d segs) = .ok k ∧
      (descend wrap f depth d n segs).2.2 = .ok () ∧
      ∀ q, entryAt (descend wrap f depth d n segs).1 q = putAt (entryAt d) segs k q) := by
  induction segs generalizing depth root d n with
  | nil => exact absurd rfl hne
  | cons name rest ih =>
    have hfull : ∀ hd : depth = 0, AMap.get d.nodes name = none ∨ rest = [] → wrap = false → d.nodes = [] := by
      intro hd hor hw
      rcases hroom hd with h | h | ⟨x, r, he, h1, h2⟩
      · rw [h] at hw; cases hw
      · cases hn : d.nodes with
        | nil => rfl
        | cons e es =>
          have := get_of_entryAt_none (h e.1)
          rw [hn] at this
          simp [AMap.get] at this
      · simp only [List.cons.injEq] at he
        obtain ⟨rfl, rfl⟩ := he
        rcases hor with hor | hor
        · exact absurd (by simp only [entryAt, hor]) h2
        · exact absurd hor h1
    cases rest with
    | nil =>
      have hnl : ¬ LeafOnWay (entryAt d) [name] := by
        rintro ⟨q, l, ⟨t, ht⟩, hq, hl⟩
        cases q with
        | nil => simp [entryAt] at hl
        | cons x q =>
          simp only [List.cons_append, List.cons.injEq, List.append_eq_nil_iff] at ht
          exact hq (by rw [ht.1, ht.2.1])
      rw [descend_last _ _ _ _ _ _ (fun hd => hdep hd name (by simp))]
      rw [if_neg (fun h => by rw [hfull h.1 (Or.inr rfl) h.2.1] at h; simp at h)]
      cases hfin : fin (entryAt d [name]) with
      | error e => exact Or.inr (Or.inl ⟨hnl, e, rfl, hf.error hfin⟩)
      | ok k =>
        obtain ⟨h1, h2⟩ := hf.ok hg.id hfin
        refine Or.inr (Or.inr ⟨hnl, k, rfl, h1, fun q => ?_⟩)
        rw [h2]
        unfold putAt
        by_cases hq : q = [name]
        · rw [if_pos hq, if_pos hq]
        · rw [if_neg hq, if_neg hq]
          split
          · rename_i hp
            obtain ⟨t, ht⟩ := hp
            cases q with
            | nil => simp [entryAt]
            | cons x q =>
              simp only [List.cons_append, List.cons.injEq, List.append_eq_nil_iff] at ht
              exact absurd (by rw [ht.1, ht.2.1]) hq
          · rfl
    | cons next rest =>
      have hall := hdep0 (by simp)
      rw [descend_cons, if_neg (hall name (by simp))]
      have hrest : ∀ x ∈ next :: rest, x ≠ [] := fun x hx => hall x (List.mem_cons_of_mem _ hx)
      -- what the change of a child means
      have lift : ∀ (c c' : DirBuilder) (k : Kind),
          (∀ q, entryAt d (name :: q) = if q = [] then entryAt d [name] else entryAt c q) →
          (∀ q, entryAt c' q = putAt (entryAt c) (next :: rest) k q) →
          ∀ q, entryAt { d with nodes := BMap.insert d.nodes name (.directory c') } q =
            putAt (entryAt d) (name :: next :: rest) k q := by
        intro c c' k h1 h2 q
        cases q with
        | nil => simp [entryAt, putAt]
        | cons x q =>
          rw [entryAt_insert]
          by_cases hx : x = name
          · subst hx
            simp only [if_true, h2, putAt]
            by_cases hq : q = next :: rest
            · simp [hq]
            · rw [if_neg hq, if_neg (c := x :: q = _) (fun e => hq (List.cons.inj e).2)]
              by_cases hp : q <+: next :: rest
              · rw [if_pos hp, if_pos (cons_prefix_cons.mpr hp)]
              · have : q ≠ [] := by rintro rfl; exact hp List.nil_prefix
                rw [if_neg hp, if_neg (fun e => hp (cons_prefix_cons.mp e)), h1, if_neg this]
          · simp only [hx, if_false, putAt]
            rw [if_neg (fun e => hx (by simp at e; exact e.1)), if_neg]
            rintro ⟨t, ht⟩
            simp at ht
            exact hx ht.1
      cases hget : AMap.get d.nodes name with
      | none =>
        have hn : entryAt d [name] = none := by simp only [entryAt, hget]
        have hcond : ¬ (depth = 0 ∧ wrap = false ∧ d.nodes.isEmpty = false) := by
          intro h
          rw [hfull h.1 (Or.inl hget) h.2.1] at h
          simp at h
        simp only []
        rw [if_neg hcond]
        have hnew : DirBuilder.new d.id n = some ⟨[], {}, some d.id, n⟩ := if_neg (by have := hg.id; omega)
        rw [hnew]
        simp only []
        have hfresh : ∀ q, entryAt ⟨[], {}, some d.id, n⟩ q = if q = [] then some .dir else none := by
          intro q; cases q <;> simp [entryAt, AMap.get]
        have hok2 := descend_empty hok (wrap := wrap) (depth := depth + 1) (by omega)
          (d := ⟨[], {}, some d.id, n⟩) (n := n + 1) rfl (by simp) (by simp) hrest
        have hnl : ¬ LeafOnWay (entryAt d) (name :: next :: rest) := by
          rintro ⟨q, l, ⟨t, ht⟩, hq, hl⟩
          cases q with
          | nil => simp [entryAt] at hl
          | cons x q =>
            simp only [List.cons_append, List.cons.injEq] at ht
            obtain ⟨rfl, _⟩ := ht
            rw [entryAt_none hn] at hl; cases hl
        rcases ih (depth := depth + 1) (root := false) (Good.fresh (L := L) (M := M) (d := ⟨[], {}, some d.id, n⟩) (n := n + 1) rfl (by simp))
          (by simp) (fun _ => hrest) (fun _ => hrest) (by simp) with h | h | h
        · rw [h.2] at hok2; cases hok2
        · obtain ⟨_, e, _, h⟩ := h; rw [h] at hok2; cases hok2
        · obtain ⟨_, k, h1, _, h2⟩ := h
          rw [hfresh, if_neg (by simp)] at h1
          refine Or.inr (Or.inr ⟨hnl, k, by rw [entryAt_none hn]; exact h1, hok2, ?_⟩)
          refine lift _ _ k ?_ h2
          intro q
          rw [entryAt_none hn, hfresh]
          split
          · exact hn.symm
          · rfl
      | some x =>
        cases x with
        | leaf l =>
          refine Or.inl ⟨⟨[name], l, ⟨next :: rest, rfl⟩, by simp, by simp [entryAt, hget]⟩, rfl⟩
        | directory c =>
          have hmem := AMap.mem_of_get hget
          have hc : ∀ q, entryAt d (name :: q) = entryAt c q := by intro q; simp only [entryAt, hget]
          rcases ih (depth := depth + 1) (root := false) (hg.child _ _ hmem) (by simp) (fun _ => hrest)
            (fun _ => hrest) (by simp) with h | h | h
          · exact Or.inl ⟨(leafOnWay_cons hget).mpr h.1, h.2⟩
          · obtain ⟨h1, e, h2, h3⟩ := h
            exact Or.inr (Or.inl ⟨fun hh => h1 ((leafOnWay_cons hget).mp hh), e, by rw [hc]; exact h2, h3⟩)
          · obtain ⟨h1, k, h2, h3, h4⟩ := h
            refine Or.inr (Or.inr ⟨fun hh => h1 ((leafOnWay_cons hget).mp hh), k, by rw [hc]; exact h2, h3, ?_⟩)
            refine lift c _ k ?_ h4
            intro q
            split
            · rename_i hq; rw [hq]
            · exact hc q

/-! ### Every builder reached -/

/-- Nothing is asked of the leaves and names. -/
abbrev Sound (n : Nat) (d : DirBuilder) : Prop := Good (fun _ => True) (fun _ => True) n true d

theorem DirOp.fnOk (op : DirOp) : ∃ f, FnOk (fun _ => True) (fun _ => True) f ∧
    (∀ b, op.run b = b.modify op.path f) ∧
    FnAt f (match op with | .put _ c n => finPut ⟨c, n⟩ | .attrs _ _ => finMeta) := by
  cases op with
  | put p c n => exact ⟨putLeaf ⟨c, n⟩, FnOk.putLeaf trivial, fun b => rfl, FnAt.put _⟩
  | attrs p m => exact ⟨putMeta m, FnOk.putMeta m, fun b => rfl, FnAt.attrs m⟩

theorem modify_sound {f : PutFn} {L : Leaf → Prop} {M : Bytes → Prop} (hf : FnOk L M f) {b b' : Builder}
    {p : Bytes} {r : Except PutErr Unit} (hp : ∀ x ∈ splitSlash p, M x)
    (hg : Good L M b.counter true b.root) (h : b.modify p f = (b', r)) :
    Good L M b'.counter true b'.root ∧ b.counter ≤ b'.counter ∧ b'.opts = b.opts ∧
    (∀ e, r = .error e → b'.root = b.root ∧ b'.counter = b.counter ∧ e ≠ .panic) := by
  unfold Builder.modify at h
  simp only at h
  split at h
  · cases h; exact ⟨hg, Nat.le_refl _, rfl, by intro e he; cases he; exact ⟨rfl, rfl, by simp⟩⟩
  · rename_i h1
    split at h
    · cases h; exact ⟨hg, Nat.le_refl _, rfl, by intro e he; cases he; exact ⟨rfl, rfl, by simp⟩⟩
    · rename_i h2
      rcases hd : descend b.opts.wrapWithDirectory f 0 b.root b.counter (splitSlash p) with ⟨d', n', res⟩
      rw [hd] at h
      cases h
      obtain ⟨g1, g2, _, _, g5⟩ := descend_good hf (by simp) (fun _ => rfl) hg (splitSlash_ne_nil p) hp
        (splitSlash_tail (by simpa using h1) (by simpa using h2)) (by simp) hd
      exact ⟨g1, g2, rfl, g5⟩

theorem builderAfter_sound (opts : TreeOpts) (ops : List DirOp) :
    Sound (builderAfter opts ops).counter (builderAfter opts ops).root ∧ (builderAfter opts ops).opts = opts := by
  unfold builderAfter
  have key : ∀ b : Builder, Sound b.counter b.root → b.opts = opts →
      Sound (ops.foldl (fun b op => (op.run b).1) b).counter (ops.foldl (fun b op => (op.run b).1) b).root ∧
      (ops.foldl (fun b op => (op.run b).1) b).opts = opts := by
    induction ops with
    | nil => intro b h ho; exact ⟨h, ho⟩
    | cons op ops ih =>
      intro b h ho
      rw [List.foldl_cons]
      obtain ⟨f, hf, hrun, _⟩ := op.fnOk
      obtain ⟨h1, _, h3, _⟩ := modify_sound hf (fun _ _ => trivial) h (Prod.eta (b.modify op.path f)).symm
      exact ih _ (by rw [hrun]; exact h1) (by rw [hrun, h3]; exact ho)
  exact key _ (Good.fresh rfl (by simp [Builder.new, DirBuilder.root])) rfl

/-! ### Theorems -/

/-- C11. A rejected call leaves the tree and everything else that matters as it was; in particular no
directories made on the way remain. It is not a panic. -/
theorem C11_rejected_changes_nothing (opts : TreeOpts) (ops : List DirOp) (op : DirOp) {b' : Builder}
    {e : PutErr} (h : op.run (builderAfter opts ops) = (b', .error e)) :
    b'.root = (builderAfter opts ops).root ∧ b'.counter = (builderAfter opts ops).counter ∧
      b'.opts = (builderAfter opts ops).opts ∧ e ≠ .panic := by
  obtain ⟨f, hf, hrun, _⟩ := op.fnOk
  rw [hrun] at h
  obtain ⟨_, _, h3, h4⟩ := modify_sound hf (fun _ _ => trivial) (builderAfter_sound opts ops).1 h
  obtain ⟨a, b, c⟩ := h4 e rfl
  exact ⟨a, b, h3, c⟩

/-- Nothing is on the way to the path of the call: what is there decides. -/
theorem run_cases (opts : TreeOpts) (ops : List DirOp) (op : DirOp) :
    let b := builderAfter opts ops
    let A := entryAt b.root
    (∃ e, Refused opts.wrapWithDirectory A op e ∧ (op.run b).2 = .error e) ∨
    ((op.run b).2 = .ok () ∧ (∀ e, ¬ Refused opts.wrapWithDirectory A op e) ∧
      ∀ q, entryAt (op.run b).1.root q = putAt A (splitSlash op.path) op.kind q) := by
  intro b A
  obtain ⟨hs, ho⟩ := builderAfter_sound opts ops
  obtain ⟨f, hf, hrun, hat⟩ := op.fnOk
  rw [hrun]
  unfold Builder.modify
  simp only
  by_cases h1 : endsInSlash op.path = true
  · rw [if_pos h1]
    obtain ⟨q, hq⟩ := endsInSlash_iff.mp h1
    exact Or.inl ⟨_, .endsInSlash hq, rfl⟩
  · rw [if_neg h1]
    have n1 : ∀ q, op.path ≠ q ++ [47] := fun q hq => h1 (endsInSlash_iff.mpr ⟨q, hq⟩)
    by_cases h2 : repeatsSlash op.path = true
    · rw [if_pos h2]
      obtain ⟨q, r, hq⟩ := repeatsSlash_iff.mp h2
      exact Or.inl ⟨_, .repeatSlashes n1 hq, rfl⟩
    · rw [if_neg h2]
      have n2 : ∀ q r, op.path ≠ q ++ 47 :: 47 :: r := fun q r hq => h2 (repeatsSlash_iff.mpr ⟨q, r, hq⟩)
      have htail := splitSlash_tail (by simpa using h1) (by simpa using h2)
      have ho' : b.opts.wrapWithDirectory = opts.wrapWithDirectory := by rw [ho]
      by_cases h3 : ∃ r, op.path = 47 :: r
      · obtain ⟨r, hr⟩ := h3
        have hsp : splitSlash op.path = [] :: splitSlash r := by rw [hr]; simp [splitSlash]
        refine Or.inl ⟨_, .rootedPath n1 n2 hr, ?_⟩
        rw [hsp]
        cases hr2 : splitSlash r with
        | nil => exact absurd hr2 (splitSlash_ne_nil r)
        | cons x xs => rw [descend_cons]; simp
      · have n3 : ∀ r, op.path ≠ 47 :: r := fun r hr => h3 ⟨r, hr⟩
        have hall : (splitSlash op.path).length ≠ 1 → ∀ x ∈ splitSlash op.path, x ≠ [] := by
          intro hl x hx
          cases hsp : splitSlash op.path with
          | nil => exact absurd hsp (splitSlash_ne_nil _)
          | cons y ys =>
            rw [hsp] at hx htail hl
            rcases List.mem_cons.mp hx with rfl | hx
            · rintro rfl
              rcases splitSlash_head hsp with h | ⟨t, h⟩
              · rw [h] at hsp; simp [splitSlash] at hsp; subst hsp; simp at hl
              · exact n3 t h
            · exact htail x hx
        by_cases hroom : Room opts.wrapWithDirectory A (splitSlash op.path)
        · rcases descend_at hat hf (wrap := b.opts.wrapWithDirectory) (depth := 0) hs
            (splitSlash_ne_nil op.path) (by simp) hall
            (by rw [ho']; exact fun _ => hroom) with h | h | h
          · exact Or.inl ⟨_, .leafAsDirectory n1 n2 n3 hroom h.1, h.2⟩
          · obtain ⟨h5, e, h6, h7⟩ := h
            refine Or.inl ⟨e, ?_, h7⟩
            cases op with
            | put p c n =>
              cases hA : entryAt (builderAfter opts ops).root (splitSlash p) with
              | none => simp only [DirOp.path, hA, finPut] at h6; cases h6
              | some k =>
                simp only [DirOp.path, hA, finPut] at h6
                cases h6
                exact .duplicatePath rfl n1 n2 n3 hroom h5 (by rw [show A = entryAt (builderAfter opts ops).root from rfl, hA]; simp)
            | attrs p m =>
              cases hA : entryAt (builderAfter opts ops).root (splitSlash p) with
              | none => simp only [DirOp.path, hA, finMeta] at h6; cases h6
              | some k =>
                cases k with
                | dir => simp only [DirOp.path, hA, finMeta] at h6; cases h6
                | leaf l =>
                  simp only [DirOp.path, hA, finMeta] at h6
                  cases h6
                  exact .leafHasMetadata rfl n1 n2 n3 hroom hA
          · obtain ⟨h5, k, h6, h7, h8⟩ := h
            refine Or.inr ⟨h7, ?_, ?_⟩
            · intro e he
              cases he with
              | endsInSlash h => exact n1 _ h
              | repeatSlashes _ h => exact n2 _ _ h
              | rootedPath _ _ h => exact n3 _ h
              | tooManyRootLevelEntries _ _ _ h => exact h hroom
              | leafAsDirectory _ _ _ _ h => exact h5 h
              | leafHasMetadata hop _ _ _ _ h =>
                subst hop
                simp only [DirOp.path, show entryAt (builderAfter opts ops).root = A from rfl, h, finMeta] at h6
                cases h6
              | duplicatePath hop _ _ _ _ _ h =>
                subst hop
                cases hA : A (splitSlash _) with
                | none => exact h hA
                | some k =>
                  simp only [DirOp.path, show entryAt (builderAfter opts ops).root = A from rfl, hA, finPut] at h6
                  cases h6
            · have hk : k = op.kind := by
                cases op with
                | put p c n =>
                  cases hA : entryAt (builderAfter opts ops).root (splitSlash p) with
                  | none => simp only [DirOp.path, hA, finPut] at h6; cases h6; rfl
                  | some k => simp only [DirOp.path, hA, finPut] at h6; cases h6
                | attrs p m =>
                  cases hA : entryAt (builderAfter opts ops).root (splitSlash p) with
                  | none => simp only [DirOp.path, hA, finMeta] at h6; cases h6; rfl
                  | some k =>
                    cases k with
                    | dir => simp only [DirOp.path, hA, finMeta] at h6; cases h6; rfl
                    | leaf l => simp only [DirOp.path, hA, finMeta] at h6; cases h6
              rw [← hk]
              exact h8
        · refine Or.inl ⟨_, .tooManyRootLevelEntries n1 n2 n3 hroom, ?_⟩
          rw [ho']
          unfold Room at hroom
          have hw : opts.wrapWithDirectory = false := by
            cases hw : opts.wrapWithDirectory with
            | false => rfl
            | true => exact absurd (Or.inl hw) hroom
          have hne : b.root.nodes.isEmpty = false := by
            cases hn : b.root.nodes with
            | nil => exact absurd (Or.inr (Or.inl (by intro name; simp [A, entryAt, hn, AMap.get]))) hroom
            | cons e es => rfl
          rw [hw]
          cases hsp : splitSlash op.path with
          | nil => exact absurd hsp (splitSlash_ne_nil _)
          | cons x xs =>
            cases xs with
            | nil => rw [descend_last _ _ _ _ _ _ (by simp), if_pos ⟨rfl, rfl, hne⟩]
            | cons y ys =>
              have hx : x ≠ [] := hall (by rw [hsp]; simp) x (by rw [hsp]; simp)
              rw [descend_cons, if_neg hx]
              have hget : AMap.get (builderAfter opts ops).root.nodes x = none := by
                refine get_of_entryAt_none (Classical.byContradiction fun hh => hroom ?_)
                exact Or.inr (Or.inr ⟨x, y :: ys, hsp, by simp, hh⟩)
              rw [hget]
              simp only []
              rw [if_pos ⟨trivial, trivial, hne⟩]

/-- There is one reason. -/
theorem Refused.unique {wrap : Bool} {A : List Bytes → Option Kind} {op : DirOp} {e e' : PutErr}
    (h : Refused wrap A op e) (h' : Refused wrap A op e') : e = e' := by
  cases h with
  | endsInSlash h =>
    cases h' with
    | endsInSlash _ => rfl
    | leafHasMetadata ho n1 => subst ho; exact absurd h (n1 _)
    | duplicatePath ho n1 => subst ho; exact absurd h (n1 _)
    | _ n1 => exact absurd h (n1 _)
  | repeatSlashes m1 h =>
    cases h' with
    | endsInSlash h2 => exact absurd h2 (m1 _)
    | repeatSlashes _ _ => rfl
    | leafHasMetadata ho n1 n2 => subst ho; exact absurd h (n2 _ _)
    | duplicatePath ho n1 n2 => subst ho; exact absurd h (n2 _ _)
    | _ n1 n2 => exact absurd h (n2 _ _)
  | rootedPath m1 m2 h =>
    cases h' with
    | endsInSlash h2 => exact absurd h2 (m1 _)
    | repeatSlashes _ h2 => exact absurd h2 (m2 _ _)
    | rootedPath _ _ _ => rfl
    | leafHasMetadata ho n1 n2 n3 => subst ho; exact absurd h (n3 _)
    | duplicatePath ho n1 n2 n3 => subst ho; exact absurd h (n3 _)
    | _ n1 n2 n3 => exact absurd h (n3 _)
  | tooManyRootLevelEntries m1 m2 m3 h =>
    cases h' with
    | endsInSlash h2 => exact absurd h2 (m1 _)
    | repeatSlashes _ h2 => exact absurd h2 (m2 _ _)
    | rootedPath _ _ h2 => exact absurd h2 (m3 _)
    | tooManyRootLevelEntries => rfl
    | leafAsDirectory _ _ _ h2 => exact absurd h2 h
    | leafHasMetadata ho _ _ _ h2 => subst ho; exact absurd h2 h
    | duplicatePath ho _ _ _ h2 => subst ho; exact absurd h2 h
  | leafAsDirectory m1 m2 m3 m4 h =>
    cases h' with
    | endsInSlash h2 => exact absurd h2 (m1 _)
    | repeatSlashes _ h2 => exact absurd h2 (m2 _ _)
    | rootedPath _ _ h2 => exact absurd h2 (m3 _)
    | tooManyRootLevelEntries _ _ _ h2 => exact absurd m4 h2
    | leafAsDirectory => rfl
    | leafHasMetadata => rfl
    | duplicatePath ho _ _ _ _ h2 => subst ho; exact absurd h h2
  | leafHasMetadata ho m1 m2 m3 m4 h =>
    subst ho
    cases h' with
    | endsInSlash h2 => exact absurd h2 (m1 _)
    | repeatSlashes _ h2 => exact absurd h2 (m2 _ _)
    | rootedPath _ _ h2 => exact absurd h2 (m3 _)
    | tooManyRootLevelEntries _ _ _ h2 => exact absurd m4 h2
    | leafAsDirectory => rfl
    | leafHasMetadata => rfl
    | duplicatePath ho => cases ho
  | duplicatePath ho m1 m2 m3 m4 m5 h =>
    subst ho
    cases h' with
    | endsInSlash h2 => exact absurd h2 (m1 _)
    | repeatSlashes _ h2 => exact absurd h2 (m2 _ _)
    | rootedPath _ _ h2 => exact absurd h2 (m3 _)
    | tooManyRootLevelEntries _ _ _ h2 => exact absurd m4 h2
    | leafAsDirectory _ _ _ _ h2 => exact absurd h2 m5
    | leafHasMetadata ho => cases ho
    | duplicatePath => rfl

/-- C11. A call is rejected with an error exactly when there is the reason for it: a trailing slash, an
empty segment, a leading slash, a second entry of the root that is not wrapped, a leaf used as a
directory, or a path that is taken. -/
theorem C11_reasons (opts : TreeOpts) (ops : List DirOp) (op : DirOp) (e : PutErr) :
    (op.run (builderAfter opts ops)).2 = .error e ↔
      Refused opts.wrapWithDirectory (entryAt (builderAfter opts ops).root) op e := by
  rcases run_cases opts ops op with ⟨e', h1, h2⟩ | ⟨h1, h2, _⟩
  · rw [h2]
    constructor
    · intro h; cases h; exact h1
    · intro h
      -- reasons exclude each other
      rw [h1.unique h]
  · rw [h1]
    constructor
    · intro h; cases h
    · intro h; exact absurd h (h2 e)

/-- C11. An accepted call puts the leaf or directory at its path, makes the directories on the way, and
changes nothing else. -/
theorem C11_accepted (opts : TreeOpts) (ops : List DirOp) (op : DirOp)
    (h : (op.run (builderAfter opts ops)).2 = .ok ()) (q : List Bytes) :
    entryAt (op.run (builderAfter opts ops)).1.root q =
      if q = splitSlash op.path then some op.kind
      else if q <+: splitSlash op.path then some .dir
      else entryAt (builderAfter opts ops).root q := by
  rcases run_cases opts ops op with ⟨e', _, h2⟩ | ⟨_, _, h3⟩
  · rw [h2] at h; cases h
  · exact h3 q

/-- The calls that were accepted. -/
def acceptedOps (b : Builder) : List DirOp → List DirOp
  | [] => []
  | op :: ops =>
    match op.run b with
    | (b', .ok _) => op :: acceptedOps b' ops
    | (b', .error _) => acceptedOps b' ops

theorem acceptedOps_append (b : Builder) (xs ys : List DirOp) :
    acceptedOps b (xs ++ ys) =
      acceptedOps b xs ++ acceptedOps (xs.foldl (fun b op => (op.run b).1) b) ys := by
  induction xs generalizing b with
  | nil => rfl
  | cons op xs ih =>
    simp only [List.cons_append, acceptedOps, List.foldl_cons]
    rcases op.run b with ⟨b', r⟩
    cases r <;> simp [ih]

theorem builderAfter_snoc (opts : TreeOpts) (ops : List DirOp) (op : DirOp) :
    builderAfter opts (ops ++ [op]) = (op.run (builderAfter opts ops)).1 := by
  unfold builderAfter; rw [List.foldl_append]; rfl

theorem acceptedOps_snoc (opts : TreeOpts) (ops : List DirOp) (op : DirOp) :
    acceptedOps (Builder.new opts) (ops ++ [op]) = acceptedOps (Builder.new opts) ops ++
      (match (op.run (builderAfter opts ops)).2 with | .ok _ => [op] | .error _ => []) := by
  rw [acceptedOps_append]
  simp only [acceptedOps]
  rw [show ops.foldl (fun b op => (op.run b).1) (Builder.new opts) = builderAfter opts ops from rfl]
  rcases op.run (builderAfter opts ops) with ⟨b', r⟩
  cases r <;> rfl

/-- Induction over the calls from the first. -/
theorem ops_induction {P : List DirOp → Prop} (h0 : P []) (h1 : ∀ ops op, P ops → P (ops ++ [op])) :
    ∀ ops, P ops := by
  have key : ∀ ys xs, P xs → P (xs ++ ys) := by
    intro ys
    induction ys with
    | nil => intro xs h; simpa using h
    | cons y ys ih => intro xs h; have := ih (xs ++ [y]) (h1 xs y h); simpa using this
  intro ops
  simpa using key ops [] h0

theorem entryAt_rejected {opts : TreeOpts} {ops : List DirOp} {op : DirOp} {e : PutErr}
    (h : (op.run (builderAfter opts ops)).2 = .error e) :
    (op.run (builderAfter opts ops)).1.root = (builderAfter opts ops).root :=
  (C11_rejected_changes_nothing opts ops op (b' := (op.run (builderAfter opts ops)).1) (e := e)
    (Prod.ext rfl h)).1

/-- C11. The tree is made of the accepted calls alone: its leaves are those put, its directories the root,
those on the way to something, and those given attributes. -/
theorem C11_tree (opts : TreeOpts) (ops : List DirOp) (q : List Bytes) :
    (∀ l, entryAt (builderAfter opts ops).root q = some (.leaf l) ↔
      ∃ op ∈ acceptedOps (Builder.new opts) ops, splitSlash op.path = q ∧ op.kind = .leaf l) ∧
    (entryAt (builderAfter opts ops).root q = some .dir ↔
      q = [] ∨ ∃ op ∈ acceptedOps (Builder.new opts) ops,
        (q <+: splitSlash op.path ∧ q ≠ splitSlash op.path) ∨ (q = splitSlash op.path ∧ op.kind = .dir)) := by
  induction ops using ops_induction generalizing q with
  | h0 =>
    cases q with
    | nil => simp [acceptedOps, entryAt]
    | cons x q => simp [acceptedOps, entryAt, builderAfter, Builder.new, DirBuilder.root, AMap.get]
  | h1 ops op ih =>
    rw [builderAfter_snoc, acceptedOps_snoc]
    cases hr : (op.run (builderAfter opts ops)).2 with
    | error e => rw [entryAt_rejected hr]; simpa using ih q
    | ok u =>
      have hacc := C11_accepted opts ops op hr q
      have hno : ∀ e, ¬ Refused opts.wrapWithDirectory (entryAt (builderAfter opts ops).root) op e := by
        rcases run_cases opts ops op with ⟨e', _, h2⟩ | ⟨_, h3, _⟩
        · rw [h2] at hr; cases hr
        · exact h3
      rw [hacc]
      obtain ⟨ih1, ih2⟩ := ih q
      simp only [List.mem_append, List.mem_singleton, or_and_right, exists_or, exists_eq_left]
      -- no leaf is at the path or on the way
      have hclear : q <+: splitSlash op.path → ∀ l, entryAt (builderAfter opts ops).root q ≠ some (.leaf l) := by
        intro hp l hl
        have n1 : ∀ q, op.path ≠ q ++ [47] := fun q hq => hno _ (.endsInSlash hq)
        have n2 : ∀ q r, op.path ≠ q ++ 47 :: 47 :: r := fun q r hq => hno _ (.repeatSlashes n1 hq)
        have n3 : ∀ r, op.path ≠ 47 :: r := fun r hq => hno _ (.rootedPath n1 n2 hq)
        have hroom := Classical.byContradiction fun h => hno _ (.tooManyRootLevelEntries n1 n2 n3 h)
        have hway : ¬ LeafOnWay (entryAt (builderAfter opts ops).root) (splitSlash op.path) :=
          fun h => hno _ (.leafAsDirectory n1 n2 n3 hroom h)
        by_cases hq : q = splitSlash op.path
        · cases op with
          | put p c n =>
            refine hno _ (.duplicatePath rfl n1 n2 n3 hroom hway ?_)
            show entryAt _ (splitSlash (DirOp.put p c n).path) ≠ none
            rw [← hq, hl]; simp
          | attrs p m =>
            refine hno _ (.leafHasMetadata (l := l) rfl n1 n2 n3 hroom ?_)
            show entryAt _ (splitSlash (DirOp.attrs p m).path) = _
            rw [← hq, hl]
        · exact hway ⟨q, l, hp, hq, hl⟩
      by_cases hq : q = splitSlash op.path
      · subst hq
        rw [if_pos rfl]
        have hsame := hclear (List.prefix_refl _)
        refine ⟨fun l => ?_, ?_⟩
        · constructor
          · intro h; exact Or.inr ⟨rfl, by simpa using h⟩
          · rintro (h | h)
            · exact absurd ((ih1 l).mpr h) (hsame l)
            · rw [h.2]
        · constructor
          · intro h; exact Or.inr (Or.inr (Or.inr ⟨rfl, by simpa using h⟩))
          · rintro (h | h | h)
            · exact absurd h (splitSlash_ne_nil _)
            · cases op with
              | attrs p m => rfl
              | put p c n =>
                -- the path was taken
                have := ih2.mpr (Or.inr h)
                exfalso
                have n1 : ∀ q, p ≠ q ++ [47] := fun q hq => hno _ (.endsInSlash hq)
                have n2 : ∀ q r, p ≠ q ++ 47 :: 47 :: r := fun q r hq => hno _ (.repeatSlashes n1 hq)
                have n3 : ∀ r, p ≠ 47 :: r := fun r hq => hno _ (.rootedPath n1 n2 hq)
                have hroom := Classical.byContradiction fun h => hno _ (.tooManyRootLevelEntries n1 n2 n3 h)
                have hway : ¬ LeafOnWay (entryAt (builderAfter opts ops).root) (splitSlash p) :=
                  fun h => hno _ (.leafAsDirectory n1 n2 n3 hroom h)
                refine hno _ (.duplicatePath rfl n1 n2 n3 hroom hway ?_)
                simp only [DirOp.path] at this
                rw [this]; simp
            · rcases h with h | h
              · exact absurd rfl h.2
              · rw [h.2]
      · rw [if_neg hq]
        by_cases hp : q <+: splitSlash op.path
        · rw [if_pos hp]
          have hsame := hclear hp
          refine ⟨fun l => ?_, ?_⟩
          · constructor
            · intro h; cases h
            · rintro (h | h)
              · exact absurd ((ih1 l).mpr h) (hsame l)
              · exact absurd h.1.symm hq
          · exact ⟨fun _ => Or.inr (Or.inr (Or.inl ⟨hp, hq⟩)), fun _ => rfl⟩
        · rw [if_neg hp]
          refine ⟨fun l => ?_, ?_⟩
          · rw [ih1 l]
            exact ⟨fun h => Or.inl h, fun h => h.elim id (fun h => absurd h.1.symm hq)⟩
          · rw [ih2]
            refine ⟨fun h => h.elim Or.inl (fun h => Or.inr (Or.inl h)), ?_⟩
            rintro (h | h | h)
            · exact Or.inl h
            · exact Or.inr h
            · rcases h with h | h
              · exact absurd h.1 hp
              · exact absurd h.1 hq

/-- After `a/b` is put, `a/b/c` goes through a leaf, `a/b` is taken, `a/d/` ends in a slash, and `z` would
be a second entry of the root; `a/z` is accepted. -/
example :
    let c := Cid.v0 (List.replicate 32 7)
    let b := builderAfter {} [.put "a/b".toUTF8.toList c 5]
    (DirOp.run b (.put "a/b/c".toUTF8.toList c 5)).2 = .error .leafAsDirectory ∧
    (DirOp.run b (.put "a/b".toUTF8.toList c 5)).2 = .error .duplicatePath ∧
    (DirOp.run b (.put "a/d/".toUTF8.toList c 5)).2 = .error .endsInSlash ∧
    (DirOp.run b (.put "z".toUTF8.toList c 5)).2 = .error .tooManyRootLevelEntries ∧
    (DirOp.run b (.put "a/z".toUTF8.toList c 5)).2 = .ok () ∧
    entryAt b.root ["a".toUTF8.toList, "b".toUTF8.toList] = some (.leaf ⟨c, 5⟩) ∧
    entryAt b.root ["a".toUTF8.toList] = some .dir := by
  decide +kernel

end Verif.Props
