import Verif.Http.RefsOptions

/-!
# C52: the options of the refs endpoint
-/

namespace Verif.Props

open Verif Verif.Http.RefsOptions

/-! ### Specification -/

/-- The values given for a key, in order. -/
def given (key : String) (q : List (Bytes × Bytes)) : List Bytes :=
  q.filterMap (fun e => if e.1 = key.toUTF8.toList then some e.2 else none)

/-- The option was not given, or once with a value that is understood as `x`. -/
def Once {α : Type} (read : Bytes → Option α) (vals : List Bytes) (x : Option α) : Prop :=
  (vals = [] ∧ x = none) ∨ ∃ v a, vals = [v] ∧ read v = some a ∧ x = some a

/-- `-?[0-9]+` or `+?[0-9]+` in the range of 64-bit integers: the number meant. -/
def IsI64 (s : Bytes) (x : Int) : Prop :=
  -(2 : Int) ^ 63 ≤ x ∧ x < 2 ^ 63 ∧
    ∃ neg : Bool, ∃ ds : List Nat, ds ≠ [] ∧ (∀ d ∈ ds, d < 10) ∧
      (s = (if neg then [0x2D] else []) ++ ds.map (fun d => UInt8.ofNat (d + 48)) ∨
        (neg = false ∧ s = 0x2B :: ds.map (fun d => UInt8.ofNat (d + 48)))) ∧
      x = if neg then -(ofDigits 10 ds : Int) else ofDigits 10 ds

/-- "true" or "false". -/
def readBool (s : Bytes) : Option Bool :=
  if s = "true".toUTF8.toList then some true else if s = "false".toUTF8.toList then some false else none

/-! ### Helpers -/

theorem parseBool_eq : parseBool = readBool := by
  funext s
  have h1 : "true".toUTF8.toList = [0x74, 0x72, 0x75, 0x65] := by decide +kernel
  have h2 : "false".toUTF8.toList = [0x66, 0x61, 0x6C, 0x73, 0x65] := by decide +kernel
  simp only [parseBool, readBool, h1, h2]

/-- The values of a key given as bytes. -/
def vals (key : Bytes) (q : List (Bytes × Bytes)) : List Bytes :=
  q.filterMap (fun e => if e.1 = key then some e.2 else none)

theorem vals_append (key : Bytes) (p : List (Bytes × Bytes)) (kv : Bytes × Bytes) :
    vals key (p ++ [kv]) = vals key p ++ (if kv.1 = key then [kv.2] else []) := by
  simp only [vals, List.filterMap_append]
  congr 1
  by_cases h : kv.1 = key <;> simp [h]

/-- What the variables are after `p`. -/
structure OptInv {D : Type} (dur : Bytes → Option D) (p : List (Bytes × Bytes)) (st : St D) : Prop where
  args : st.args = vals kArg p
  format : Once some (vals kFormat p) st.format
  timeout : Once dur (vals kTimeout p) st.timeout
  maxDepth : Once parseI64 (vals kMaxDepth p) st.maxDepth
  edges : Once parseBool (vals kEdges p) st.edges
  unique : Once parseBool (vals kUnique p) st.unique
  recursive : Once parseBool (vals kRecursive p) st.recursive

theorem once_keep {α : Type} {f : Bytes → Option α} {key : Bytes} {p : List (Bytes × Bytes)} {kv : Bytes × Bytes}
    {x : Option α} (h : Once f (vals key p) x) (hk : kv.1 ≠ key) : Once f (vals key (p ++ [kv])) x := by
  rw [vals_append, if_neg hk, List.append_nil]; exact h

theorem once_set {α : Type} {f : Bytes → Option α} {key : Bytes} {p : List (Bytes × Bytes)} {kv : Bytes × Bytes}
    {slot y : Option α} {e : OptErr} (h : Once f (vals key p) slot) (hk : kv.1 = key)
    (hs : setOnce kv.1 slot (orErr e (f kv.2)) = .ok y) : Once f (vals key (p ++ [kv])) y := by
  rw [vals_append, if_pos hk]
  rcases h with ⟨h1, rfl⟩ | ⟨v, a, -, -, rfl⟩
  · simp only [setOnce] at hs
    cases hf : f kv.2 with
    | none => rw [hf] at hs; cases hs
    | some a =>
      rw [hf] at hs
      simp only [orErr, Except.ok.injEq] at hs
      subst hs
      exact Or.inr ⟨kv.2, a, by rw [h1]; rfl, hf, rfl⟩
  · cases hs

/-- An error when a value is set: it was given before, or is not understood. -/
theorem once_err {α : Type} {f : Bytes → Option α} {key : Bytes} {p : List (Bytes × Bytes)} {kv : Bytes × Bytes}
    {slot : Option α} {e e' : OptErr} (h : Once f (vals key p) slot) (hk : kv.1 = key)
    (hs : setOnce kv.1 slot (orErr e (f kv.2)) = .error e') (rest : List (Bytes × Bytes)) :
    (¬ ∃ x, Once f (vals key (p ++ kv :: rest)) x) ∧
    ((e' = .duplicate key ∧ 2 ≤ (vals key (p ++ kv :: rest)).length) ∨ (e' = e ∧ f kv.2 = none)) := by
  have hv : vals key (p ++ kv :: rest) = vals key p ++ kv.2 :: vals key rest := by
    simp [vals, List.filterMap_append, hk]
  rw [hv]
  rcases h with ⟨h1, rfl⟩ | ⟨v, a, h1, -, rfl⟩
  · rw [h1]
    simp only [setOnce] at hs
    cases hf : f kv.2 with
    | some a => rw [hf] at hs; cases hs
    | none =>
      rw [hf] at hs
      simp only [orErr, Except.error.injEq] at hs
      refine ⟨?_, Or.inr ⟨hs.symm, rfl⟩⟩
      rintro ⟨x, ⟨h2, -⟩ | ⟨v, a, h2, h3, -⟩⟩
      · cases h2
      · simp only [List.nil_append, List.cons.injEq] at h2
        rw [← h2.1, hf] at h3; cases h3
  · rw [h1]
    simp only [setOnce, Except.error.injEq] at hs
    refine ⟨?_, Or.inl ⟨by rw [← hs, hk], by simp⟩⟩
    rintro ⟨x, ⟨h2, -⟩ | ⟨v', a', h2, -, -⟩⟩
    · cases h2
    · simp at h2

theorem optInv_init {D : Type} (dur : Bytes → Option D) : OptInv dur [] {} :=
  ⟨rfl, Or.inl ⟨rfl, rfl⟩, Or.inl ⟨rfl, rfl⟩, Or.inl ⟨rfl, rfl⟩, Or.inl ⟨rfl, rfl⟩, Or.inl ⟨rfl, rfl⟩, Or.inl ⟨rfl, rfl⟩⟩

/-- Why options are rejected in the loop. -/
def OptWhy {D : Type} (dur : Bytes → Option D) (q : List (Bytes × Bytes)) : OptErr → Prop
  | .duplicate k => k ∈ [kFormat, kTimeout, kMaxDepth, kEdges, kUnique, kRecursive] ∧ 2 ≤ (vals k q).length
  | .missingArg => False
  | .number k v => k = kMaxDepth ∧ (k, v) ∈ q ∧ parseI64 v = none
  | .boolean k v => k ∈ [kEdges, kUnique, kRecursive] ∧ (k, v) ∈ q ∧ parseBool v = none
  | .duration => ∃ v, (kTimeout, v) ∈ q ∧ dur v = none

/-- The options are all understood. -/
def OptGood {D : Type} (dur : Bytes → Option D) (q : List (Bytes × Bytes)) : Prop := ∃ st : St D, OptInv dur q st

theorem opt_step {D : Type} {dur : Bytes → Option D} {p : List (Bytes × Bytes)} {st : St D} (h : OptInv dur p st)
    (kv : Bytes × Bytes) :
    (∀ st', step dur st kv = .ok st' → OptInv dur (p ++ [kv]) st') ∧
    (∀ e rest, step dur st kv = .error e → ¬ OptGood dur (p ++ kv :: rest) ∧ OptWhy dur (p ++ kv :: rest) e) := by
  obtain ⟨k, v⟩ := kv
  have hformat : (Except.ok v : Except OptErr Bytes) = orErr .duration (some v) := rfl
  unfold step
  by_cases h1 : k = kArg
  · subst h1
    refine ⟨?_, ?_⟩
    · intro st' hs
      simp only [if_true, Except.ok.injEq] at hs
      subst hs
      refine ⟨by rw [vals_append]; simp [h.args], once_keep h.format (by simp only; decide), once_keep h.timeout (by simp only; decide),
        once_keep h.maxDepth (by simp only; decide), once_keep h.edges (by simp only; decide), once_keep h.unique (by simp only; decide),
        once_keep h.recursive (by simp only; decide)⟩
    · intro e rest hs
      simp only [if_true] at hs; cases hs
  rw [if_neg h1]
  have hargs : st.args = vals kArg (p ++ [(k, v)]) := by rw [vals_append, if_neg h1, List.append_nil]; exact h.args
  by_cases h2 : k = kFormat
  · subst h2
    rw [if_pos rfl]
    constructor
    · intro st' hs
      split at hs
      · cases hs
      · rename_i x hx
        simp only [Except.ok.injEq] at hs
        subst hs
        exact ⟨hargs, once_set (e := .duration) h.format rfl hx, once_keep h.timeout (by simp only; decide), once_keep h.maxDepth (by simp only; decide),
          once_keep h.edges (by simp only; decide), once_keep h.unique (by simp only; decide), once_keep h.recursive (by simp only; decide)⟩
    · intro e rest hs
      split at hs
      · rename_i e' hx
        simp only [Except.error.injEq] at hs
        subst hs
        obtain ⟨ha, hb⟩ := once_err (e := .duration) (f := some) h.format rfl hx rest
        refine ⟨fun ⟨st', hg⟩ => ha ⟨_, hg.format⟩, ?_⟩
        rcases hb with ⟨rfl, hb⟩ | ⟨-, hb⟩
        · exact ⟨by simp, hb⟩
        · cases hb
      · cases hs
  rw [if_neg h2]
  by_cases h3 : k = kTimeout
  · subst h3
    rw [if_pos rfl]
    constructor
    · intro st' hs
      split at hs
      · cases hs
      · rename_i x hx
        simp only [Except.ok.injEq] at hs
        subst hs
        exact ⟨hargs, once_keep h.format (by simp only; decide), once_set h.timeout rfl hx, once_keep h.maxDepth (by simp only; decide),
          once_keep h.edges (by simp only; decide), once_keep h.unique (by simp only; decide), once_keep h.recursive (by simp only; decide)⟩
    · intro e rest hs
      split at hs
      · rename_i e' hx
        simp only [Except.error.injEq] at hs
        subst hs
        obtain ⟨ha, hb⟩ := once_err h.timeout rfl hx rest
        refine ⟨fun ⟨st', hg⟩ => ha ⟨_, hg.timeout⟩, ?_⟩
        rcases hb with ⟨rfl, hb⟩ | ⟨rfl, hb⟩
        · exact ⟨by simp, hb⟩
        · exact ⟨v, by simp, hb⟩
      · cases hs
  rw [if_neg h3]
  by_cases h4 : k = kMaxDepth
  · subst h4
    rw [if_pos rfl]
    constructor
    · intro st' hs
      split at hs
      · cases hs
      · rename_i x hx
        simp only [Except.ok.injEq] at hs
        subst hs
        exact ⟨hargs, once_keep h.format (by simp only; decide), once_keep h.timeout (by simp only; decide), once_set h.maxDepth rfl hx,
          once_keep h.edges (by simp only; decide), once_keep h.unique (by simp only; decide), once_keep h.recursive (by simp only; decide)⟩
    · intro e rest hs
      split at hs
      · rename_i e' hx
        simp only [Except.error.injEq] at hs
        subst hs
        obtain ⟨ha, hb⟩ := once_err h.maxDepth rfl hx rest
        refine ⟨fun ⟨st', hg⟩ => ha ⟨_, hg.maxDepth⟩, ?_⟩
        rcases hb with ⟨rfl, hb⟩ | ⟨rfl, hb⟩
        · exact ⟨by simp, hb⟩
        · exact ⟨rfl, by simp, hb⟩
      · cases hs
  rw [if_neg h4]
  by_cases h5 : k = kEdges
  · subst h5
    rw [if_pos rfl]
    constructor
    · intro st' hs
      split at hs
      · cases hs
      · rename_i x hx
        simp only [Except.ok.injEq] at hs
        subst hs
        exact ⟨hargs, once_keep h.format (by simp only; decide), once_keep h.timeout (by simp only; decide), once_keep h.maxDepth (by simp only; decide),
          once_set h.edges rfl hx, once_keep h.unique (by simp only; decide), once_keep h.recursive (by simp only; decide)⟩
    · intro e rest hs
      split at hs
      · rename_i e' hx
        simp only [Except.error.injEq] at hs
        subst hs
        obtain ⟨ha, hb⟩ := once_err h.edges rfl hx rest
        refine ⟨fun ⟨st', hg⟩ => ha ⟨_, hg.edges⟩, ?_⟩
        rcases hb with ⟨rfl, hb⟩ | ⟨rfl, hb⟩
        · exact ⟨by simp, hb⟩
        · exact ⟨by simp, by simp, hb⟩
      · cases hs
  rw [if_neg h5]
  by_cases h6 : k = kUnique
  · subst h6
    rw [if_pos rfl]
    constructor
    · intro st' hs
      split at hs
      · cases hs
      · rename_i x hx
        simp only [Except.ok.injEq] at hs
        subst hs
        exact ⟨hargs, once_keep h.format (by simp only; decide), once_keep h.timeout (by simp only; decide), once_keep h.maxDepth (by simp only; decide),
          once_keep h.edges (by simp only; decide), once_set h.unique rfl hx, once_keep h.recursive (by simp only; decide)⟩
    · intro e rest hs
      split at hs
      · rename_i e' hx
        simp only [Except.error.injEq] at hs
        subst hs
        obtain ⟨ha, hb⟩ := once_err h.unique rfl hx rest
        refine ⟨fun ⟨st', hg⟩ => ha ⟨_, hg.unique⟩, ?_⟩
        rcases hb with ⟨rfl, hb⟩ | ⟨rfl, hb⟩
        · exact ⟨by simp, hb⟩
        · exact ⟨by simp, by simp, hb⟩
      · cases hs
  rw [if_neg h6]
  by_cases h7 : k = kRecursive
  · subst h7
    rw [if_pos rfl]
    constructor
    · intro st' hs
      split at hs
      · cases hs
      · rename_i x hx
        simp only [Except.ok.injEq] at hs
        subst hs
        exact ⟨hargs, once_keep h.format (by simp only; decide), once_keep h.timeout (by simp only; decide), once_keep h.maxDepth (by simp only; decide),
          once_keep h.edges (by simp only; decide), once_keep h.unique (by simp only; decide), once_set h.recursive rfl hx⟩
    · intro e rest hs
      split at hs
      · rename_i e' hx
        simp only [Except.error.injEq] at hs
        subst hs
        obtain ⟨ha, hb⟩ := once_err h.recursive rfl hx rest
        refine ⟨fun ⟨st', hg⟩ => ha ⟨_, hg.recursive⟩, ?_⟩
        rcases hb with ⟨rfl, hb⟩ | ⟨rfl, hb⟩
        · exact ⟨by simp, hb⟩
        · exact ⟨by simp, by simp, hb⟩
      · cases hs
  rw [if_neg h7]
  constructor
  · intro st' hs
    simp only [Except.ok.injEq] at hs
    subst hs
    exact ⟨hargs, once_keep h.format h2, once_keep h.timeout h3, once_keep h.maxDepth h4, once_keep h.edges h5,
      once_keep h.unique h6, once_keep h.recursive h7⟩
  · intro e rest hs; cases hs

theorem opt_fold {D : Type} {dur : Bytes → Option D} : ∀ (l : List (Bytes × Bytes)) {p : List (Bytes × Bytes)} {st : St D},
    OptInv dur p st →
    (∀ st', fold dur st l = .ok st' → OptInv dur (p ++ l) st') ∧
    (∀ e, fold dur st l = .error e → ¬ OptGood dur (p ++ l) ∧ OptWhy dur (p ++ l) e) := by
  intro l
  induction l with
  | nil =>
    intro p st h
    refine ⟨?_, fun e he => by cases he⟩
    intro st' hs
    simp only [fold, Except.ok.injEq] at hs
    subst hs
    rw [List.append_nil]; exact h
  | cons kv l ih =>
    intro p st h
    obtain ⟨h1, h2⟩ := opt_step h kv
    simp only [fold]
    cases hs : step dur st kv with
    | error e =>
      refine ⟨fun st' hst => (by cases hst), ?_⟩
      intro e' he
      simp only [Except.error.injEq] at he
      subst he
      exact h2 e l hs
    | ok st1 =>
      have := ih (h1 st1 hs)
      rw [List.append_assoc, List.singleton_append] at this
      exact this

theorem once_inj {α : Type} {f : Bytes → Option α} {vs : List Bytes} {x y : Option α} (h1 : Once f vs x) (h2 : Once f vs y) :
    x = y := by
  rcases h1 with ⟨a, rfl⟩ | ⟨v, a, hv, hf, rfl⟩ <;> rcases h2 with ⟨b, rfl⟩ | ⟨w, b, hw, hg, rfl⟩
  · rfl
  · rw [a] at hw; cases hw
  · rw [hv] at b; cases b
  · rw [hv] at hw
    simp only [List.cons.injEq, and_true] at hw
    rw [← hw, hf] at hg
    rw [hg]

theorem given_eq : (given "arg" = vals kArg ∧ given "format" = vals kFormat ∧ given "timeout" = vals kTimeout ∧
    given "max-depth" = vals kMaxDepth ∧ given "edges" = vals kEdges ∧ given "unique" = vals kUnique ∧
    given "recursive" = vals kRecursive) := by
  have h : ∀ (s : String) (k : Bytes), s.toUTF8.toList = k → given s = vals k := by
    intro s k e; funext q; simp only [given, vals, e]
  exact ⟨h _ _ (by decide +kernel), h _ _ (by decide +kernel), h _ _ (by decide +kernel), h _ _ (by decide +kernel),
    h _ _ (by decide +kernel), h _ _ (by decide +kernel), h _ _ (by decide +kernel)⟩

/-! ### Theorems -/

/-- **C52**: the query is accepted with the result `o` exactly when there is an argument, every option was
given at most once with a value that is understood, and `o` has just these values. All depends on the values
given for each key only, so not on the order of different keys nor on any other keys. -/
theorem C52_parse {D : Type} (dur : Bytes → Option D) (q : List (Bytes × Bytes)) (o : RefsOptions D) :
    parse dur q = .ok o ↔
      given "arg" q ≠ [] ∧ o.arg = given "arg" q ∧
      Once some (given "format" q) o.format ∧
      Once dur (given "timeout" q) o.timeout ∧
      Once parseI64 (given "max-depth" q) o.maxDepth ∧
      (∃ x, Once readBool (given "edges" q) x ∧ o.edges = x.getD false) ∧
      (∃ x, Once readBool (given "unique" q) x ∧ o.unique = x.getD false) ∧
      (∃ x, Once readBool (given "recursive" q) x ∧ o.recursive = x.getD false) := by
  obtain ⟨e1, e2, e3, e4, e5, e6, e7⟩ := given_eq
  rw [e1, e2, e3, e4, e5, e6, e7, ← parseBool_eq]
  obtain ⟨h1, h2⟩ := opt_fold (dur := dur) q (optInv_init dur)
  simp only [List.nil_append] at h1 h2
  unfold parse
  cases hf : fold dur {} q with
  | error e =>
    simp only [reduceCtorEq, false_iff]
    rintro ⟨-, ha, hb, hc, hd, ⟨x, hx, -⟩, ⟨y, hy, -⟩, ⟨z, hz, -⟩⟩
    exact (h2 e hf).1 ⟨⟨o.arg, o.format, o.timeout, x, y, z, o.maxDepth⟩, ⟨ha, hb, hc, hd, hx, hy, hz⟩⟩
  | ok st =>
    have hi := h1 st hf
    simp only
    constructor
    · intro h
      split at h
      · cases h
      · rename_i hne
        simp only [Except.ok.injEq] at h
        subst h
        exact ⟨by rw [← hi.args]; exact hne, hi.args, hi.format, hi.timeout, hi.maxDepth, ⟨_, hi.edges, rfl⟩,
          ⟨_, hi.unique, rfl⟩, ⟨_, hi.recursive, rfl⟩⟩
    · rintro ⟨hne, ha, hb, hc, hd, ⟨x, hx, hx'⟩, ⟨y, hy, hy'⟩, ⟨z, hz, hz'⟩⟩
      rw [if_neg (by rw [hi.args]; exact hne)]
      cases o
      simp only at ha hb hc hd hx' hy' hz'
      simp only [Except.ok.injEq, RefsOptions.mk.injEq]
      refine ⟨by rw [hi.args, ha], once_inj hi.format hb, by rw [hx', once_inj hi.edges hx], by rw [hy', once_inj hi.unique hy],
        by rw [hz', once_inj hi.recursive hz], once_inj hi.maxDepth hd, once_inj hi.timeout hc⟩

/-- **C52**: the order of parameters with different keys, and unknown parameters, make no difference. -/
theorem C52_order {D : Type} (dur : Bytes → Option D) (p q : List (Bytes × Bytes)) (o : RefsOptions D)
    (h : ∀ k ∈ ["arg", "format", "timeout", "max-depth", "edges", "unique", "recursive"], given k p = given k q) :
    parse dur p = .ok o ↔ parse dur q = .ok o := by
  rw [C52_parse, C52_parse, h "arg" (by simp), h "format" (by simp), h "timeout" (by simp), h "max-depth" (by simp),
    h "edges" (by simp), h "unique" (by simp), h "recursive" (by simp)]

/-- **C52**: every error is justified. -/
theorem C52_errors {D : Type} (dur : Bytes → Option D) (q : List (Bytes × Bytes)) (e : OptErr)
    (h : parse dur q = .error e) :
    (e = .missingArg ∧ given "arg" q = []) ∨
    (∃ k ∈ ["format", "timeout", "max-depth", "edges", "unique", "recursive"], e = .duplicate k.toUTF8.toList ∧
      2 ≤ (given k q).length) ∨
    (∃ v ∈ given "max-depth" q, e = .number "max-depth".toUTF8.toList v ∧ parseI64 v = none) ∨
    (∃ k ∈ ["edges", "unique", "recursive"], ∃ v ∈ given k q, e = .boolean k.toUTF8.toList v ∧ readBool v = none) ∨
    (e = .duration ∧ ∃ v ∈ given "timeout" q, dur v = none) := by
  obtain ⟨e1, e2, e3, e4, e5, e6, e7⟩ := given_eq
  obtain ⟨h1, h2⟩ := opt_fold (dur := dur) q (optInv_init dur)
  simp only [List.nil_append] at h1 h2
  have kf : "format".toUTF8.toList = kFormat := by decide +kernel
  have kt : "timeout".toUTF8.toList = kTimeout := by decide +kernel
  have km : "max-depth".toUTF8.toList = kMaxDepth := by decide +kernel
  have ke : "edges".toUTF8.toList = kEdges := by decide +kernel
  have ku : "unique".toUTF8.toList = kUnique := by decide +kernel
  have kr : "recursive".toUTF8.toList = kRecursive := by decide +kernel
  have memv : ∀ k v, (k, v) ∈ q → v ∈ vals k q := by
    intro k v hm
    exact List.mem_filterMap.mpr ⟨(k, v), hm, by simp⟩
  unfold parse at h
  cases hf : fold dur {} q with
  | error e' =>
    rw [hf] at h
    simp only [Except.error.injEq] at h
    subst h
    obtain ⟨-, hw⟩ := h2 _ hf
    cases e' with
    | duplicate k =>
      obtain ⟨hk, hlen⟩ := hw
      refine Or.inr (Or.inl ?_)
      simp only [List.mem_cons, List.not_mem_nil, or_false] at hk
      rcases hk with rfl | rfl | rfl | rfl | rfl | rfl
      · exact ⟨"format", by simp, by rw [kf], by rw [e2]; exact hlen⟩
      · exact ⟨"timeout", by simp, by rw [kt], by rw [e3]; exact hlen⟩
      · exact ⟨"max-depth", by simp, by rw [km], by rw [e4]; exact hlen⟩
      · exact ⟨"edges", by simp, by rw [ke], by rw [e5]; exact hlen⟩
      · exact ⟨"unique", by simp, by rw [ku], by rw [e6]; exact hlen⟩
      · exact ⟨"recursive", by simp, by rw [kr], by rw [e7]; exact hlen⟩
    | missingArg => exact absurd hw (by simp [OptWhy])
    | number k v =>
      obtain ⟨rfl, hm, hn⟩ := hw
      exact Or.inr (Or.inr (Or.inl ⟨v, by rw [e4]; exact memv _ _ hm, by rw [km], hn⟩))
    | boolean k v =>
      obtain ⟨hk, hm, hn⟩ := hw
      rw [parseBool_eq] at hn
      refine Or.inr (Or.inr (Or.inr (Or.inl ?_)))
      simp only [List.mem_cons, List.not_mem_nil, or_false] at hk
      rcases hk with rfl | rfl | rfl
      · exact ⟨"edges", by simp, v, by rw [e5]; exact memv _ _ hm, by rw [ke], hn⟩
      · exact ⟨"unique", by simp, v, by rw [e6]; exact memv _ _ hm, by rw [ku], hn⟩
      · exact ⟨"recursive", by simp, v, by rw [e7]; exact memv _ _ hm, by rw [kr], hn⟩
    | duration =>
      obtain ⟨v, hm, hn⟩ := hw
      exact Or.inr (Or.inr (Or.inr (Or.inr ⟨rfl, v, by rw [e3]; exact memv _ _ hm, hn⟩)))
  | ok st =>
    rw [hf] at h
    simp only at h
    split at h
    · rename_i hne
      simp only [Except.error.injEq] at h
      exact Or.inl ⟨h.symm, by rw [e1, ← (h1 st hf).args]; exact hne⟩
    · cases h

theorem digitVals_iff (s : Bytes) (ds : List Nat) :
    digitVals s = some ds ↔ (∀ d ∈ ds, d < 10) ∧ s = ds.map (fun d => UInt8.ofNat (d + 48)) := by
  constructor
  · intro h
    induction s generalizing ds with
    | nil => simp only [digitVals, Option.some.injEq] at h; subst h; simp
    | cons b s ih =>
      simp only [digitVals] at h
      split at h
      · rename_i d ds' hd hds
        simp only [Option.some.injEq] at h
        subst h
        obtain ⟨h1, h2⟩ := ih ds' hds
        unfold digitVal at hd
        split at hd
        · rename_i hb
          simp only [Option.some.injEq] at hd
          subst hd
          refine ⟨?_, ?_⟩
          · intro x hx
            rcases List.mem_cons.mp hx with rfl | hx
            · omega
            · exact h1 x hx
          · rw [List.map_cons, ← h2, show b.toNat - 48 + 48 = b.toNat by omega, UInt8.ofNat_toNat]
        · cases hd
      · cases h
  · rintro ⟨h1, rfl⟩
    exact digitVals_map ds h1

theorem digit_ne {d : Nat} (hd : d < 10) : UInt8.ofNat (d + 48) ≠ 45 ∧ UInt8.ofNat (d + 48) ≠ 43 := by
  constructor <;> (intro h; have := congrArg UInt8.toNat h; simp [UInt8.toNat_ofNat'] at this; omega)

/-- **C52**: numbers are read as the integers they denote, within 64 bits, and nothing else is. -/
theorem C52_number (s : Bytes) (x : Int) : parseI64 s = some x ↔ IsI64 s x := by
  have map_ne : ∀ {ds : List Nat}, ds ≠ [] → (ds.map (fun d => UInt8.ofNat (d + 48))) ≠ [] := by
    intro ds h hm; exact h (List.map_eq_nil_iff.mp hm)
  constructor
  · intro h
    unfold parseI64 at h
    split at h
    · rename_i t
      split at h
      · cases h
      · rename_i hne
        split at h
        · cases h
        · rename_i ds hds
          obtain ⟨h1, rfl⟩ := (digitVals_iff _ _).mp hds
          split at h
          · rename_i hle
            simp only [Option.some.injEq] at h
            subst h
            exact ⟨by omega, by omega, true, ds, fun e => hne (by rw [e]; rfl), h1, Or.inl rfl, rfl⟩
          · cases h
    · rename_i hnm
      split at h
      · cases h
      · rename_i hne
        split at h
        · cases h
        · rename_i ds hds
          obtain ⟨h1, h2⟩ := (digitVals_iff _ _).mp hds
          split at h
          · rename_i hle
            simp only [Option.some.injEq] at h
            subst h
            refine ⟨by omega, by omega, false, ds, fun e => hne (by rw [h2, e]; rfl), h1, ?_, rfl⟩
            unfold stripPlus at h2
            split at h2
            · rename_i t; exact Or.inr ⟨rfl, by rw [h2]⟩
            · exact Or.inl h2
          · cases h
  · rintro ⟨hlo, hhi, neg, ds, hne, h1, hs, hx⟩
    have hdv := digitVals_map ds h1
    cases neg with
    | true =>
      simp only [if_true] at hs hx
      rcases hs with rfl | ⟨h, -⟩
      · unfold parseI64
        simp only [List.singleton_append]
        rw [if_neg (map_ne hne), hdv]
        simp only
        rw [if_pos (by omega), hx]
      · cases h
    | false =>
      simp only [Bool.false_eq_true, if_false, List.nil_append, true_and] at hs hx
      have hstrip : stripPlus s = ds.map (fun d => UInt8.ofNat (d + 48)) ∧ (∀ t, s ≠ 45 :: t) := by
        rcases hs with rfl | rfl
        · cases ds with
          | nil => exact absurd rfl hne
          | cons d ds =>
            have hd := digit_ne (h1 d (by simp))
            constructor
            · unfold stripPlus
              split
              · rename_i t heq
                simp only [List.map_cons, List.cons.injEq] at heq
                exact absurd heq.1 hd.2
              · rfl
            · intro t e
              simp only [List.map_cons, List.cons.injEq] at e
              exact hd.1 e.1
        · exact ⟨rfl, fun t e => by simp at e⟩
      unfold parseI64
      split
      · rename_i t; exact absurd rfl (hstrip.2 t)
      · rw [hstrip.1, if_neg (map_ne hne), hdv]
        simp only
        rw [if_pos (by omega), hx]

/-- **C52**: the depth asked for. Without `recursive` it is one; a limit is a number of at most 63 bits. -/
theorem C52_depth {D : Type} (dur : Bytes → Option D) (q : List (Bytes × Bytes)) (o : RefsOptions D)
    (h : parse dur q = .ok o) :
    (o.recursive = false → o.depth = some 1) ∧
    (o.recursive = true → ∀ n : Nat, o.maxDepth = some (n : Int) → o.depth = some n) ∧
    (o.recursive = true → (o.maxDepth = none ∨ ∃ x, o.maxDepth = some x ∧ x < 0) → o.depth = none) ∧
    (∀ d, o.depth = some d → d + 1 < 2 ^ 64) := by
  refine ⟨?_, ?_, ?_, ?_⟩
  · intro hr; simp [RefsOptions.depth, hr]
  · intro hr n hn; simp [RefsOptions.depth, hr, hn]
  · rintro hr (hn | ⟨x, hn, hx⟩)
    · simp [RefsOptions.depth, hr, hn]
    · simp only [RefsOptions.depth, hr, hn, if_true]
      rw [if_neg (by omega)]
  · intro d hd
    unfold RefsOptions.depth at hd
    split at hd
    · split at hd
      · rename_i x hx
        split at hd
        · simp only [Option.some.injEq] at hd
          obtain ⟨-, -, -, -, hm, -⟩ := (C52_parse dur q o).mp h
          rw [hx] at hm
          rcases hm with ⟨-, hm⟩ | ⟨v, a, -, hv, ha⟩
          · cases hm
          · obtain ⟨-, hlt, -⟩ := (C52_number v a).mp hv
            cases ha
            omega
        · cases hd
      · cases hd
    · simp only [Option.some.injEq] at hd; omega

/-! ### Examples -/

example : parse (D := Nat) (fun _ => none) [("x".toUTF8.toList, []), ("recursive".toUTF8.toList, "true".toUTF8.toList),
    ("arg".toUTF8.toList, "a".toUTF8.toList), ("max-depth".toUTF8.toList, "-1".toUTF8.toList), ("arg".toUTF8.toList, "b".toUTF8.toList)] =
    .ok ⟨["a".toUTF8.toList, "b".toUTF8.toList], none, false, false, true, some (-1), none⟩ := by decide +kernel

example : parse (D := Nat) (fun _ => none) [("arg".toUTF8.toList, []), ("edges".toUTF8.toList, "true".toUTF8.toList),
    ("edges".toUTF8.toList, "true".toUTF8.toList)] = .error (.duplicate "edges".toUTF8.toList) := by decide +kernel

example : IsI64 "-12".toUTF8.toList (-12) := by
  refine ⟨by decide, by decide, true, [1, 2], by decide, by decide, Or.inl (by decide +kernel), by decide⟩

end Verif.Props
