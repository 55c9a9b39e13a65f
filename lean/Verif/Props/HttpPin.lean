import Verif.Http.Pin
import Verif.Props.Block
import Verif.Props.PinWhen
import Verif.Props.PinsList

/-! # C70: pins over HTTP -/

namespace Verif.Props

open Verif Verif.Repo Verif.Spec Verif.Ipfs.Pin Verif.Http

variable {σ ε : Type}

/-! ### Specification -/

/-- All values given for "arg" are cids, and these are they, in order. -/
def ArgCids (q : QueryEnv) (ps : List (Bytes × Bytes)) (cids : List Cid) : Prop :=
  (valuesOf "arg".toUTF8.toList ps).map (Cid.ofText q.mb) = cids.map some

/-- What a query to `pin/add` asks for. -/
def AddAsked (q : QueryEnv) (query : Bytes) (cids : List Cid) (recursive progress : Bool) : Prop :=
  ∃ ps r p, Decoded q query ps ∧ ArgCids q ps cids ∧ cids ≠ [] ∧ Given readBool "recursive".toUTF8.toList ps r ∧
    Given readBool "progress".toUTF8.toList ps p ∧ recursive = r.getD false ∧ progress = p.getD false

/-- The names of filters. -/
def filterNames : List (Bytes × Option PinMode) :=
  [("all".toUTF8.toList, none), ("direct".toUTF8.toList, some .direct), ("indirect".toUTF8.toList, some .indirect),
   ("recursive".toUTF8.toList, some .recursive)]

/-- The filter of a name. -/
def readFilter (s : Bytes) : Option (Option PinMode) := (filterNames.find? (fun e => e.1 = s)).map Prod.snd

/-- What a query to `pin/ls` asks for. Whether the answer is to be in lines is said by "quiet". -/
def ListAsked (q : QueryEnv) (query : Bytes) (cids : List Cid) (filter : Option PinMode) (stream : Bool) : Prop :=
  ∃ ps f t quiet s, Decoded q query ps ∧ ArgCids q ps cids ∧
    Given readFilter "type".toUTF8.toList ps f ∧
    Given q.duration "timeout".toUTF8.toList ps t ∧ Given readBool "quiet".toUTF8.toList ps quiet ∧
    Given readBool "stream".toUTF8.toList ps s ∧ filter = f.getD none ∧ stream = quiet.getD true

/-- What a query to `pin/rm` asks for. -/
def UnpinAsked (q : QueryEnv) (query : Bytes) (c : Cid) (recursive : Bool) : Prop :=
  ∃ ps r, Decoded q query ps ∧ Given (Cid.ofText q.mb) "arg".toUTF8.toList ps (some c) ∧
    Given readBool "recursive".toUTF8.toList ps r ∧ recursive = r.getD true

/-- The parameter was given before. -/
def GivenIn (name : Bytes) (ps : List (Bytes × Bytes)) : Prop := ∃ p ∈ ps, p.1 = name

/-- What is wrong about a parameter with a boolean value, after others. -/
def BoolWrong (name : Bytes) (before : List (Bytes × Bytes)) (p : Bytes × Bytes) (e : PinOptErr) : Prop :=
  p.1 = name ∧ ((GivenIn name before ∧ e = .opt (.duplicate name)) ∨
    (¬ GivenIn name before ∧ readBool p.2 = none ∧ e = .opt (.boolean name p.2)))

/-- What is wrong about an argument. -/
def ArgWrong (q : QueryEnv) (p : Bytes × Bytes) (e : PinOptErr) : Prop :=
  p.1 = "arg".toUTF8.toList ∧ Cid.ofText q.mb p.2 = none ∧ e = .cid p.2

/-- What is wrong about a parameter of `pin/add`, after others. -/
def AddWrong (q : QueryEnv) (before : List (Bytes × Bytes)) (p : Bytes × Bytes) (e : PinOptErr) : Prop :=
  ArgWrong q p e ∨ BoolWrong "recursive".toUTF8.toList before p e ∨ BoolWrong "progress".toUTF8.toList before p e

/-- What is wrong about a parameter of `pin/ls`, after others. -/
def ListWrong (q : QueryEnv) (before : List (Bytes × Bytes)) (p : Bytes × Bytes) (e : PinOptErr) : Prop :=
  ArgWrong q p e ∨ BoolWrong "quiet".toUTF8.toList before p e ∨ BoolWrong "stream".toUTF8.toList before p e ∨
  (p.1 = "type".toUTF8.toList ∧ ((GivenIn p.1 before ∧ e = .opt (.duplicate p.1)) ∨
    (¬ GivenIn p.1 before ∧ readFilter p.2 = none ∧ e = .filter p.2))) ∨
  (p.1 = "timeout".toUTF8.toList ∧ ((GivenIn p.1 before ∧ e = .opt (.duplicate p.1)) ∨
    (¬ GivenIn p.1 before ∧ q.duration p.2 = none ∧ e = .opt .duration)))

/-- The first parameter about which something is wrong. -/
def FirstWrong (wrong : List (Bytes × Bytes) → Bytes × Bytes → PinOptErr → Prop) (ps : List (Bytes × Bytes))
    (e : PinOptErr) : Prop :=
  ∃ before p after, ps = before ++ p :: after ∧ wrong before p e ∧
    ∀ before' p' after', before = before' ++ p' :: after' → ∀ e', ¬ wrong before' p' e'

/-! ### Loops over queries -/

theorem pairLoop_snoc {V : Type} (step : V → Bytes × Bytes → Except PinOptErr V) (ps : List (Bytes × Bytes)) (p : Bytes × Bytes)
    (v : V) : pairLoop step v (ps ++ [p]) = (match pairLoop step v ps with
      | .error e => .error e
      | .ok v => step v p) := by
  induction ps generalizing v with
  | nil =>
    simp only [List.nil_append, pairLoop]
    cases step v p <;> rfl
  | cons a ps ih =>
    simp only [List.cons_append, pairLoop]
    cases step v a with
    | error e => rfl
    | ok v' => exact ih v'

theorem pairLoop_iff {V : Type} {step : V → Bytes × Bytes → Except PinOptErr V} {v0 : V}
    {R : List (Bytes × Bytes) → V → Prop} (h0 : ∀ v, R [] v ↔ v = v0)
    (hs : ∀ ps p v', (∃ v, R ps v ∧ step v p = .ok v') ↔ R (ps ++ [p]) v') (ps : List (Bytes × Bytes)) (v : V) :
    pairLoop step v0 ps = .ok v ↔ R ps v := by
  induction ps using snocInd generalizing v with
  | nil =>
    simp only [pairLoop, Except.ok.injEq, h0]
    exact eq_comm
  | snoc ps p ih =>
    rw [pairLoop_snoc, ← hs]
    cases hl : pairLoop step v0 ps with
    | error e =>
      simp only [reduceCtorEq, false_iff]
      rintro ⟨v', h1, -⟩
      rw [(ih v').mpr h1] at hl
      cases hl
    | ok v' =>
      simp only
      constructor
      · intro h; exact ⟨v', (ih v').mp hl, h⟩
      · rintro ⟨v'', h1, h2⟩
        rw [(ih v'').mpr h1] at hl
        cases hl
        exact h2

theorem pairLoop_error {V : Type} {step : V → Bytes × Bytes → Except PinOptErr V} {v0 : V}
    {R : List (Bytes × Bytes) → V → Prop} {W : List (Bytes × Bytes) → Bytes × Bytes → PinOptErr → Prop}
    (hR : ∀ ps v, pairLoop step v0 ps = .ok v → R ps v)
    (hW : ∀ ps v p e, R ps v → (step v p = .error e ↔ W ps p e)) (ps : List (Bytes × Bytes)) :
    (∀ e, pairLoop step v0 ps = .error e ↔ FirstWrong W ps e) ∧
    ((∃ v, pairLoop step v0 ps = .ok v) ↔ ∀ before p after, ps = before ++ p :: after → ∀ e, ¬ W before p e) := by
  induction ps using snocInd with
  | nil => simp [pairLoop, FirstWrong]
  | snoc ps p ih =>
    obtain ⟨ih1, ih2⟩ := ih
    have hcut : ∀ before (a : Bytes × Bytes) after, ps ++ [p] = before ++ a :: after →
        (after = [] ∧ before = ps ∧ a = p) ∨ ∃ after', after = after' ++ [p] ∧ ps = before ++ a :: after' := by
      intro before a after h
      rcases List.eq_nil_or_concat after with rfl | ⟨after', x, rfl⟩
      · left
        obtain ⟨h1, h2⟩ := List.append_inj' h rfl
        simp only [List.cons.injEq, and_true] at h2
        exact ⟨rfl, h1.symm, h2.symm⟩
      · right
        rw [List.concat_eq_append] at h ⊢
        have h' : ps ++ [p] = (before ++ a :: after') ++ [x] := by rw [h]; simp
        obtain ⟨h1, h2⟩ := List.append_inj' h' rfl
        simp only [List.cons.injEq, and_true] at h2
        exact ⟨after', by rw [h2], h1⟩
    rw [pairLoop_snoc]
    cases hl : pairLoop step v0 ps with
    | error e =>
      obtain ⟨before, a, after, h1, h2, h3⟩ := (ih1 e).mp hl
      refine ⟨fun e' => ?_, ?_⟩
      · simp only [Except.error.injEq]
        constructor
        · rintro rfl
          exact ⟨before, a, after ++ [p], by rw [h1]; simp, h2, h3⟩
        · rintro ⟨before', a', after', k1, k2, k3⟩
          rcases hcut _ _ _ k1 with ⟨-, rfl, rfl⟩ | ⟨after'', -, k5⟩
          · exact absurd h2 (k3 before a after h1 e)
          · have := (ih1 e').mpr ⟨before', a', after'', k5, k2, k3⟩
            rw [hl] at this
            exact Except.error.inj this
      · simp only [reduceCtorEq, exists_false, false_iff]
        intro h
        exact h before a (after ++ [p]) (by rw [h1]; simp) e h2
    | ok v =>
      have hno := ih2.mp ⟨v, hl⟩
      have hw := hW ps v p
      have hr := hR ps v hl
      refine ⟨fun e => ?_, ?_⟩
      · simp only
        rw [hw e hr]
        constructor
        · intro h
          exact ⟨ps, p, [], rfl, h, hno⟩
        · rintro ⟨before', a', after', k1, k2, k3⟩
          rcases hcut _ _ _ k1 with ⟨-, rfl, rfl⟩ | ⟨after'', -, k5⟩
          · exact k2
          · exact absurd k2 (hno _ _ _ k5 e)
      · simp only
        constructor
        · rintro ⟨v', hv'⟩ before a after h e he
          rcases hcut _ _ _ h with ⟨-, rfl, rfl⟩ | ⟨after'', -, k5⟩
          · rw [(hw e hr).mpr he] at hv'; cases hv'
          · exact hno _ _ _ k5 e he
        · intro h
          cases hst : step v p with
          | ok v' => exact ⟨v', rfl⟩
          | error e => exact absurd ((hw e hr).mp hst) (h ps p [] rfl e)

theorem given_snoc_ne {α : Type} {parse : Bytes → Option α} {name k v : Bytes} {ps : List (Bytes × Bytes)} {x : Option α}
    (h : k ≠ name) : Given parse name (ps ++ [(k, v)]) x ↔ Given parse name ps x := by
  rw [← queryField_iff, ← queryField_iff]
  unfold queryField fieldOnce
  rw [List.filter_append, List.filter_cons_of_neg (by simpa using h), List.filter_nil, List.append_nil]

theorem given_snoc_eq {α : Type} {parse : Bytes → Option α} {name v : Bytes} {ps : List (Bytes × Bytes)} {x : Option α} :
    Given parse name (ps ++ [(name, v)]) x ↔ Given parse name ps none ∧ ∃ y, parse v = some y ∧ x = some y := by
  rw [← queryField_iff]
  unfold queryField fieldOnce Given
  rw [List.filter_append, List.filter_cons_of_pos (by simp), List.filter_nil]
  cases hf : ps.filter (fun p => decide (p.1 = name)) with
  | nil =>
    have hn : ∀ p ∈ ps, p.1 ≠ name := by
      intro p hp hpn
      have : p ∈ ps.filter (fun p => decide (p.1 = name)) := List.mem_filter.mpr ⟨hp, by simpa using hpn⟩
      rw [hf] at this; simp at this
    simp only [List.nil_append]
    constructor
    · intro h
      cases hv : parse v with
      | none => rw [hv] at h; cases h
      | some y => rw [hv] at h; cases h; exact ⟨hn, y, rfl, rfl⟩
    · rintro ⟨-, y, h1, rfl⟩; rw [h1]
  | cons a l =>
    have ha : a ∈ ps.filter (fun p => decide (p.1 = name)) := by rw [hf]; simp
    obtain ⟨h1, h2⟩ := List.mem_filter.mp ha
    have hl : a :: l ++ [(name, v)] = a :: (l ++ [(name, v)]) := rfl
    rw [hl]
    constructor
    · intro h
      cases l <;> simp at h
    · rintro ⟨h, -⟩
      exact absurd (by simpa using h2) (h a h1)

theorem given_functional {α : Type} {parse : Bytes → Option α} {name : Bytes} {ps : List (Bytes × Bytes)} {x y : Option α}
    (h1 : Given parse name ps x) (h2 : Given parse name ps y) : x = y := by
  rw [← queryField_iff] at h1 h2
  rw [h1] at h2
  exact Except.ok.inj h2

theorem given_none_iff {α : Type} {parse : Bytes → Option α} {name : Bytes} {ps : List (Bytes × Bytes)} :
    Given parse name ps none ↔ ¬ GivenIn name ps := by
  simp only [Given, GivenIn, not_exists, not_and]

theorem given_isSome {α : Type} {parse : Bytes → Option α} {name : Bytes} {ps : List (Bytes × Bytes)} {x : α}
    (h : Given parse name ps (some x)) : GivenIn name ps := by
  obtain ⟨value, ⟨pre, post, rfl, -⟩, -⟩ := h
  exact ⟨(name, value), by simp, rfl⟩

/-- Setting a boolean, seen from outside. -/
theorem setBool_step {name v : Bytes} {ps : List (Bytes × Bytes)} {slot : Option Bool}
    (h : Given readBool name ps slot) :
    (∀ y, setBool name v slot = .ok y ↔ Given readBool name (ps ++ [(name, v)]) y) ∧
    (∀ e, setBool name v slot = .error e ↔ BoolWrong name ps (name, v) e) := by
  unfold setBool
  rw [parseBool_eq]
  cases slot with
  | some b =>
    have hg := given_isSome h
    refine ⟨fun y => ?_, fun e => ?_⟩
    · rw [given_snoc_eq, given_none_iff]
      simp [RefsOptions.setOnce, hg]
    · simp only [RefsOptions.setOnce, BoolWrong, hg, true_and, not_true, false_and, or_false, Except.error.injEq]
      exact eq_comm
  | none =>
    have hg := given_none_iff.mp h
    refine ⟨fun y => ?_, fun e => ?_⟩
    · rw [given_snoc_eq]
      cases hv : readBool v with
      | none => simp [RefsOptions.setOnce, RefsOptions.orErr]
      | some b =>
        simp only [RefsOptions.setOnce, RefsOptions.orErr, h, true_and, Option.some.injEq, exists_eq_left', Except.ok.injEq]
        exact eq_comm
    · cases hv : readBool v with
      | none =>
        simp only [RefsOptions.setOnce, RefsOptions.orErr, BoolWrong, hg, hv, true_and, not_false_eq_true, false_and, false_or,
          Except.error.injEq]
        exact eq_comm
      | some b => simp [RefsOptions.setOnce, RefsOptions.orErr, BoolWrong, hg, hv]

theorem argCids_snoc_eq {q : QueryEnv} {ps : List (Bytes × Bytes)} {v : Bytes} {l : List Cid} :
    ArgCids q (ps ++ [("arg".toUTF8.toList, v)]) l ↔ ∃ l' c, ArgCids q ps l' ∧ Cid.ofText q.mb v = some c ∧ l = l' ++ [c] := by
  unfold ArgCids valuesOf
  rw [List.filter_append, List.filter_cons_of_pos (by simp), List.filter_nil, List.map_append, List.map_append]
  simp only [List.map_cons, List.map_nil]
  constructor
  · intro h
    rcases List.eq_nil_or_concat l with rfl | ⟨l', c, rfl⟩
    · simp at h
    · rw [List.concat_eq_append, List.map_append] at h
      obtain ⟨h1, h2⟩ := List.append_inj' h rfl
      simp only [List.map_cons, List.map_nil, List.cons.injEq, and_true] at h2
      exact ⟨l', c, h1, h2, List.concat_eq_append⟩
  · rintro ⟨l', c, h1, h2, rfl⟩
    rw [h1, h2]; simp

theorem argCids_snoc_ne {q : QueryEnv} {ps : List (Bytes × Bytes)} {k v : Bytes} {l : List Cid} (h : k ≠ "arg".toUTF8.toList) :
    ArgCids q (ps ++ [(k, v)]) l ↔ ArgCids q ps l := by
  unfold ArgCids valuesOf
  rw [List.filter_append, List.filter_cons_of_neg (by simpa using h), List.filter_nil, List.append_nil]

theorem argCids_functional {q : QueryEnv} {ps : List (Bytes × Bytes)} {l l' : List Cid} (h1 : ArgCids q ps l)
    (h2 : ArgCids q ps l') : l = l' := by
  unfold ArgCids at h1 h2
  rw [h1] at h2
  exact (List.map_inj_right (fun _ _ h => Option.some.inj h)).mp h2

theorem kRecursive_ne : kArg ≠ kRecursive ∧ kArg ≠ kProgress ∧ kRecursive ≠ kProgress := by decide +kernel

/-- The variables say what was given so far. -/
def AddState (q : QueryEnv) (ps : List (Bytes × Bytes)) (v : AddVars) : Prop :=
  ArgCids q ps v.args ∧ Given readBool kRecursive ps v.recursive ∧ Given readBool kProgress ps v.progress

theorem addStep_ok (q : QueryEnv) (ps : List (Bytes × Bytes)) (p : Bytes × Bytes) (v' : AddVars) :
    (∃ v, AddState q ps v ∧ addStep q.mb v p = .ok v') ↔ AddState q (ps ++ [p]) v' := by
  obtain ⟨n1, n2, n3⟩ := kRecursive_ne
  obtain ⟨k, x⟩ := p
  unfold AddState addStep
  by_cases h1 : k = kArg
  · subst h1
    rw [kArg_eq, argCids_snoc_eq, ← kArg_eq, given_snoc_ne n1, given_snoc_ne n2]
    simp only [if_true]
    constructor
    · rintro ⟨v, ⟨g1, g2, g3⟩, h⟩
      cases hc : Cid.ofText q.mb x with
      | none => rw [hc] at h; cases h
      | some c => rw [hc] at h; cases h; exact ⟨⟨_, c, g1, rfl, rfl⟩, g2, g3⟩
    · rintro ⟨⟨l', c, g1, g2, g3⟩, g4, g5⟩
      refine ⟨⟨l', v'.recursive, v'.progress⟩, ⟨g1, g4, g5⟩, ?_⟩
      obtain ⟨a, r, p⟩ := v'
      simp only at g3
      subst g3
      rw [g2]
  · rw [argCids_snoc_ne (by rw [← kArg_eq]; exact h1)]
    simp only [if_neg h1]
    by_cases h2 : k = kRecursive
    · subst h2
      rw [given_snoc_ne n3]
      simp only [if_true]
      constructor
      · rintro ⟨v, ⟨g1, g2, g3⟩, h⟩
        cases hc : setBool kRecursive x v.recursive with
        | error e => rw [hc] at h; cases h
        | ok y => rw [hc] at h; cases h; exact ⟨g1, ((setBool_step g2).1 y).mp hc, g3⟩
      · rintro ⟨g1, g2, g3⟩
        have g4 := (given_snoc_eq.mp g2).1
        refine ⟨⟨v'.args, none, v'.progress⟩, ⟨g1, g4, g3⟩, ?_⟩
        rw [((setBool_step g4).1 v'.recursive).mpr g2]
    · simp only [if_neg h2]
      rw [given_snoc_ne h2]
      by_cases h3 : k = kProgress
      · subst h3
        simp only [if_true]
        constructor
        · rintro ⟨v, ⟨g1, g2, g3⟩, h⟩
          cases hc : setBool kProgress x v.progress with
          | error e => rw [hc] at h; cases h
          | ok y => rw [hc] at h; cases h; exact ⟨g1, g2, ((setBool_step g3).1 y).mp hc⟩
        · rintro ⟨g1, g2, g3⟩
          have g4 := (given_snoc_eq.mp g3).1
          refine ⟨⟨v'.args, v'.recursive, none⟩, ⟨g1, g2, g4⟩, ?_⟩
          rw [((setBool_step g4).1 v'.progress).mpr g3]
      · simp only [if_neg h3]
        rw [given_snoc_ne h3]
        constructor
        · rintro ⟨v, h, h'⟩; cases h'; exact h
        · intro h; exact ⟨v', h, rfl⟩

theorem addStep_error (q : QueryEnv) (ps : List (Bytes × Bytes)) (v : AddVars) (p : Bytes × Bytes) (e : PinOptErr)
    (hv : AddState q ps v) : addStep q.mb v p = .error e ↔ AddWrong q ps p e := by
  obtain ⟨n1, n2, n3⟩ := kRecursive_ne
  obtain ⟨k, x⟩ := p
  obtain ⟨-, g2, g3⟩ := hv
  unfold addStep AddWrong ArgWrong
  rw [← kArg_eq, show "recursive".toUTF8.toList = kRecursive from rfl, show "progress".toUTF8.toList = kProgress from rfl]
  have hne : ∀ name, k ≠ name → ¬ BoolWrong name ps (k, x) e := fun name h hw => h hw.1
  by_cases h1 : k = kArg
  · subst h1
    simp only [if_true, true_and]
    have a1 := hne _ n1
    have a2 := hne _ n2
    cases hc : Cid.ofText q.mb x with
    | none =>
      simp only [Except.error.injEq, true_and, a1, a2, or_false]
      exact eq_comm
    | some c => simp [a1, a2]
  · simp only [h1, if_false, false_and, false_or]
    by_cases h2 : k = kRecursive
    · subst h2
      simp only [if_true, hne _ n3, or_false]
      rw [← (setBool_step g2).2 e]; cases setBool kRecursive x v.recursive <;> simp
    · simp only [h2, if_false, hne _ h2, false_or]
      by_cases h3 : k = kProgress
      · subst h3
        simp only [if_true]
        rw [← (setBool_step g3).2 e]; cases setBool kProgress x v.progress <;> simp
      · simp [if_neg h3, hne _ h3]

theorem addLoop_iff (q : QueryEnv) (ps : List (Bytes × Bytes)) (v : AddVars) :
    pairLoop (addStep q.mb) {} ps = .ok v ↔ AddState q ps v := by
  refine pairLoop_iff (fun v => ?_) (addStep_ok q) ps v
  unfold AddState ArgCids Given
  obtain ⟨a, r, p⟩ := v
  constructor
  · rintro ⟨h1, h2, h3⟩
    simp only [valuesOf, List.filter_nil, List.map_nil] at h1
    have : a = [] := by cases a <;> simp_all
    subst this
    cases r <;> cases p <;> simp_all [GivenOnce]
  · rintro h
    cases h
    simp [valuesOf]

/-- **C70**: a query to `pin/add` is accepted just if all its arguments are cids, there is one, and "recursive" and
"progress" are given at most once and are booleans; other parameters do not matter. Nothing said, the pins are direct. -/
theorem C70_add_query (q : QueryEnv) (query : Bytes) (r : AddRequest) :
    addRequest q query = .ok r ↔ AddAsked q query r.args r.recursive r.progress := by
  unfold addRequest AddAsked
  simp only [decoded_iff]
  rw [show "recursive".toUTF8.toList = kRecursive from rfl, show "progress".toUTF8.toList = kProgress from rfl]
  constructor
  · intro h
    cases hl : pairLoop (addStep q.mb) {} (formPairs q.lossy query) with
    | error e => rw [hl] at h; cases h
    | ok v =>
      rw [hl] at h
      simp only at h
      split at h
      · cases h
      · rename_i hne
        cases h
        obtain ⟨h1, h2, h3⟩ := (addLoop_iff q _ v).mp hl
        exact ⟨_, _, _, rfl, h1, hne, h2, h3, rfl, rfl⟩
  · rintro ⟨ps, a, b, h1, h2, h3, h4, h5, h6, h7⟩
    subst h1
    rw [(addLoop_iff q _ ⟨r.args, a, b⟩).mpr ⟨h2, h4, h5⟩]
    simp only [if_neg h3]
    cases r
    simp only at h6 h7 ⊢
    rw [h6, h7]

/-- **C70**: otherwise the error is about the first parameter about which something is wrong, or that there is no
argument. -/
theorem C70_add_refused (q : QueryEnv) (query : Bytes) (e : PinOptErr) :
    addRequest q query = .error e ↔ ∃ ps, Decoded q query ps ∧ (FirstWrong (AddWrong q) ps e ∨
      (e = .opt .missingArg ∧ ¬ GivenIn "arg".toUTF8.toList ps ∧ ∀ e', ¬ FirstWrong (AddWrong q) ps e')) := by
  unfold addRequest
  simp only [decoded_iff, exists_eq_left']
  obtain ⟨h1, h2⟩ := pairLoop_error (W := AddWrong q) (fun ps v => (addLoop_iff q ps v).mp) (addStep_error q) (formPairs q.lossy query)
  cases hl : pairLoop (addStep q.mb) {} (formPairs q.lossy query) with
  | error e' =>
    have h3 := (h1 e').mp hl
    simp only [Except.error.injEq]
    constructor
    · rintro rfl; exact Or.inl h3
    · rintro (h | ⟨-, -, h⟩)
      · have := (h1 e).mpr h
        rw [hl] at this
        exact Except.error.inj this
      · exact absurd h3 (h e')
  | ok v =>
    have hno : ∀ e', ¬ FirstWrong (AddWrong q) (formPairs q.lossy query) e' := by
      intro e' h
      rw [(h1 e').mpr h] at hl; cases hl
    obtain ⟨ha, -, -⟩ := (addLoop_iff q _ v).mp hl
    have hargs : v.args = [] ↔ ¬ GivenIn "arg".toUTF8.toList (formPairs q.lossy query) := by
      unfold ArgCids valuesOf at ha
      constructor
      · rintro h ⟨p, hp, hn⟩
        rw [h, List.map_nil, List.map_eq_nil_iff, List.map_eq_nil_iff] at ha
        have : p ∈ (formPairs q.lossy query).filter (fun p => decide (p.1 = "arg".toUTF8.toList)) :=
          List.mem_filter.mpr ⟨hp, by simpa using hn⟩
        rw [ha] at this; simp at this
      · intro h
        have : (formPairs q.lossy query).filter (fun p => decide (p.1 = "arg".toUTF8.toList)) = [] := by
          rw [List.filter_eq_nil_iff]
          intro p hp hn
          exact h ⟨p, hp, by simpa using hn⟩
        rw [this] at ha
        simp at ha
        exact ha.symm ▸ rfl
    simp only
    split
    · rename_i hv
      simp only [Except.error.injEq]
      constructor
      · rintro rfl; exact Or.inr ⟨rfl, hargs.mp hv, hno⟩
      · rintro (h | h)
        · exact absurd h (hno e)
        · exact h.1.symm
    · rename_i hv
      simp only [reduceCtorEq, false_iff, not_or]
      exact ⟨hno e, fun h => hv (hargs.mpr h.2.1)⟩

/-! ### The query of `pin/ls` -/

theorem filterNamed_eq : filterNamed = readFilter := by
  funext s
  unfold filterNamed readFilter filterNames
  simp only [List.find?_cons, List.find?_nil]
  have e1 : "direct".toUTF8.toList ≠ "indirect".toUTF8.toList := by decide +kernel
  have e2 : "recursive".toUTF8.toList ≠ "indirect".toUTF8.toList := by decide +kernel
  have e3 : "all".toUTF8.toList ≠ "indirect".toUTF8.toList := by decide +kernel
  have e4 : "all".toUTF8.toList ≠ "direct".toUTF8.toList := by decide +kernel
  have e5 : "all".toUTF8.toList ≠ "recursive".toUTF8.toList := by decide +kernel
  have e6 : "direct".toUTF8.toList ≠ "recursive".toUTF8.toList := by decide +kernel
  generalize "direct".toUTF8.toList = d at *
  generalize "recursive".toUTF8.toList = r at *
  generalize "indirect".toUTF8.toList = i at *
  generalize "all".toUTF8.toList = a at *
  by_cases h1 : s = a
  · subst h1; simp
  · by_cases h2 : s = d
    · subst h2; simp [h1, e4]
    · by_cases h3 : s = r
      · subst h3; simp [h1, h2, e5, e6, Ne.symm e2]
      · by_cases h4 : s = i
        · subst h4; simp [h1, h2, h3, e1, e3]
        · simp [h1, h2, h3, h4, Ne.symm h1, Ne.symm h2, Ne.symm h3, Ne.symm h4]

/-- A parameter that may be given once, by its parser. -/
theorem once_step {α : Type} {parse : Bytes → Option α} {err dup : PinOptErr} {name v : Bytes} {ps : List (Bytes × Bytes)} {slot : Option α}
    {set : Option α → Except PinOptErr (Option α)} (hs : ∀ x, set (some x) = .error dup)
    (hn : set none = (match parse v with
      | none => .error err
      | some x => .ok (some x)))
    (h : Given parse name ps slot) :
    (∀ y, set slot = .ok y ↔ Given parse name (ps ++ [(name, v)]) y) ∧
    (∀ e, set slot = .error e ↔ (GivenIn name ps ∧ e = dup) ∨ (¬ GivenIn name ps ∧ parse v = none ∧ e = err)) := by
  cases slot with
  | some b =>
    have hg := given_isSome h
    rw [hs]
    refine ⟨fun y => ?_, fun e => ?_⟩
    · rw [given_snoc_eq, given_none_iff]
      simp [hg]
    · simp only [hg, true_and, not_true, false_and, or_false, Except.error.injEq]
      exact eq_comm
  | none =>
    have hg := given_none_iff.mp h
    rw [hn]
    refine ⟨fun y => ?_, fun e => ?_⟩
    · rw [given_snoc_eq]
      cases hv : parse v with
      | none => simp
      | some b =>
        simp only [h, true_and, Option.some.injEq, exists_eq_left', Except.ok.injEq]
        exact eq_comm
    · cases hv : parse v with
      | none =>
        simp only [hg, true_and, not_false_eq_true, false_and, false_or, Except.error.injEq]
        exact eq_comm
      | some b => simp [hg]

theorem setFilter_step {name v : Bytes} {ps : List (Bytes × Bytes)} {slot : Option (Option PinMode)}
    (h : Given readFilter name ps slot) :
    (∀ y, setFilter name v slot = .ok y ↔ Given readFilter name (ps ++ [(name, v)]) y) ∧
    (∀ e, setFilter name v slot = .error e ↔ (GivenIn name ps ∧ e = .opt (.duplicate name)) ∨
      (¬ GivenIn name ps ∧ readFilter v = none ∧ e = .filter v)) :=
  once_step (set := setFilter name v) (fun _ => rfl) (by simp only [setFilter, filterNamed_eq]; cases readFilter v <;> rfl) h

theorem listKeys_ne : kArg ≠ kType ∧ kArg ≠ kTimeout ∧ kArg ≠ kQuiet ∧ kArg ≠ kStream ∧ kType ≠ kTimeout ∧
    kType ≠ kQuiet ∧ kType ≠ kStream ∧ kTimeout ≠ kQuiet ∧ kTimeout ≠ kStream ∧ kQuiet ≠ kStream := by decide +kernel

theorem setTimeout_step {dur : Bytes → Option Nat} {name v : Bytes} {ps : List (Bytes × Bytes)} {slot : Option Nat}
    (h : Given dur name ps slot) :
    (∀ y, setTimeout dur name v slot = .ok y ↔ Given dur name (ps ++ [(name, v)]) y) ∧
    (∀ e, setTimeout dur name v slot = .error e ↔ (GivenIn name ps ∧ e = .opt (.duplicate name)) ∨
      (¬ GivenIn name ps ∧ dur v = none ∧ e = .opt .duration)) :=
  once_step (set := setTimeout dur name v) (fun _ => rfl) (by simp only [setTimeout]; cases dur v <;> rfl) h

/-- The variables say what was given so far. -/
def ListState (q : QueryEnv) (ps : List (Bytes × Bytes)) (v : ListVars) : Prop :=
  ArgCids q ps v.args ∧ Given readFilter kType ps v.filter ∧ Given q.duration kTimeout ps v.timeout ∧
    Given readBool kQuiet ps v.quiet ∧ Given readBool kStream ps v.stream

theorem listStep_ok (q : QueryEnv) (ps : List (Bytes × Bytes)) (p : Bytes × Bytes) (v' : ListVars) :
    (∃ v, ListState q ps v ∧ listStep q v p = .ok v') ↔ ListState q (ps ++ [p]) v' := by
  obtain ⟨n1, n2, n3, n4, n5, n6, n7, n8, n9, n10⟩ := listKeys_ne
  obtain ⟨k, x⟩ := p
  unfold ListState listStep
  by_cases h1 : k = kArg
  · subst h1
    rw [kArg_eq, argCids_snoc_eq, ← kArg_eq, given_snoc_ne n1, given_snoc_ne n2, given_snoc_ne n3, given_snoc_ne n4]
    simp only [if_true]
    constructor
    · rintro ⟨v, ⟨g1, g2⟩, h⟩
      cases hc : Cid.ofText q.mb x with
      | none => rw [hc] at h; cases h
      | some c => rw [hc] at h; cases h; exact ⟨⟨_, c, g1, rfl, rfl⟩, g2⟩
    · rintro ⟨⟨l', c, g1, g2, g3⟩, g4⟩
      refine ⟨{ v' with args := l' }, ⟨g1, g4⟩, ?_⟩
      obtain ⟨a, f, t, qt, s⟩ := v'
      simp only at g3
      subst g3
      rw [g2]
  · rw [argCids_snoc_ne (by rw [← kArg_eq]; exact h1)]
    simp only [h1, if_false]
    by_cases h2 : k = kType
    · subst h2
      rw [given_snoc_ne n5, given_snoc_ne n6, given_snoc_ne n7]
      simp only [if_true]
      constructor
      · rintro ⟨v, ⟨g1, g2, g3⟩, h⟩
        cases hc : setFilter kType x v.filter with
        | error e => rw [hc] at h; cases h
        | ok y => rw [hc] at h; cases h; exact ⟨g1, ((setFilter_step g2).1 y).mp hc, g3⟩
      · rintro ⟨g1, g2, g3⟩
        have g4 := (given_snoc_eq.mp g2).1
        refine ⟨{ v' with filter := none }, ⟨g1, g4, g3⟩, ?_⟩
        simp only
        rw [((setFilter_step g4).1 v'.filter).mpr g2]
    · simp only [h2, if_false]
      rw [given_snoc_ne h2]
      by_cases h3 : k = kTimeout
      · subst h3
        rw [given_snoc_ne n8, given_snoc_ne n9]
        simp only [if_true]
        constructor
        · rintro ⟨v, ⟨g1, g2, g3, g5⟩, h⟩
          cases hc : setTimeout q.duration kTimeout x v.timeout with
          | error e => rw [hc] at h; cases h
          | ok y => rw [hc] at h; cases h; exact ⟨g1, g2, ((setTimeout_step g3).1 y).mp hc, g5⟩
        · rintro ⟨g1, g2, g3, g5⟩
          have g4 := (given_snoc_eq.mp g3).1
          refine ⟨{ v' with timeout := none }, ⟨g1, g2, g4, g5⟩, ?_⟩
          simp only
          rw [((setTimeout_step g4).1 v'.timeout).mpr g3]
      · simp only [h3, if_false]
        rw [given_snoc_ne h3]
        by_cases h4 : k = kQuiet
        · subst h4
          rw [given_snoc_ne n10]
          simp only [if_true]
          constructor
          · rintro ⟨v, ⟨g1, g2, g3, g4, g5⟩, h⟩
            cases hc : setBool kQuiet x v.quiet with
            | error e => rw [hc] at h; cases h
            | ok y => rw [hc] at h; cases h; exact ⟨g1, g2, g3, ((setBool_step g4).1 y).mp hc, g5⟩
          · rintro ⟨g1, g2, g3, g4, g5⟩
            have g6 := (given_snoc_eq.mp g4).1
            refine ⟨{ v' with quiet := none }, ⟨g1, g2, g3, g6, g5⟩, ?_⟩
            simp only
            rw [((setBool_step g6).1 v'.quiet).mpr g4]
        · simp only [h4, if_false]
          rw [given_snoc_ne h4]
          by_cases h5 : k = kStream
          · subst h5
            simp only [if_true]
            constructor
            · rintro ⟨v, ⟨g1, g2, g3, g4, g5⟩, h⟩
              cases hc : setBool kStream x v.stream with
              | error e => rw [hc] at h; cases h
              | ok y => rw [hc] at h; cases h; exact ⟨g1, g2, g3, g4, ((setBool_step g5).1 y).mp hc⟩
            · rintro ⟨g1, g2, g3, g4, g5⟩
              have g6 := (given_snoc_eq.mp g5).1
              refine ⟨{ v' with stream := none }, ⟨g1, g2, g3, g4, g6⟩, ?_⟩
              simp only
              rw [((setBool_step g6).1 v'.stream).mpr g5]
          · simp only [h5, if_false]
            rw [given_snoc_ne h5]
            constructor
            · rintro ⟨v, h, h'⟩; cases h'; exact h
            · intro h; exact ⟨v', h, rfl⟩

theorem listStep_error (q : QueryEnv) (ps : List (Bytes × Bytes)) (v : ListVars) (p : Bytes × Bytes) (e : PinOptErr)
    (hv : ListState q ps v) : listStep q v p = .error e ↔ ListWrong q ps p e := by
  obtain ⟨n1, n2, n3, n4, n5, n6, n7, n8, n9, n10⟩ := listKeys_ne
  obtain ⟨k, x⟩ := p
  obtain ⟨-, g2, g3, g4, g5⟩ := hv
  unfold listStep ListWrong ArgWrong
  rw [← kArg_eq, ← kTimeout_eq, show "quiet".toUTF8.toList = kQuiet from rfl, show "stream".toUTF8.toList = kStream from rfl,
    show "type".toUTF8.toList = kType from rfl]
  have hne : ∀ name, k ≠ name → ¬ BoolWrong name ps (k, x) e := fun name h hw => h hw.1
  by_cases h1 : k = kArg
  · subst h1
    simp only [if_true, true_and, n1, n2, false_and, or_false]
    have a1 := hne _ n3
    have a2 := hne _ n4
    cases hc : Cid.ofText q.mb x with
    | none =>
      simp only [Except.error.injEq, true_and, a1, a2, or_false]
      exact eq_comm
    | some c => simp [a1, a2]
  · simp only [h1, if_false, false_and, false_or]
    by_cases h2 : k = kType
    · subst h2
      simp only [if_true, hne _ n6, hne _ n7, false_or, true_and, n5, false_and, or_false]
      rw [← (setFilter_step g2).2 e]; cases setFilter kType x v.filter <;> simp
    · simp only [h2, if_false, false_and, false_or]
      by_cases h3 : k = kTimeout
      · subst h3
        simp only [if_true, hne _ n8, hne _ n9, false_or, true_and]
        rw [← (setTimeout_step g3).2 e]; cases setTimeout q.duration kTimeout x v.timeout <;> simp
      · simp only [h3, if_false, false_and, or_false]
        by_cases h4 : k = kQuiet
        · subst h4
          simp only [if_true, hne _ n10, or_false]
          rw [← (setBool_step g4).2 e]; cases setBool kQuiet x v.quiet <;> simp
        · simp only [h4, if_false, hne _ h4, false_or]
          by_cases h5 : k = kStream
          · subst h5
            simp only [if_true]
            rw [← (setBool_step g5).2 e]; cases setBool kStream x v.stream <;> simp
          · simp [h5, hne _ h5]

theorem listLoop_iff (q : QueryEnv) (ps : List (Bytes × Bytes)) (v : ListVars) :
    pairLoop (listStep q) {} ps = .ok v ↔ ListState q ps v := by
  refine pairLoop_iff (fun v => ?_) (listStep_ok q) ps v
  unfold ListState ArgCids Given
  obtain ⟨a, f, t, r, p⟩ := v
  constructor
  · rintro ⟨h1, h2, h3, h4, h5⟩
    simp only [valuesOf, List.filter_nil, List.map_nil] at h1
    have : a = [] := by cases a <;> simp_all
    subst this
    cases f <;> cases t <;> cases r <;> cases p <;> simp_all [GivenOnce]
  · rintro h
    cases h
    simp [valuesOf]

/-- **C70**: a query to `pin/ls` is accepted just if all its arguments are cids, "type" is the name of a filter,
"timeout" a duration, "quiet" and "stream" booleans, each given at most once; other parameters do not matter. The
timeout is not used, and "quiet" decides whether the answer is in lines: "stream" does not. -/
theorem C70_list_query (q : QueryEnv) (query : Bytes) (r : ListRequest) :
    listRequest q query = .ok r ↔ ListAsked q query r.args r.filter r.stream := by
  unfold listRequest ListAsked
  simp only [decoded_iff]
  rw [← kTimeout_eq, show "quiet".toUTF8.toList = kQuiet from rfl, show "stream".toUTF8.toList = kStream from rfl,
    show "type".toUTF8.toList = kType from rfl]
  constructor
  · intro h
    cases hl : pairLoop (listStep q) {} (formPairs q.lossy query) with
    | error e => rw [hl] at h; cases h
    | ok v =>
      rw [hl] at h
      cases h
      obtain ⟨h1, h2, h3, h4, h5⟩ := (listLoop_iff q _ v).mp hl
      exact ⟨_, _, _, _, _, rfl, h1, h2, h3, h4, h5, rfl, rfl⟩
  · rintro ⟨ps, f, t, qt, s, h1, h2, h3, h4, h5, h6, h7, h8⟩
    subst h1
    rw [(listLoop_iff q _ ⟨r.args, f, t, qt, s⟩).mpr ⟨h2, h3, h4, h5, h6⟩]
    cases r
    simp only at h7 h8 ⊢
    rw [h7, h8]

/-- **C70**: otherwise the error is about the first parameter about which something is wrong. -/
theorem C70_list_refused (q : QueryEnv) (query : Bytes) (e : PinOptErr) :
    listRequest q query = .error e ↔ ∃ ps, Decoded q query ps ∧ FirstWrong (ListWrong q) ps e := by
  unfold listRequest
  simp only [decoded_iff, exists_eq_left']
  obtain ⟨h1, -⟩ := pairLoop_error (W := ListWrong q) (fun ps v => (listLoop_iff q ps v).mp) (listStep_error q) (formPairs q.lossy query)
  rw [← h1 e]
  cases hl : pairLoop (listStep q) {} (formPairs q.lossy query) with
  | error e' => simp
  | ok v => simp

/-- **C70**: a query to `pin/rm` is accepted just if one argument is given, a cid, and "recursive" at most once, a
boolean; other parameters do not matter. Nothing said, recursive pins are removed, too. -/
theorem C70_remove_query (q : QueryEnv) (query : Bytes) (c : Cid) (recursive : Bool) :
    removeRequest q query = .ok (c, recursive) ↔ UnpinAsked q query c recursive := by
  unfold removeRequest UnpinAsked
  simp only [decoded_iff, exists_eq_left', exists_and_left, ← kArg_eq, show "recursive".toUTF8.toList = kRecursive from rfl,
    ← queryField_iff, parseBool_eq]
  cases h1 : queryField (Cid.ofText q.mb) kArg (formPairs q.lossy query) with
  | error e => simp
  | ok x =>
    cases x with
    | none => simp
    | some c' =>
      cases h2 : queryField readBool kRecursive (formPairs q.lossy query) with
      | error e => simp
      | ok r =>
        simp only [Except.ok.injEq, Prod.mk.injEq, exists_eq_left', Option.some.injEq]
        constructor
        · rintro ⟨rfl, rfl⟩; exact ⟨rfl, rfl⟩
        · rintro ⟨rfl, rfl⟩; exact ⟨rfl, rfl⟩

end Verif.Props
