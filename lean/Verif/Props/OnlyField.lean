import Verif.Http.OnlyField

/-! # C64: the only value of a form -/

namespace Verif.Props

open Verif Verif.Http

/-- All chunks of the field arrive, and `b` is what they hold together. -/
def HoldsValue (f : FormField) (b : Bytes) : Prop := ∃ cs : List Bytes, f.chunks = cs.map some ∧ b = cs.flatten

/-- A field that is passed over: its name is not asked for, and its chunks arrive and are not empty. -/
def Skipped (allowed : List Bytes) (f : FormField) : Prop :=
  (∃ n, f.name = some n ∧ n ∉ allowed) ∧ ∃ cs : List Bytes, f.chunks = cs.map some ∧ [] ∉ cs

/-- A field whose value is asked for. -/
def Wanted (allowed : List Bytes) (f : FormField) : Prop := ∃ n, f.name = some n ∧ n ∈ allowed

theorem readField_some (limit : Nat) (t b : Bytes) (chunks : List (Option Bytes)) :
    readField limit (some t) chunks = .ok (some b) ↔
      ∃ cs : List Bytes, chunks = cs.map some ∧ b = t ++ cs.flatten ∧ (cs = [] ∨ b.length ≤ limit) := by
  induction chunks generalizing t with
  | nil =>
    simp only [readField, Except.ok.injEq, Option.some.injEq]
    constructor
    · rintro rfl; exact ⟨[], rfl, by simp, Or.inl rfl⟩
    · rintro ⟨cs, h, h2, _⟩
      have : cs = [] := by simpa using h.symm
      subst this; simpa using h2.symm
  | cons c chunks ih =>
    cases c with
    | none =>
      simp only [readField]
      constructor
      · intro h; cases h
      · rintro ⟨cs, h, _⟩
        cases cs <;> simp at h
    | some x =>
      simp only [readField]
      split
      · rename_i hl
        constructor
        · intro h; cases h
        · rintro ⟨cs, h, h2, h3⟩
          cases cs with
          | nil => simp at h
          | cons y ys =>
            simp only [List.map_cons, List.cons.injEq, Option.some.injEq] at h
            obtain ⟨rfl, rfl⟩ := h
            subst h2
            simp only [reduceCtorEq, false_or, List.length_append, List.flatten_cons] at h3
            omega
      · rename_i hl
        rw [ih]
        constructor
        · rintro ⟨cs, rfl, h2, h3⟩
          refine ⟨x :: cs, rfl, by simp [h2], Or.inr ?_⟩
          rcases h3 with rfl | h3
          · subst h2; simp only [List.flatten_nil, List.append_nil, List.length_append]; omega
          · exact h3
        · rintro ⟨cs, h, h2, h3⟩
          cases cs with
          | nil => simp at h
          | cons y ys =>
            simp only [List.map_cons, List.cons.injEq, Option.some.injEq] at h
            obtain ⟨rfl, rfl⟩ := h
            refine ⟨ys, rfl, by simp [h2], Or.inr ?_⟩
            simpa using h3

theorem readField_some_ne (limit : Nat) (t : Bytes) (chunks : List (Option Bytes)) :
    readField limit (some t) chunks ≠ .ok none := by
  induction chunks generalizing t with
  | nil => simp [readField]
  | cons c chunks ih =>
    cases c with
    | none => simp [readField]
    | some x => simp only [readField]; split <;> simp_all

theorem readField_none (limit : Nat) (o : Option Bytes) (chunks : List (Option Bytes)) :
    readField limit none chunks = .ok o ↔ o = none ∧ ∃ cs : List Bytes, chunks = cs.map some ∧ [] ∉ cs := by
  induction chunks with
  | nil =>
    simp only [readField, Except.ok.injEq]
    constructor
    · rintro rfl; exact ⟨rfl, [], rfl, by simp⟩
    · rintro ⟨rfl, _⟩; rfl
  | cons c chunks ih =>
    cases c with
    | none =>
      simp only [readField]
      constructor
      · intro h; cases h
      · rintro ⟨_, cs, h, _⟩
        cases cs <;> simp at h
    | some x =>
      simp only [readField]
      split
      · rename_i hx
        have hx : x = [] := by simpa using hx
        constructor
        · intro h; cases h
        · rintro ⟨_, cs, h, h3⟩
          cases cs with
          | nil => simp at h
          | cons y ys =>
            simp only [List.map_cons, List.cons.injEq, Option.some.injEq] at h
            obtain ⟨rfl, rfl⟩ := h
            exact absurd (by simp [hx]) h3
      · rename_i hx
        rw [ih]
        constructor
        · rintro ⟨rfl, cs, rfl, h3⟩
          refine ⟨rfl, x :: cs, rfl, ?_⟩
          simp only [List.mem_cons, not_or]
          exact ⟨fun e => hx (by simp [← e]), h3⟩
        · rintro ⟨rfl, cs, h, h3⟩
          cases cs with
          | nil => simp at h
          | cons y ys =>
            simp only [List.map_cons, List.cons.injEq, Option.some.injEq] at h
            obtain ⟨rfl, rfl⟩ := h
            exact ⟨rfl, ys, rfl, fun e => h3 (by simp [e])⟩

/-- The loop over fields that are passed over. -/
theorem onlyLoop_skip (allowed : List Bytes) (limit : Nat) (buffer : Bytes) (pre : List FormField)
    (hp : ∀ f ∈ pre, Skipped allowed f) (rest : List (Option FormField)) :
    onlyLoop allowed limit buffer false (pre.map some ++ rest) = onlyLoop allowed limit buffer false rest := by
  induction pre with
  | nil => rfl
  | cons f pre ih =>
    obtain ⟨⟨n, hn, hna⟩, hc⟩ := hp f (by simp)
    have hr := (readField_none limit none f.chunks).mpr ⟨rfl, hc⟩
    have hna : allowed.contains n = false := by simpa using hna
    simp only [List.map_cons, List.cons_append, onlyLoop, hn, hna, Bool.false_eq_true, if_false, hr]
    exact ih (fun f hf => hp f (by simp [hf]))

/-- What the loop needs to get through a field. -/
theorem onlyLoop_cons_ok {allowed : List Bytes} {limit : Nat} {f : FormField} {rest : List (Option FormField)}
    {r : Except OnlyErr Bytes} (h : onlyLoop allowed limit [] false (some f :: rest) = r) :
    (Skipped allowed f ∧ onlyLoop allowed limit [] false rest = r) ∨
    (∃ b, Wanted allowed f ∧ HoldsValue f b ∧ b.length ≤ limit ∧ onlyLoop allowed limit b true rest = r) ∨
    (∃ e, r = .error e ∧ e ≠ .multipleValues ∧ e ≠ .notFound) := by
  simp only [onlyLoop] at h
  cases hn : f.name with
  | none => simp only [hn] at h; exact Or.inr (Or.inr ⟨_, h.symm, by simp, by simp⟩)
  | some n =>
    simp only [hn, Bool.false_eq_true, if_false] at h
    have herr : ∀ (t : Option Bytes) (chunks : List (Option Bytes)) (e : OnlyErr),
        readField limit t chunks = .error e → e ≠ .multipleValues ∧ e ≠ .notFound := by
      intro t chunks
      induction chunks generalizing t with
      | nil => intro e h; simp [readField] at h
      | cons c chunks ih =>
        intro e h
        cases c with
        | none => simp only [readField, Except.error.injEq] at h; subst h; simp
        | some x =>
          cases t with
          | none =>
            simp only [readField] at h
            split at h
            · cases h; simp
            · exact ih _ _ h
          | some t =>
            simp only [readField] at h
            split at h
            · cases h; simp
            · exact ih _ _ h
    cases ha : allowed.contains n with
    | true =>
      simp only [ha, if_true] at h
      split at h
      · rename_i e he; exact Or.inr (Or.inr ⟨e, h.symm, herr _ _ _ he⟩)
      · rename_i he; exact absurd he (readField_some_ne _ _ _)
      · rename_i b he
        obtain ⟨cs, h1, h2, h3⟩ := (readField_some limit [] b f.chunks).mp he
        refine Or.inr (Or.inl ⟨b, ⟨n, hn, by simpa using ha⟩, ⟨cs, h1, by simpa using h2⟩, ?_, h⟩)
        rcases h3 with rfl | h3
        · simp [h2]
        · exact h3
    | false =>
      simp only [ha, Bool.false_eq_true, if_false] at h
      split at h
      · rename_i e he; exact Or.inr (Or.inr ⟨e, h.symm, herr _ _ _ he⟩)
      · rename_i he
        exact Or.inl ⟨⟨⟨n, hn, by simpa using ha⟩, ((readField_none limit none f.chunks).mp he).2⟩, h⟩
      · rename_i b he; exact absurd ((readField_none limit (some b) f.chunks).mp he).1 (by simp)

/-- A wanted field that fits. -/
theorem onlyLoop_wanted {allowed : List Bytes} {limit : Nat} {f : FormField} {b : Bytes}
    (hw : Wanted allowed f) (hh : HoldsValue f b) (hl : b.length ≤ limit) (rest : List (Option FormField)) :
    onlyLoop allowed limit [] false (some f :: rest) = onlyLoop allowed limit b true rest := by
  obtain ⟨n, hn, ha⟩ := hw
  obtain ⟨cs, h1, h2⟩ := hh
  have ha : allowed.contains n = true := by simpa using ha
  have hr := (readField_some limit [] b f.chunks).mpr ⟨cs, h1, by simpa using h2, Or.inr hl⟩
  simp only [onlyLoop, hn, ha, if_true, Bool.false_eq_true, if_false, hr]

/-- **C64**: a form is accepted just if its last field, and no other, has a name asked for, everything
arrives, no chunk of another field is empty, and the value is within the limit; the value is then all the
chunks of that field. -/
theorem C64_accepts (allowed : List Bytes) (limit : Nat) (form : List (Option FormField)) (b : Bytes) :
    onlyNamed allowed limit form = .ok b ↔
      ∃ (pre : List FormField) (f : FormField), form = pre.map some ++ [some f] ∧
        (∀ g ∈ pre, Skipped allowed g) ∧ Wanted allowed f ∧ HoldsValue f b ∧ b.length ≤ limit := by
  unfold onlyNamed
  constructor
  · intro h
    induction form with
    | nil => simp [onlyLoop] at h
    | cons f form ih =>
      cases f with
      | none => simp [onlyLoop] at h
      | some f =>
        rcases onlyLoop_cons_ok h with ⟨hs, h⟩ | ⟨b', hw, hh, hl, h⟩ | ⟨e, h, _⟩
        · obtain ⟨pre, g, rfl, h1, h2⟩ := ih h
          refine ⟨f :: pre, g, rfl, ?_, h2⟩
          intro x hx
          rcases List.mem_cons.mp hx with rfl | hx
          · exact hs
          · exact h1 x hx
        · cases form with
          | nil =>
            simp only [onlyLoop, if_true, Except.ok.injEq] at h
            subst h
            exact ⟨[], f, rfl, by simp, hw, hh, hl⟩
          | cons g form =>
            cases g with
            | none => simp [onlyLoop] at h
            | some g =>
              simp only [onlyLoop] at h
              split at h
              · cases h
              · simp at h
        · cases h
  · rintro ⟨pre, f, rfl, h1, hw, hh, hl⟩
    rw [onlyLoop_skip _ _ _ _ h1, onlyLoop_wanted hw hh hl]
    rfl

/-- **C64**: a form is refused for multiple values just if some field follows the one asked for, whatever
its name. -/
theorem C64_multiple (allowed : List Bytes) (limit : Nat) (form : List (Option FormField)) :
    onlyNamed allowed limit form = .error .multipleValues ↔
      ∃ (pre : List FormField) (f g : FormField) (post : List (Option FormField)) (b : Bytes),
        form = pre.map some ++ some f :: some g :: post ∧ (∀ x ∈ pre, Skipped allowed x) ∧
        Wanted allowed f ∧ HoldsValue f b ∧ b.length ≤ limit ∧ g.name ≠ none := by
  unfold onlyNamed
  constructor
  · intro h
    induction form with
    | nil => simp [onlyLoop] at h
    | cons f form ih =>
      cases f with
      | none => simp [onlyLoop] at h
      | some f =>
        rcases onlyLoop_cons_ok h with ⟨hs, h⟩ | ⟨b', hw, hh, hl, h⟩ | ⟨e, h, hne, _⟩
        · obtain ⟨pre, f', g, post, b, rfl, h1, h2⟩ := ih h
          refine ⟨f :: pre, f', g, post, b, rfl, ?_, h2⟩
          intro x hx
          rcases List.mem_cons.mp hx with rfl | hx
          · exact hs
          · exact h1 x hx
        · cases form with
          | nil => simp [onlyLoop] at h
          | cons g form =>
            cases g with
            | none => simp [onlyLoop] at h
            | some g =>
              simp only [onlyLoop] at h
              split at h
              · cases h
              · rename_i n hn
                exact ⟨[], f, g, form, b', rfl, by simp, hw, hh, hl, by simp [hn]⟩
        · cases h; exact absurd rfl hne
  · rintro ⟨pre, f, g, post, b, rfl, h1, hw, hh, hl, hg⟩
    rw [onlyLoop_skip _ _ _ _ h1, onlyLoop_wanted hw hh hl]
    cases hn : g.name with
    | none => exact absurd hn hg
    | some n => simp [onlyLoop, hn]

/-- **C64**: a form is refused as having no value just if all its fields arrive and none has the name. -/
theorem C64_not_found (allowed : List Bytes) (limit : Nat) (form : List (Option FormField)) :
    onlyNamed allowed limit form = .error .notFound ↔
      ∃ pre : List FormField, form = pre.map some ∧ ∀ x ∈ pre, Skipped allowed x := by
  unfold onlyNamed
  constructor
  · intro h
    induction form with
    | nil => exact ⟨[], rfl, by simp⟩
    | cons f form ih =>
      cases f with
      | none => simp [onlyLoop] at h
      | some f =>
        rcases onlyLoop_cons_ok h with ⟨hs, h⟩ | ⟨b', hw, hh, hl, h⟩ | ⟨e, h, _, hne⟩
        · obtain ⟨pre, rfl, h1⟩ := ih h
          refine ⟨f :: pre, rfl, ?_⟩
          intro x hx
          rcases List.mem_cons.mp hx with rfl | hx
          · exact hs
          · exact h1 x hx
        · cases form with
          | nil => simp [onlyLoop] at h
          | cons g form =>
            cases g with
            | none => simp [onlyLoop] at h
            | some g =>
              simp only [onlyLoop] at h
              split at h
              · cases h
              · simp at h
        · cases h; exact absurd rfl hne
  · rintro ⟨pre, rfl, h1⟩
    rw [← List.append_nil (pre.map some), onlyLoop_skip _ _ _ _ h1]
    rfl

theorem readField_large (limit : Nat) (t : Bytes) (cs : List Bytes) (c : Bytes) (rest : List (Option Bytes))
    (h1 : cs = [] ∨ (t ++ cs.flatten).length ≤ limit) (h2 : limit < (t ++ cs.flatten ++ c).length) :
    readField limit (some t) (cs.map some ++ some c :: rest) = .error .tooLargeValue := by
  induction cs generalizing t with
  | nil =>
    simp only [List.map_nil, List.nil_append, readField]
    rw [if_pos]
    simpa using h2
  | cons x xs ih =>
    simp only [List.map_cons, List.cons_append, readField]
    have h1' : (t ++ (x :: xs).flatten).length ≤ limit := by
      rcases h1 with h1 | h1
      · cases h1
      · exact h1
    rw [if_neg]
    · refine ih (t ++ x) (Or.inr ?_) ?_
      · simpa using h1'
      · simpa using h2
    · simp only [List.flatten_cons, List.length_append] at h1'
      omega

/-- **C64**: a value that grows beyond the limit is refused at that chunk, whatever would follow. -/
theorem C64_too_large (allowed : List Bytes) (limit : Nat) (pre : List FormField) (n : Bytes) (cs : List Bytes)
    (c : Bytes) (chunks : List (Option Bytes)) (post : List (Option FormField))
    (h1 : ∀ x ∈ pre, Skipped allowed x) (hn : n ∈ allowed) (h2 : cs.flatten.length ≤ limit)
    (h3 : limit < (cs.flatten ++ c).length) :
    onlyNamed allowed limit (pre.map some ++ some ⟨some n, cs.map some ++ some c :: chunks⟩ :: post) =
      .error .tooLargeValue := by
  unfold onlyNamed
  have hn : allowed.contains n = true := by simpa using hn
  rw [onlyLoop_skip _ _ _ _ h1]
  have hr := readField_large limit [] cs c chunks (Or.inr (by simpa using h2)) (by simpa using h3)
  simp only [onlyLoop, hn, if_true, Bool.false_eq_true, if_false, hr]

/-- **C64**: reading stops with the parser: a form that breaks off before the value is complete is refused. -/
theorem C64_broken (allowed : List Bytes) (limit : Nat) (pre : List FormField) (post : List (Option FormField))
    (h1 : ∀ x ∈ pre, Skipped allowed x) :
    onlyNamed allowed limit (pre.map some ++ none :: post) = .error .io ∧
    ∀ (n : Bytes) (cs : List Bytes) (chunks : List (Option Bytes)), n ∈ allowed → cs.flatten.length ≤ limit →
      onlyNamed allowed limit (pre.map some ++ some ⟨some n, cs.map some ++ none :: chunks⟩ :: post) =
        .error .io := by
  unfold onlyNamed
  refine ⟨by rw [onlyLoop_skip _ _ _ _ h1]; rfl, ?_⟩
  intro n cs chunks hn hl
  have hn : allowed.contains n = true := by simpa using hn
  rw [onlyLoop_skip _ _ _ _ h1]
  have hr : ∀ (t : Bytes) (cs : List Bytes), (t ++ cs.flatten).length ≤ limit →
      readField limit (some t) (cs.map some ++ none :: chunks) = .error .io := by
    intro t cs
    induction cs generalizing t with
    | nil => intro _; rfl
    | cons x xs ih =>
      intro h
      simp only [List.map_cons, List.cons_append, readField]
      simp only [List.flatten_cons, List.length_append] at h
      rw [if_neg (by omega)]
      exact ih _ (by simp only [List.length_append]; omega)
  simp only [onlyLoop, hn, if_true, Bool.false_eq_true, if_false, hr [] cs (by simpa using hl)]

/-- **C64** fails of forms as browsers make them: a form with one value of the name is refused for having
several, because another field comes after it; in the other order it is accepted. -/
theorem C64_trailing :
    let value : FormField := ⟨some [0x66], [some [1, 2], some [3]]⟩
    let other : FormField := ⟨some [0x78], [some [9]]⟩
    onlyNamed [[0x66]] 100 [some value, some other] = .error .multipleValues ∧
    onlyNamed [[0x66]] 100 [some other, some value] = .ok [1, 2, 3] := by
  decide +kernel

example : Skipped [[0x66]] ⟨some [0x78], [some [9]]⟩ ∧ Wanted [[0x66]] ⟨some [0x66], [some [1, 2], some [3]]⟩ ∧
    HoldsValue ⟨some [0x66], [some [1, 2], some [3]]⟩ [1, 2, 3] :=
  ⟨⟨⟨_, rfl, by decide⟩, [[9]], rfl, by decide⟩, ⟨_, rfl, by decide⟩, [[1, 2], [3]], rfl, rfl⟩

end Verif.Props
