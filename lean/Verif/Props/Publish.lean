import Verif.Http.Publish
import Verif.Props.OnlyField
import Verif.Props.Details2

/-! # C63: publishing over HTTP -/

namespace Verif.Props

open Verif Verif.Http

/-! ### Specification -/

/-- How a query divides into parameters: at '&', empty ones being skipped; the name of each ends at its
first '='. -/
inductive Params : Bytes → List (Bytes × Bytes) → Prop
  | nil : Params [] []
  | sep {s : Bytes} {ps : List (Bytes × Bytes)} : Params s ps → Params (38 :: s) ps
  | pair {name value s : Bytes} {ps : List (Bytes × Bytes)} : 38 ∉ name → 61 ∉ name → 38 ∉ value →
      (s = [] ∨ ∃ r, s = 38 :: r) → Params s ps → Params (name ++ 61 :: value ++ s) ((name, value) :: ps)
  | bare {name s : Bytes} {ps : List (Bytes × Bytes)} : name ≠ [] → 38 ∉ name → 61 ∉ name →
      (s = [] ∨ ∃ r, s = 38 :: r) → Params s ps → Params (name ++ s) ((name, []) :: ps)

/-- The values given for a parameter, in order. -/
def valuesOf (param : Bytes) (ps : List (Bytes × Bytes)) : List Bytes :=
  (ps.filter (fun p => p.1 = param)).map Prod.snd

/-- A request is well-formed and asks for publishing the message under the topic. -/
def Asks (form : Bytes → List (Option FormField)) (param : Bytes) (query : Option Bytes) (ctype : CType)
    (topic message : Bytes) : Prop :=
  ∃ q ps first rest, query = some q ∧ Params q ps ∧ valuesOf param ps = first :: rest ∧
    Unescaped first topic ∧ utf8Ok topic = true ∧ ctype ≠ .invalid ∧
    ((∃ second more, rest = second :: more ∧ Unescaped second message) ∨
     (rest = [] ∧ message ≠ [] ∧ ∃ boundary, ctype = .mime (some boundary) ∧
       onlyNamed ["file".toUTF8.toList] 102400 (form boundary) = .ok message))

/-! ### Helpers -/

theorem cutAt_none {c : UInt8} {s : Bytes} (h : c ∉ s) : cutAt c s = (s, []) := by
  induction s with
  | nil => rfl
  | cons b s ih =>
    simp only [List.mem_cons, not_or] at h
    simp [cutAt, Ne.symm h.1, ih h.2]

theorem cutAt_append {c : UInt8} {a : Bytes} (h : c ∉ a) (s : Bytes) : cutAt c (a ++ c :: s) = (a, s) := by
  induction a with
  | nil => simp [cutAt]
  | cons b a ih =>
    simp only [List.mem_cons, not_or] at h
    simp [cutAt, Ne.symm h.1, ih h.2]

/-- Every text has a part before the first `c`, and possibly a part after it. -/
theorem cutAt_cases (c : UInt8) (s : Bytes) :
    (c ∉ s ∧ cutAt c s = (s, [])) ∨ ∃ a r, c ∉ a ∧ s = a ++ c :: r ∧ cutAt c s = (a, r) := by
  induction s with
  | nil => exact Or.inl ⟨by simp, rfl⟩
  | cons b s ih =>
    by_cases hb : b = c
    · subst hb
      exact Or.inr ⟨[], s, by simp, rfl, by simp [cutAt]⟩
    · rcases ih with ⟨h1, h2⟩ | ⟨a, r, h1, h2, h3⟩
      · left
        exact ⟨by simp only [List.mem_cons, not_or]; exact ⟨fun e => hb e.symm, h1⟩, by simp [cutAt, hb, h2]⟩
      · right
        refine ⟨b :: a, r, ?_, by simp [h2], by simp [cutAt, hb, h3]⟩
        simp only [List.mem_cons, not_or]; exact ⟨fun e => hb e.symm, h1⟩

theorem rawParts_sep (s : Bytes) : rawParts (38 :: s) = rawParts s := by
  rw [rawParts]; simp [cutAt]

/-- A part that is not empty, at the end or before a '&'. -/
theorem rawParts_part {a : Bytes} (hne : a ≠ []) (h : 38 ∉ a) {s : Bytes} (hs : s = [] ∨ ∃ r, s = 38 :: r) :
    rawParts (a ++ s) = cutAt 61 a :: rawParts s := by
  cases a with
  | nil => exact absurd rfl hne
  | cons b a =>
    rcases hs with rfl | ⟨r, rfl⟩
    · simp only [List.append_nil]
      rw [rawParts.eq_2]
      have e : cutAt 38 (b :: a) = (b :: a, []) := cutAt_none h
      simp only [e]
      simp [rawParts.eq_1]
    · rw [rawParts_sep, List.cons_append, rawParts.eq_2]
      have e : cutAt 38 (b :: (a ++ 38 :: r)) = (b :: a, r) := cutAt_append h r
      simp only [e]
      simp

theorem params_rawParts (s : Bytes) : Params s (rawParts s) := by
  fun_induction rawParts s with
  | case1 => exact .nil
  | case2 b s p hp ih =>
    rcases cutAt_cases 38 (b :: s) with ⟨h1, h2⟩ | ⟨a, r, h1, h2, h3⟩
    · simp only [p, h2] at hp; simp at hp
    · simp only [p, h3] at hp ih ⊢
      have : a = [] := by simpa using hp
      rw [h2, this]
      exact .sep ih
  | case3 b s p hp ih =>
    have key : ∀ (a t : Bytes), a ≠ [] → 38 ∉ a → (t = [] ∨ ∃ r, t = 38 :: r) → Params t (rawParts p.2) →
        Params (a ++ t) (cutAt 61 a :: rawParts p.2) := by
      intro a t hne ha ht hP
      rcases cutAt_cases 61 a with ⟨h1, h2⟩ | ⟨n, v, h1, h2, h3⟩
      · rw [h2]; exact .bare hne ha h1 ht hP
      · rw [h3, h2]
        rw [h2] at ha
        simp only [List.mem_append, List.mem_cons, not_or] at ha
        exact .pair ha.1 h1 ha.2.2 ht hP
    rcases cutAt_cases 38 (b :: s) with ⟨h1, h2⟩ | ⟨a, r, h1, h2, h3⟩
    · have e1 : p.1 = b :: s := by simp only [p, h2]
      have e2 : p.2 = [] := by simp only [p, h2]
      rw [e1]
      have := key (b :: s) [] (by simp) h1 (Or.inl rfl) (by rw [e2]; simp only [rawParts]; exact .nil)
      simpa using this
    · have e1 : p.1 = a := by simp only [p, h3]
      have e2 : p.2 = r := by simp only [p, h3]
      rw [e1]
      have hne : a ≠ [] := by
        rintro rfl
        apply hp
        rw [e1]; rfl
      rw [h2]
      exact key a (38 :: r) hne h1 (Or.inr ⟨r, rfl⟩) (.sep (by rw [e2]; rw [e2] at ih; exact ih))

/-- **C63**: a query divides into parameters in one way, and so the server reads it. -/
theorem C63_params (s : Bytes) (ps : List (Bytes × Bytes)) : rawParts s = ps ↔ Params s ps := by
  constructor
  · rintro rfl; exact params_rawParts s
  · intro h
    induction h with
    | nil => simp [rawParts]
    | sep _ ih => rw [rawParts_sep, ih]
    | @pair name value s ps h1 h2 h3 hs _ ih =>
      rw [rawParts_part (by simp) (by simp [h1, h3]) hs, ih, cutAt_append h2]
    | bare hne h1 h2 hs _ ih => rw [rawParts_part hne h1 hs, ih, cutAt_none h2]

theorem kFile_eq : kFile = "file".toUTF8.toList := by decide +kernel

/-- **C63**: a request to publish is accepted just if it is well-formed, and then the topic and the message
are those it asks for, byte by byte. -/
theorem C63_publish (form : Bytes → List (Option FormField)) (param : Bytes) (query : Option Bytes)
    (ctype : CType) (topic message : Bytes) :
    publishArgs form param query ctype = .ok (topic, message) ↔ Asks form param query ctype topic message := by
  unfold Asks
  cases query with
  | none =>
    simp only [publishArgs, publishQuery]
    constructor
    · intro h; cases h
    · rintro ⟨q, _, _, _, h, _⟩; cases h
  | some q =>
    have hq : (∃ q' ps first rest, some q = some q' ∧ Params q' ps ∧ valuesOf param ps = first :: rest ∧
        Unescaped first topic ∧ utf8Ok topic = true ∧ ctype ≠ .invalid ∧
        ((∃ second more, rest = second :: more ∧ Unescaped second message) ∨
         (rest = [] ∧ message ≠ [] ∧ ∃ boundary, ctype = .mime (some boundary) ∧
           onlyNamed ["file".toUTF8.toList] 102400 (form boundary) = .ok message))) ↔
        ∃ first rest, valuesOf param (rawParts q) = first :: rest ∧ percentDecode first = topic ∧
        utf8Ok topic = true ∧ ctype ≠ .invalid ∧
        ((∃ second more, rest = second :: more ∧ percentDecode second = message) ∨
         (rest = [] ∧ message ≠ [] ∧ ∃ boundary, ctype = .mime (some boundary) ∧
           onlyNamed ["file".toUTF8.toList] 102400 (form boundary) = .ok message)) := by
      constructor
      · rintro ⟨q', ps, first, rest, h0, h1, h2, h3, h4, h5, h6⟩
        cases h0
        rw [(C63_params q ps).mpr h1]
        refine ⟨first, rest, h2, (C54_unescaped _ _).mpr h3, h4, h5, ?_⟩
        rcases h6 with ⟨a, b, h6, h7⟩ | h6
        · exact Or.inl ⟨a, b, h6, (C54_unescaped _ _).mpr h7⟩
        · exact Or.inr h6
      · rintro ⟨first, rest, h2, h3, h4, h5, h6⟩
        refine ⟨q, rawParts q, first, rest, rfl, params_rawParts q, h2, (C54_unescaped _ _).mp h3, h4, h5, ?_⟩
        rcases h6 with ⟨a, b, h6, h7⟩ | h6
        · exact Or.inl ⟨a, b, h6, (C54_unescaped _ _).mp h7⟩
        · exact Or.inr h6
    rw [hq]
    simp only [publishArgs, publishQuery]
    cases q with
    | nil =>
      simp only [List.isEmpty_nil, if_true]
      constructor
      · intro h; cases h
      · rintro ⟨_, _, h, _⟩; simp [rawParts, valuesOf] at h
    | cons b q =>
      simp only [List.isEmpty_cons, Bool.false_eq_true, if_false]
      have hv : valuesOf param (rawParts (b :: q)) =
        ((rawParts (b :: q)).filter (fun p => p.1 = param)).map Prod.snd := rfl
      rw [hv]
      cases hvs : ((rawParts (b :: q)).filter (fun p => p.1 = param)).map Prod.snd with
      | nil =>
        constructor
        · intro h; cases h
        · rintro ⟨_, _, h, _⟩; cases h
      | cons first rest =>
        simp only [List.cons.injEq]
        cases hu : utf8Ok (percentDecode first) with
        | false =>
          simp only [Bool.false_eq_true, if_false]
          constructor
          · intro h; cases h
          · rintro ⟨_, _, ⟨rfl, rfl⟩, rfl, h, _⟩; rw [hu] at h; cases h
        | true =>
          simp only [if_true]
          cases rest with
          | cons second more =>
            cases ctype with
            | invalid =>
              constructor
              · intro h; cases h
              · rintro ⟨_, _, _, _, _, h, _⟩; exact absurd rfl h
            | _ =>
              simp only [publishInner, List.head?_cons, Option.map_some, Except.ok.injEq, Prod.mk.injEq]
              constructor
              · rintro ⟨rfl, rfl⟩
                exact ⟨_, _, ⟨rfl, rfl⟩, rfl, hu, by simp, Or.inl ⟨_, _, rfl, rfl⟩⟩
              · rintro ⟨_, _, ⟨rfl, rfl⟩, rfl, _, _, ⟨_, _, h, h2⟩ | ⟨h, _⟩⟩
                · cases h; exact ⟨rfl, h2⟩
                · cases h
          | nil =>
            cases ctype with
            | invalid =>
              constructor
              · intro h; cases h
              · rintro ⟨_, _, _, _, _, h, _⟩; exact absurd rfl h
            | absent =>
              constructor
              · intro h; cases h
              · rintro ⟨_, _, ⟨rfl, rfl⟩, _, _, _, ⟨_, _, h, _⟩ | ⟨_, _, _, h, _⟩⟩
                · cases h
                · cases h
            | mime bd =>
              cases bd with
              | none =>
                constructor
                · intro h; cases h
                · rintro ⟨_, _, ⟨rfl, rfl⟩, _, _, _, ⟨_, _, h, _⟩ | ⟨_, _, _, h, _⟩⟩
                  · cases h
                  · cases h
              | some bd =>
                simp only [publishInner, List.head?_nil, Option.map_none, kFile_eq]
                constructor
                · intro h
                  split at h
                  · cases h
                  · rename_i buffer hne he
                    simp only [Except.ok.injEq, Prod.mk.injEq] at h
                    obtain ⟨rfl, rfl⟩ := h
                    refine ⟨_, _, ⟨rfl, rfl⟩, rfl, hu, by simp, Or.inr ⟨rfl, ?_, bd, rfl, he⟩⟩
                    intro h; exact hne h
                  · cases h
                  · cases h
                · rintro ⟨_, _, ⟨rfl, rfl⟩, rfl, _, _, ⟨_, _, h, _⟩ | ⟨_, hm, bd', h, he⟩⟩
                  · cases h
                  · simp only [CType.mime.injEq, Option.some.injEq] at h
                    subst h
                    have he' : onlyNamed ["file".toUTF8.toList] (1024 * 100) (form bd) = .ok message := he
                    rw [he']
                    cases message with
                    | nil => exact absurd rfl hm
                    | cons x xs => rfl

theorem percentEncode_avoids (esc : UInt8 → Bool) (c : UInt8) (h1 : esc c = true) (hc : c ≠ 37)
    (hh : ∀ n < 16, percentEncode.hexDigit n ≠ c) (s : Bytes) : c ∉ percentEncode esc s := by
  unfold percentEncode
  simp only [List.mem_flatten, List.mem_map, not_exists, not_and]
  rintro l ⟨x, _, rfl⟩ hm
  split at hm
  · simp only [List.mem_cons, List.not_mem_nil, or_false] at hm
    have hx := x.toNat_lt
    rcases hm with h | h | h
    · exact hc h
    · exact hh (x.toNat / 16) (by omega) h.symm
    · exact hh (x.toNat % 16) (by omega) h.symm
  · rename_i hx
    simp only [List.mem_cons, List.not_mem_nil, or_false] at hm
    subst hm
    exact hx h1

/-- **C63**: a client that escapes the percent sign and '&' publishes any message whatsoever under any topic
whatsoever, whatever the body of the request is. -/
theorem C63_roundtrip (form : Bytes → List (Option FormField)) (ctype : CType) (hc : ctype ≠ .invalid)
    (esc : UInt8 → Bool) (h1 : esc 37 = true) (h2 : esc 38 = true) (topic message : Bytes)
    (ht : utf8Ok topic = true) :
    publishArgs form "arg".toUTF8.toList (some ("arg=".toUTF8.toList ++ percentEncode esc topic ++
      "&arg=".toUTF8.toList ++ percentEncode esc message)) ctype = .ok (topic, message) := by
  have hh : ∀ n < 16, percentEncode.hexDigit n ≠ 38 := by decide +kernel
  have ha : ∀ s, 38 ∉ percentEncode esc s := percentEncode_avoids esc 38 h2 (by decide) hh
  have e1 : "arg=".toUTF8.toList = "arg".toUTF8.toList ++ [61] := by decide +kernel
  have e2 : "&arg=".toUTF8.toList = 38 :: ("arg".toUTF8.toList ++ [61]) := by decide +kernel
  have n1 : 38 ∉ "arg".toUTF8.toList := by decide +kernel
  have n2 : 61 ∉ "arg".toUTF8.toList := by decide +kernel
  refine (C63_publish _ _ _ _ _ _).mpr ⟨_, [("arg".toUTF8.toList, percentEncode esc topic),
    ("arg".toUTF8.toList, percentEncode esc message)], percentEncode esc topic, [percentEncode esc message], rfl, ?_, ?_,
    (C54_unescaped _ _).mp (C54_names esc h1 topic), ht, hc,
    Or.inl ⟨_, [], rfl, (C54_unescaped _ _).mp (C54_names esc h1 message)⟩⟩
  · rw [e1, e2]
    have p0 : Params ("arg".toUTF8.toList ++ 61 :: percentEncode esc message ++ [])
        [("arg".toUTF8.toList, percentEncode esc message)] :=
      .pair n1 n2 (ha _) (Or.inl rfl) .nil
    have p1 := Params.pair (name := "arg".toUTF8.toList) (value := percentEncode esc topic) n1 n2 (ha _)
      (Or.inr ⟨_, rfl⟩) (.sep p0)
    simpa using p1
  · simp [valuesOf]

/-! ### Publishing and subscribing with the same argument -/

theorem hexVal_space : hexVal 32 = none := by decide +kernel
theorem hexVal_plus : hexVal 43 = none := by decide +kernel

theorem hexVal_replaced (c : UInt8) : hexVal (if c = 43 then 32 else c) = hexVal c := by
  split
  · rename_i h; subst h; rw [hexVal_space, hexVal_plus]
  · rfl

theorem decode_replaced (s : Bytes) :
    percentDecode (replacePlus s) = percentDecode s ↔ 43 ∉ s := by
  fun_induction percentDecode s with
  | case1 => simp [replacePlus, percentDecode]
  | case2 a b s y x hy hx ih =>
    have ha : a ≠ 43 := by rintro rfl; rw [hexVal_plus] at hx; cases hx
    have hb : b ≠ 43 := by rintro rfl; rw [hexVal_plus] at hy; cases hy
    have : replacePlus (37 :: a :: b :: s) = 37 :: a :: b :: replacePlus s := by simp [replacePlus, ha, hb]
    rw [this, percentDecode, hx, hy]
    simp only [List.cons.injEq, true_and, ih, List.mem_cons, not_or]
    constructor
    · intro h; exact ⟨by decide, Ne.symm ha, Ne.symm hb, h⟩
    · intro h; exact h.2.2.2
  | case3 a b s hn ih =>
    have e : replacePlus (37 :: a :: b :: s) = 37 :: (if a = 43 then 32 else a) :: (if b = 43 then 32 else b) :: replacePlus s := by
      simp [replacePlus]
    have e2 : percentDecode (replacePlus (37 :: a :: b :: s)) = 37 :: percentDecode (replacePlus (a :: b :: s)) := by
      rw [e, percentDecode]
      rw [hexVal_replaced, hexVal_replaced]
      split
      · rename_i x y hx hy; exact absurd hy (hn x y hx)
      · simp [replacePlus]
    rw [e2]
    simp only [List.cons.injEq, true_and]
    rw [ih]
    simp
  | case4 c s hc ih =>
    have hc' : ∀ t : Bytes, percentDecode (c :: t) = c :: percentDecode t ∨ c = 37 := by
      intro t
      by_cases h : c = 37
      · exact Or.inr h
      · left
        rw [percentDecode]
        intro a b r h1
        exact absurd h1 h
    by_cases h37 : c = 37
    · subst h37
      have hlen : s.length < 2 := by
        match s with
        | [] => simp
        | [_] => simp
        | a :: b :: r => exact absurd rfl (hc a b r rfl)
      match s, hlen with
      | [], _ => simp [replacePlus, percentDecode]
      | [a], _ =>
        have e : replacePlus [37, a] = [37, if a = 43 then 32 else a] := by simp [replacePlus]
        rw [e]
        have d1 : ∀ z : UInt8, percentDecode [37, z] = [37, z] := by
          intro z; simp [percentDecode]
        have d2 : ∀ z : UInt8, percentDecode [z] = [z] := by
          intro z; simp [percentDecode]
        rw [d1, d2]
        simp only [List.cons.injEq, true_and, and_true, List.mem_cons, List.not_mem_nil, or_false, not_or]
        constructor
        · intro h
          refine ⟨by decide, ?_⟩
          rintro rfl
          simp at h
        · rintro ⟨_, h⟩
          rw [if_neg (fun e => h e.symm)]
    · have e : replacePlus (c :: s) = (if c = 43 then 32 else c) :: replacePlus s := by simp [replacePlus]
      have hne : (if c = 43 then (32 : UInt8) else c) ≠ 37 := by
        split
        · decide
        · exact h37
      have d : ∀ (z : UInt8) (t : Bytes), z ≠ 37 → percentDecode (z :: t) = z :: percentDecode t := by
        intro z t hz
        rw [percentDecode]
        intro a b r h1
        exact absurd h1 hz
      rw [e, d _ _ hne]
      simp only [List.cons.injEq, List.mem_cons, not_or]
      rw [ih]
      constructor
      · rintro ⟨h1, h2⟩
        refine ⟨?_, h2⟩
        rintro rfl
        simp at h1
      · rintro ⟨h1, h2⟩
        exact ⟨by rw [if_neg (fun e => h1 e.symm)], h2⟩

/-- **C63**: the same argument names one topic for publishing and for subscribing just if there is no '+' in
it. Clients that write a space as '+' publish where nobody listens. -/
theorem C63_same_topic (form : Bytes → List (Option FormField)) (ctype : CType) (raw t1 t2 message : Bytes)
    (hr : 38 ∉ raw) (hp : publishArgs form "arg".toUTF8.toList (some ("arg=".toUTF8.toList ++ raw)) ctype = .ok (t1, message))
    (hs : subscribeTopic ("arg=".toUTF8.toList ++ raw) = some t2) :
    t1 = t2 ↔ 43 ∉ raw := by
  have e1 : "arg=".toUTF8.toList = "arg".toUTF8.toList ++ [61] := by decide +kernel
  have n1 : 38 ∉ "arg".toUTF8.toList := by decide +kernel
  have n2 : 61 ∉ "arg".toUTF8.toList := by decide +kernel
  have hparts : rawParts ("arg=".toUTF8.toList ++ raw) = [("arg".toUTF8.toList, raw)] := by
    refine (C63_params _ _).mpr ?_
    rw [e1]
    have := Params.pair (name := "arg".toUTF8.toList) (value := raw) (s := []) n1 n2 hr (Or.inl rfl) .nil
    simpa using this
  have h1 : percentDecode raw = t1 := by
    obtain ⟨q, ps, first, rest, h0, hP, hv, hU, _⟩ := (C63_publish _ _ _ _ _ _).mp hp
    cases h0
    rw [← (C63_params _ _).mpr hP, hparts] at hv
    simp only [valuesOf, List.filter_cons, decide_true, if_true, List.filter_nil, List.map_cons, List.map_nil,
      List.cons.injEq] at hv
    rw [hv.1]
    exact (C54_unescaped _ _).mpr hU
  have h2 : percentDecode (replacePlus raw) = t2 := by
    unfold subscribeTopic at hs
    rw [hparts] at hs
    have earg : percentDecode (replacePlus "arg".toUTF8.toList) = [0x61, 0x72, 0x67] := by decide +kernel
    simp only [List.map_cons, List.map_nil, List.filter_cons, earg, decide_true, if_true, List.filter_nil] at hs
    split at hs
    · cases hs; rfl
    · cases hs
  rw [← h1, ← h2, ← decode_replaced]
  exact eq_comm

/-- "my+topic" is published to as it is and subscribed to as "my topic". -/
example :
    publishArgs (fun _ => [some ⟨some kFile, [some [1]]⟩]) "arg".toUTF8.toList (some "arg=my+topic".toUTF8.toList)
      (.mime (some [])) = .ok ("my+topic".toUTF8.toList, [1]) ∧
    subscribeTopic "arg=my+topic".toUTF8.toList = some "my topic".toUTF8.toList := by
  decide +kernel

example : publishArgs (fun _ => []) "arg".toUTF8.toList (some "x&&arg=a%20b&y=1&arg=%ff%00&arg=z".toUTF8.toList) .absent =
    .ok ("a b".toUTF8.toList, [0xff, 0]) := by
  decide +kernel

/-- **C63**: an empty message can be published in the query and not in the body. -/
theorem C63_empty_message :
    publishArgs (fun _ => []) "arg".toUTF8.toList (some "arg=t&arg=".toUTF8.toList) .absent = .ok ("t".toUTF8.toList, []) ∧
    publishArgs (fun _ => [some ⟨some kFile, []⟩]) "arg".toUTF8.toList (some "arg=t".toUTF8.toList) (.mime (some [])) =
      .error .noData := by
  decide +kernel

end Verif.Props
