import Verif.Http.RefsFormat

/-!
# C51: the format of references
-/

namespace Verif.Props

open Verif Verif.Http.RefsFormat

/-! ### Specification -/

/-- What a format consists of: bytes standing for themselves, and the three tags. -/
inductive FmtTok where
  | lit (b : UInt8)
  | src
  | dst
  | name
deriving DecidableEq, Repr

/-- How it is written. -/
def FmtTok.text : FmtTok → Bytes
  | .lit b => [b]
  | .src => "<src>".toUTF8.toList
  | .dst => "<dst>".toUTF8.toList
  | .name => "<linkname>".toUTF8.toList

/-- What it stands for. -/
def FmtTok.value (src dst : Cid) (name : Option Bytes) : FmtTok → Bytes
  | .lit b => [b]
  | .src => src.toText
  | .dst => dst.toText
  | .name => name.getD []

/-- Any byte but the opening bracket stands for itself. -/
def FmtTok.Ok : FmtTok → Prop
  | .lit b => b ≠ 0x3C
  | _ => True

/-- The text is this sequence. -/
def IsFmt (s : Bytes) (ts : List FmtTok) : Prop := (∀ t ∈ ts, t.Ok) ∧ s = ts.flatMap FmtTok.text

/-- The supported names of tags. -/
def FmtTag (t : Bytes) : Prop := t = "src".toUTF8.toList ∨ t = "dst".toUTF8.toList ∨ t = "linkname".toUTF8.toList

/-! ### Helpers -/

theorem cutTag_some {s inside rest : Bytes} (h : cutTag s = some (inside, rest)) :
    s = inside ++ 0x3E :: rest ∧ 0x3E ∉ inside := by
  induction s generalizing inside with
  | nil => cases h
  | cons b s ih =>
    simp only [cutTag] at h
    split at h
    · rename_i hb
      simp only [Option.some.injEq, Prod.mk.injEq] at h
      obtain ⟨rfl, rfl⟩ := h
      exact ⟨by rw [hb]; rfl, by simp⟩
    · rename_i hb
      split at h
      · cases h
      · rename_i i r hr
        simp only [Option.some.injEq, Prod.mk.injEq] at h
        obtain ⟨rfl, rfl⟩ := h
        obtain ⟨h1, h2⟩ := ih hr
        refine ⟨by rw [h1]; rfl, ?_⟩
        simp only [List.mem_cons, not_or]
        exact ⟨fun e => hb e.symm, h2⟩

theorem cutTag_of (inside rest : Bytes) (h : 0x3E ∉ inside) : cutTag (inside ++ 0x3E :: rest) = some (inside, rest) := by
  induction inside with
  | nil => simp [cutTag]
  | cons b s ih =>
    simp only [List.mem_cons, not_or] at h
    simp only [List.cons_append, cutTag]
    rw [if_neg (fun e => h.1 e.symm), ih h.2]

theorem cutTag_none (s : Bytes) : cutTag s = none ↔ 0x3E ∉ s := by
  induction s with
  | nil => simp [cutTag]
  | cons b s ih =>
    simp only [cutTag, List.mem_cons, not_or]
    by_cases hb : b = 0x3E
    · simp [hb]
    · rw [if_neg hb]
      constructor
      · intro h
        split at h
        · rename_i hn; exact ⟨fun e => hb e.symm, ih.mp hn⟩
        · cases h
      · rintro ⟨-, h⟩
        rw [ih.mpr h]

/-- The token of a tag. -/
def partTok : Part → Option FmtTok
  | .source => some .src
  | .destination => some .dst
  | .linkName => some .name
  | .static _ => none

theorem tagPart_some {inside : Bytes} {p : Part} (h : tagPart inside = some p) :
    ∃ t : FmtTok, t.Ok ∧ t.text = 0x3C :: (inside ++ [0x3E]) ∧ ∀ src dst name, p.render src dst name = t.value src dst name := by
  unfold tagPart at h
  split at h
  · rename_i hi; subst hi; cases h
    exact ⟨.src, trivial, by decide +kernel, fun _ _ _ => rfl⟩
  · split at h
    · rename_i hi; subst hi; cases h
      exact ⟨.dst, trivial, by decide +kernel, fun _ _ _ => rfl⟩
    · split at h
      · rename_i hi; subst hi; cases h
        exact ⟨.name, trivial, by decide +kernel, fun _ _ _ => rfl⟩
      · cases h

theorem tagPart_none {inside : Bytes} : tagPart inside = none ↔ ¬ FmtTag inside := by
  have h1 : tagSrc = "src".toUTF8.toList := by decide +kernel
  have h2 : tagDst = "dst".toUTF8.toList := by decide +kernel
  have h3 : tagName = "linkname".toUTF8.toList := by decide +kernel
  unfold tagPart FmtTag
  rw [h1, h2, h3]
  split
  · simp_all
  · split
    · simp_all
    · split
      · simp_all
      · simp_all

theorem render_flush (b : Bytes) (src dst : Cid) (name : Option Bytes) :
    (flush b).flatMap (Part.render src dst name) = b := by
  unfold flush
  split
  · rename_i h; simp [h]
  · simp [Part.render]

theorem parseGo_ok {s : Bytes} {index : Nat} {buffer : Bytes} {ps : List Part} (h : parseGo s index buffer = .ok ps) :
    ∃ ts, IsFmt s ts ∧ ∀ src dst name,
      ps.flatMap (Part.render src dst name) = buffer ++ ts.flatMap (FmtTok.value src dst name) := by
  fun_induction parseGo s index buffer generalizing ps with
  | case1 index buffer =>
    simp only [Except.ok.injEq] at h
    subst h
    exact ⟨[], ⟨by simp, rfl⟩, fun src dst name => by rw [render_flush]; simp⟩
  | case2 => cases h
  | case3 => cases h
  | case4 => cases h
  | case5 index buffer s inside rest hcut p hp ps' hps ih =>
    simp only [Except.ok.injEq] at h
    subst h
    obtain ⟨ts, ⟨hok, hts⟩, hr⟩ := ih hps
    obtain ⟨t, h1, h2, h3⟩ := tagPart_some hp
    obtain ⟨hs, -⟩ := cutTag_some hcut
    refine ⟨t :: ts, ⟨?_, ?_⟩, ?_⟩
    · intro x hx
      rcases List.mem_cons.mp hx with rfl | hx
      · exact h1
      · exact hok x hx
    · rw [List.flatMap_cons, h2, ← hts, hs]; simp
    · intro src dst name
      rw [List.flatMap_append, List.flatMap_cons, List.flatMap_cons, render_flush, hr, h3]
      simp
  | case6 index buffer b s hb ih =>
    obtain ⟨ts, ⟨hok, hts⟩, hr⟩ := ih h
    refine ⟨.lit b :: ts, ⟨?_, ?_⟩, ?_⟩
    · intro x hx
      rcases List.mem_cons.mp hx with rfl | hx
      · exact hb
      · exact hok x hx
    · rw [List.flatMap_cons, ← hts]; rfl
    · intro src dst name
      rw [hr]; simp [FmtTok.value]

/-- A wrong tag after what is right. -/
theorem parseGo_err {s : Bytes} {index : Nat} {buffer : Bytes} {e : FormatErr} (h : parseGo s index buffer = .error e) :
    ∃ (ts : List FmtTok) (rest : Bytes), (∀ t ∈ ts, t.Ok) ∧ s = ts.flatMap FmtTok.text ++ 0x3C :: rest ∧
      ((0x3E ∉ rest ∧ ∃ i, e = .unterminated i) ∨
       ∃ tag after, rest = tag ++ 0x3E :: after ∧ 0x3E ∉ tag ∧ ¬ FmtTag tag ∧ e = .unsupported tag) := by
  fun_induction parseGo s index buffer with
  | case1 index buffer => cases h
  | case2 index buffer s hcut =>
    simp only [Except.error.injEq] at h
    exact ⟨[], s, by simp, rfl, Or.inl ⟨(cutTag_none s).mp hcut, _, h.symm⟩⟩
  | case3 index buffer s inside rest hcut hp =>
    simp only [Except.error.injEq] at h
    obtain ⟨h1, h2⟩ := cutTag_some hcut
    exact ⟨[], s, by simp, rfl, Or.inr ⟨inside, rest, h1, h2, tagPart_none.mp hp, h.symm⟩⟩
  | case4 index buffer s inside rest hcut p hp e' he' ih =>
    simp only [Except.error.injEq] at h
    subst h
    obtain ⟨ts, r, hok, hs, hor⟩ := ih he'
    obtain ⟨t, h1, h2, -⟩ := tagPart_some hp
    obtain ⟨hcs, -⟩ := cutTag_some hcut
    refine ⟨t :: ts, r, ?_, ?_, hor⟩
    · intro x hx
      rcases List.mem_cons.mp hx with rfl | hx
      · exact h1
      · exact hok x hx
    · rw [List.flatMap_cons, h2, hcs, hs]; simp
  | case5 => cases h
  | case6 index buffer b s hb ih =>
    obtain ⟨ts, r, hok, hs, hor⟩ := ih h
    refine ⟨.lit b :: ts, r, ?_, ?_, hor⟩
    · intro x hx
      rcases List.mem_cons.mp hx with rfl | hx
      · exact hb
      · exact hok x hx
    · rw [List.flatMap_cons, hs]; rfl

theorem tok_tag (t : FmtTok) : (∃ b, t = .lit b) ∨ ∃ tag, t.text = 0x3C :: (tag ++ [0x3E]) ∧ FmtTag tag ∧ 0x3E ∉ tag := by
  cases t with
  | lit b => exact Or.inl ⟨b, rfl⟩
  | src => exact Or.inr ⟨_, by decide +kernel, Or.inl rfl, by decide +kernel⟩
  | dst => exact Or.inr ⟨_, by decide +kernel, Or.inr (Or.inl rfl), by decide +kernel⟩
  | name => exact Or.inr ⟨_, by decide +kernel, Or.inr (Or.inr rfl), by decide +kernel⟩

theorem fmtText_inj {a b : FmtTok} (h : a.text = b.text) : a = b := by
  have h1 : "<src>".toUTF8.toList = [0x3C, 0x73, 0x72, 0x63, 0x3E] := by decide +kernel
  have h2 : "<dst>".toUTF8.toList = [0x3C, 0x64, 0x73, 0x74, 0x3E] := by decide +kernel
  have h3 : "<linkname>".toUTF8.toList = [0x3C, 0x6C, 0x69, 0x6E, 0x6B, 0x6E, 0x61, 0x6D, 0x65, 0x3E] := by decide +kernel
  cases a <;> cases b <;> simp only [FmtTok.text, h1, h2, h3] at h <;> first | rfl | (simp at h; try rw [h])

/-- Right text is taken, whatever comes after. -/
theorem parseGo_prefix (ts : List FmtTok) (hok : ∀ t ∈ ts, t.Ok) (rest : Bytes) : ∀ index buffer,
    ∃ index' buffer', (∃ ps, parseGo (ts.flatMap FmtTok.text ++ rest) index buffer =
      (parseGo rest index' buffer').map (ps ++ ·)) := by
  induction ts with
  | nil =>
    intro index buffer
    refine ⟨index, buffer, [], ?_⟩
    simp only [List.flatMap_nil, List.nil_append]
    cases parseGo rest index buffer <;> rfl
  | cons t ts ih =>
    intro index buffer
    have ih' := ih (fun x hx => hok x (by simp [hx]))
    rcases tok_tag t with ⟨b, rfl⟩ | ⟨tag, htext, htag, hgt⟩
    · have hb : b ≠ 0x3C := hok (.lit b) (by simp)
      obtain ⟨i', b', ps, h⟩ := ih' (index + 1) (buffer ++ [b])
      refine ⟨i', b', ps, ?_⟩
      rw [← h]
      rw [List.flatMap_cons, FmtTok.text, List.append_assoc, List.singleton_append, parseGo, if_neg hb]
    · obtain ⟨i', b', ps, h⟩ := ih' 0 []
      have hcut : cutTag (tag ++ 0x3E :: (ts.flatMap FmtTok.text ++ rest)) = some (tag, ts.flatMap FmtTok.text ++ rest) :=
        cutTag_of _ _ hgt
      obtain ⟨p, hp⟩ : ∃ p, tagPart tag = some p := by
        cases hp : tagPart tag with
        | none => exact absurd htag (tagPart_none.mp hp)
        | some p => exact ⟨p, rfl⟩
      have hs : (t :: ts).flatMap FmtTok.text ++ rest = 0x3C :: (tag ++ 0x3E :: (ts.flatMap FmtTok.text ++ rest)) := by
        rw [List.flatMap_cons, htext]; simp
      refine ⟨i', b', flush buffer ++ p :: ps, ?_⟩
      rw [hs, parseGo, if_pos rfl]
      split
      · rename_i hn; rw [hcut] at hn; cases hn
      · rename_i inside r hn
        rw [hcut] at hn
        simp only [Option.some.injEq, Prod.mk.injEq] at hn
        obtain ⟨rfl, rfl⟩ := hn
        rw [hp]
        simp only
        rw [h]
        cases parseGo rest i' b' with
        | error e => rfl
        | ok x => simp [Except.map]

/-! ### Theorems -/

/-- **C51**: a format is accepted exactly when it is a sequence of tags and other text, and then every edge is
rendered as that sequence with the tags replaced and all the rest unchanged. -/
theorem C51_accepted (s : Bytes) :
    ((∃ ps, parseFormat s = .ok ps) ↔ ∃ ts, IsFmt s ts) ∧
    ∀ ps ts, parseFormat s = .ok ps → IsFmt s ts → ∀ src dst name,
      (Formatter.parts ps).render src dst name = ts.flatMap (FmtTok.value src dst name) := by
  have uniq : ∀ (a b : List FmtTok), (∀ t ∈ a, t.Ok) → (∀ t ∈ b, t.Ok) → a.flatMap FmtTok.text = b.flatMap FmtTok.text → a = b := by
    intro a
    induction a with
    | nil =>
      intro b _ _ h
      cases b with
      | nil => rfl
      | cons t b =>
        exfalso
        rw [List.flatMap_nil, List.flatMap_cons] at h
        rcases tok_tag t with ⟨x, rfl⟩ | ⟨tag, ht, -⟩
        · cases h
        · rw [ht] at h; cases h
    | cons t a ih =>
      intro b ha hb h
      cases b with
      | nil =>
        exfalso
        rw [List.flatMap_nil, List.flatMap_cons] at h
        rcases tok_tag t with ⟨x, rfl⟩ | ⟨tag, ht, -⟩
        · cases h
        · rw [ht] at h; cases h
      | cons u b =>
        rw [List.flatMap_cons, List.flatMap_cons] at h
        have hcase : t = u ∧ a.flatMap FmtTok.text = b.flatMap FmtTok.text := by
          rcases tok_tag t with ⟨x, rfl⟩ | ⟨tag, ht, -, hg⟩
          · rcases tok_tag u with ⟨y, rfl⟩ | ⟨tag', hu, -, -⟩
            · simp only [FmtTok.text, List.singleton_append, List.cons.injEq] at h
              exact ⟨by rw [h.1], h.2⟩
            · rw [hu] at h
              simp only [FmtTok.text, List.cons_append, List.cons.injEq] at h
              exact absurd h.1 (ha (.lit x) (by simp))
          · rcases tok_tag u with ⟨y, rfl⟩ | ⟨tag', hu, -, hg'⟩
            · rw [ht] at h
              simp only [FmtTok.text, List.cons_append, List.cons.injEq] at h
              exact absurd h.1.symm (hb (.lit y) (by simp))
            · have h' := h
              rw [ht, hu] at h'
              simp only [List.cons_append, List.append_assoc, List.nil_append, List.cons.injEq, true_and] at h'
              have e1 := cutTag_of tag (a.flatMap FmtTok.text) hg
              rw [h', cutTag_of tag' _ hg'] at e1
              simp only [Option.some.injEq, Prod.mk.injEq] at e1
              refine ⟨?_, e1.2.symm⟩
              have htu : t.text = u.text := by rw [ht, hu, e1.1]
              exact fmtText_inj htu
        rw [hcase.1, ih b (fun x hx => ha x (by simp [hx])) (fun x hx => hb x (by simp [hx])) hcase.2]
  refine ⟨⟨?_, ?_⟩, ?_⟩
  · rintro ⟨ps, h⟩
    obtain ⟨ts, h1, -⟩ := parseGo_ok h
    exact ⟨ts, h1⟩
  · rintro ⟨ts, hok, hs⟩
    obtain ⟨i, b, ps, h⟩ := parseGo_prefix ts hok [] 0 []
    rw [List.append_nil, ← hs, parseGo] at h
    exact ⟨_, h⟩
  · intro ps ts hp ht src dst name
    obtain ⟨ts', h1, h2⟩ := parseGo_ok hp
    have := uniq ts' ts h1.1 ht.1 (by rw [← h1.2, ← ht.2])
    subst this
    have := h2 src dst name
    simpa [Formatter.render] using this

/-- **C51**: it is rejected as unterminated exactly when an opening bracket after right text is not closed. -/
theorem C51_unterminated (s : Bytes) :
    (∃ i, parseFormat s = .error (.unterminated i)) ↔
      ∃ (ts : List FmtTok) (rest : Bytes), (∀ t ∈ ts, t.Ok) ∧ s = ts.flatMap FmtTok.text ++ 0x3C :: rest ∧ 0x3E ∉ rest := by
  constructor
  · rintro ⟨i, h⟩
    obtain ⟨ts, rest, h1, h2, h3⟩ := parseGo_err h
    rcases h3 with ⟨h3, -⟩ | ⟨_, _, -, -, -, h3⟩
    · exact ⟨ts, rest, h1, h2, h3⟩
    · cases h3
  · rintro ⟨ts, rest, h1, h2, h3⟩
    obtain ⟨i, b, ps, h⟩ := parseGo_prefix ts h1 (0x3C :: rest) 0 []
    rw [← h2] at h
    refine ⟨i, ?_⟩
    unfold parseFormat
    rw [h, parseGo, if_pos rfl]
    split
    · rfl
    · rename_i inside r hn
      rw [(cutTag_none rest).mpr h3] at hn; cases hn

/-- **C51**: it is rejected for an unknown tag exactly when one follows right text, and that tag is named. -/
theorem C51_unsupported (s tag : Bytes) :
    parseFormat s = .error (.unsupported tag) ↔
      ∃ (ts : List FmtTok) (rest : Bytes), (∀ t ∈ ts, t.Ok) ∧ s = ts.flatMap FmtTok.text ++ 0x3C :: (tag ++ 0x3E :: rest) ∧
        0x3E ∉ tag ∧ ¬ FmtTag tag := by
  constructor
  · intro h
    obtain ⟨ts, rest, h1, h2, h3⟩ := parseGo_err h
    rcases h3 with ⟨-, i, h3⟩ | ⟨t, after, h4, h5, h6, h7⟩
    · cases h3
    · cases h7
      exact ⟨ts, after, h1, by rw [h2, h4], h5, h6⟩
  · rintro ⟨ts, rest, h1, h2, h3, h4⟩
    obtain ⟨i, b, ps, h⟩ := parseGo_prefix ts h1 (0x3C :: (tag ++ 0x3E :: rest)) 0 []
    rw [← h2] at h
    unfold parseFormat
    rw [h, parseGo, if_pos rfl]
    split
    · rename_i hn; rw [cutTag_of _ _ h3] at hn; cases hn
    · rename_i inside r hn
      rw [cutTag_of _ _ h3] at hn
      simp only [Option.some.injEq, Prod.mk.injEq] at hn
      obtain ⟨rfl, rfl⟩ := hn
      rw [tagPart_none.mpr h4]
      rfl

/-- **C51**: which formatter the options select. -/
theorem C51_options (edges : Bool) (format : Option Bytes) :
    (∀ ps s, format = some s → edges = false → parseFormat s = .ok ps → fromOptions edges format = .ok (.parts ps)) ∧
    (format = none → fromOptions edges format = .ok (if edges then .arrow else .destination)) ∧
    (edges = true → format ≠ none → fromOptions edges format = .error .edgesWithCustomFormat) ∧
    (∀ e s, format = some s → edges = false → parseFormat s = .error e → fromOptions edges format = .error (.format e)) := by
  refine ⟨?_, ?_, ?_, ?_⟩
  · rintro ps s rfl rfl h; simp [fromOptions, h]
  · rintro rfl; cases edges <;> rfl
  · rintro rfl h; cases format with
    | none => exact absurd rfl h
    | some s => rfl
  · rintro ps s rfl rfl h; simp [fromOptions, h]

/-! ### Examples -/

example : parseFormat "<linkname>: <src> -> <dst>".toUTF8.toList =
    .ok [.linkName, .static ": ".toUTF8.toList, .source, .static " -> ".toUTF8.toList, .destination] := by decide +kernel

example : IsFmt "a><src>".toUTF8.toList [.lit 0x61, .lit 0x3E, .src] :=
  ⟨by simp [FmtTok.Ok], by decide +kernel⟩

example : parseFormat "a<<src>".toUTF8.toList = .error (.unsupported "<src".toUTF8.toList) := by decide +kernel

/-- The index reported for an unterminated tag counts from the end of the tag before it, not from the start. -/
theorem C51_index : parseFormat "<src><dst".toUTF8.toList = .error (.unterminated 0) ∧
    parseFormat "ab<src>c<dst".toUTF8.toList = .error (.unterminated 1) := by decide +kernel

end Verif.Props
