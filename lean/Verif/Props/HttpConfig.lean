import Verif.Http.Config
import Verif.Props.JsonWrite
import Verif.Props.HttpSwarm

/-!
# C77, C78: the configuration file
-/

namespace Verif.Props

open Verif Verif.Ipfs Verif.Http

/-! ### Specification -/

/-- A text in lines: each ends with a line feed, with or without a carriage return before it; the last may be without. -/
inductive TextLines : Bytes → List Bytes → Prop
  | nil : TextLines [] []
  | last {l : Bytes} : l ≠ [] → 10 ∉ l → TextLines l [l]
  | lf {l s : Bytes} {ls : List Bytes} : 10 ∉ l → l.getLast? ≠ some 13 → TextLines s ls → TextLines (l ++ 10 :: s) (l :: ls)
  | crlf {l s : Bytes} {ls : List Bytes} : 10 ∉ l → TextLines s ls → TextLines (l ++ 13 :: 10 :: s) (l :: ls)

/-- Base64 texts with padding, one after the other, and what they stand for. -/
def PadText (t d : Bytes) : Prop := ∃ ds : List Bytes, t = (ds.map base64).flatten ∧ d = ds.flatten

/-- A PEM text: a line with BEGIN and a tag, lines of base64, a line with END and the same tag, anything. -/
def PemText (bs d : Bytes) : Prop :=
  utf8Ok bs = true ∧ ∃ (tag : Bytes) (body rest : List Bytes),
    TextLines bs (("-----BEGIN".toUTF8.toList ++ tag) :: (body ++ ("-----END".toUTF8.toList ++ tag) :: rest)) ∧
    (∀ l ∈ body, ¬ "-----END".toUTF8.toList <+: l) ∧ PadText body.flatten d

/-! ### Base64 -/

theorem char_of_value64 : ∀ c : UInt8, ∀ n, value64 c = some n → n < 64 ∧ char64 n = c := by
  have : ∀ k < 256, ∀ n, value64 (UInt8.ofNat k) = some n → n < 64 ∧ char64 n = UInt8.ofNat k := by
    have h : ∀ k < 256, (match value64 (UInt8.ofNat k) with
      | some n => decide (n < 64 ∧ char64 n = UInt8.ofNat k)
      | none => true) = true := by decide +kernel
    intro k hk n hn
    have := h k hk
    rw [hn] at this
    simpa using this
  intro c n hn
  have := this c.toNat c.toNat_lt n
  simp at this
  exact this hn

theorem padBlock_base64 {a b c d : UInt8} {x : Bytes} (h : padBlock a b c d = some x) : base64 x = [a, b, c, d] := by
  unfold padBlock at h
  split at h
  · rename_i hd; subst hd
    split at h
    · rename_i hc; subst hc
      unfold tail2 at h
      split at h
      · rename_i x y ha hb
        obtain ⟨h1, e1⟩ := char_of_value64 _ _ ha
        obtain ⟨h2, e2⟩ := char_of_value64 _ _ hb
        split at h
        · rename_i hz
          cases h
          simp only [base64, UInt8.toNat_ofNat']
          rw [← e1, ← e2]
          congr 3 <;> (try congr 1) <;> omega
        · cases h
      · cases h
    · unfold tail3 at h
      split at h
      · rename_i x y z ha hb hc
        obtain ⟨h1, e1⟩ := char_of_value64 _ _ ha
        obtain ⟨h2, e2⟩ := char_of_value64 _ _ hb
        obtain ⟨h3, e3⟩ := char_of_value64 _ _ hc
        split at h
        · rename_i hz
          cases h
          simp only [base64, UInt8.toNat_ofNat']
          rw [← e1, ← e2, ← e3]
          congr 3 <;> (try congr 1) <;> (try congr 1) <;> omega
        · cases h
      · cases h
  · unfold quad at h
    split at h
    · rename_i x y z w ha hb hc hd
      obtain ⟨h1, e1⟩ := char_of_value64 _ _ ha
      obtain ⟨h2, e2⟩ := char_of_value64 _ _ hb
      obtain ⟨h3, e3⟩ := char_of_value64 _ _ hc
      obtain ⟨h4, e4⟩ := char_of_value64 _ _ hd
      cases h
      simp only [base64, UInt8.toNat_ofNat']
      rw [← e1, ← e2, ← e3, ← e4]
      congr 3 <;> (try congr 1) <;> (try congr 1) <;> (try congr 1) <;> omega
    · cases h

theorem unbase64Pad_append (bs t : Bytes) : unbase64Pad (base64 bs ++ t) = (unbase64Pad t).map (bs ++ ·) := by
  fun_induction base64 bs with
  | case1 => simp
  | case2 a =>
    have ha := a.toNat_lt
    have v1 := value64_char64 (a.toNat / 4) (by omega)
    have v2 := value64_char64 (a.toNat % 4 * 16) (by omega)
    simp only [List.cons_append, List.nil_append, unbase64Pad, padBlock, if_true, tail2, v1, v2]
    rw [if_pos (by omega)]
    have : UInt8.ofNat (a.toNat / 4 * 4 + a.toNat % 4 * 16 / 16) = a := by
      rw [← UInt8.toNat_inj]; simp [UInt8.toNat_ofNat']; omega
    rw [this]
    cases unbase64Pad t <;> rfl
  | case3 a b =>
    have ha := a.toNat_lt
    have hb := b.toNat_lt
    have v1 := value64_char64 (a.toNat / 4) (by omega)
    have v2 := value64_char64 (a.toNat % 4 * 16 + b.toNat / 16) (by omega)
    have v3 := value64_char64 (b.toNat % 16 * 4) (by omega)
    have n3 := char64_ne (b.toNat % 16 * 4) (by omega)
    simp only [List.cons_append, List.nil_append, unbase64Pad, padBlock, if_neg n3, if_true, tail3, v1, v2, v3]
    rw [if_pos (by omega)]
    have e : [UInt8.ofNat (a.toNat / 4 * 4 + (a.toNat % 4 * 16 + b.toNat / 16) / 16),
        UInt8.ofNat ((a.toNat % 4 * 16 + b.toNat / 16) % 16 * 16 + b.toNat % 16 * 4 / 4)] = [a, b] := by
      simp only [List.cons.injEq, and_true, ← UInt8.toNat_inj, UInt8.toNat_ofNat']
      omega
    rw [e]
    cases unbase64Pad t <;> rfl
  | case4 a b c r ih =>
    have ha := a.toNat_lt
    have hb := b.toNat_lt
    have hc := c.toNat_lt
    have v1 := value64_char64 (a.toNat / 4) (by omega)
    have v2 := value64_char64 (a.toNat % 4 * 16 + b.toNat / 16) (by omega)
    have v3 := value64_char64 (b.toNat % 16 * 4 + c.toNat / 64) (by omega)
    have v4 := value64_char64 (c.toNat % 64) (by omega)
    have n4 := char64_ne (c.toNat % 64) (by omega)
    simp only [List.cons_append, unbase64Pad, padBlock, if_neg n4, quad, v1, v2, v3, v4, ih]
    have e : [UInt8.ofNat (a.toNat / 4 * 4 + (a.toNat % 4 * 16 + b.toNat / 16) / 16),
        UInt8.ofNat ((a.toNat % 4 * 16 + b.toNat / 16) % 16 * 16 + (b.toNat % 16 * 4 + c.toNat / 64) / 4),
        UInt8.ofNat ((b.toNat % 16 * 4 + c.toNat / 64) % 4 * 64 + c.toNat % 64)] = [a, b, c] := by
      simp only [List.cons.injEq, and_true, ← UInt8.toNat_inj, UInt8.toNat_ofNat']
      omega
    rw [e]
    cases unbase64Pad t <;> rfl

/-- **C77**: padded base64 is read exactly if it is written like that, in one or in many pieces. -/
theorem C77_base64 (t d : Bytes) : unbase64Pad t = some d ↔ PadText t d := by
  constructor
  · fun_induction unbase64Pad t generalizing d with
    | case1 => intro h; cases h; exact ⟨[], rfl, rfl⟩
    | case2 a b c e r x y hy hx ih =>
      intro h
      cases h
      obtain ⟨ds, h1, h2⟩ := ih y hy
      refine ⟨x :: ds, ?_, by simp [h2]⟩
      simp [padBlock_base64 hx, ← h1]
    | case3 => intro h; cases h
    | case4 => intro h; cases h
  · rintro ⟨ds, rfl, rfl⟩
    induction ds with
    | nil => rfl
    | cons x ds ih => simp [unbase64Pad_append, ih]

example : unbase64Pad "YQ==YmM=".toUTF8.toList = some "abc".toUTF8.toList ∧ unbase64Pad "YQ".toUTF8.toList = none ∧
    unbase64Pad "YR==".toUTF8.toList = none := by decide +kernel

/-! ### Lines -/

theorem dropCr_split (l : Bytes) : (l.getLast? ≠ some 13 ∧ dropCr l = l) ∨ l = dropCr l ++ [13] := by
  unfold dropCr
  split
  · rename_i h
    right
    rcases List.eq_nil_or_concat l with rfl | ⟨l', x, rfl⟩
    · simp at h
    · simp at h; simp [h]
  · rename_i h; exact Or.inl ⟨h, rfl⟩

theorem linesFrom_lines (s : Bytes) : ∀ cur, 10 ∉ cur → TextLines (cur ++ s) (linesFrom cur s) := by
  induction s with
  | nil =>
    intro cur h
    rw [linesFrom, List.append_nil]
    split
    · rename_i h0; rw [h0]; exact .nil
    · rename_i h0; exact .last h0 h
  | cons c s ih =>
    intro cur h
    rw [linesFrom]
    split
    · rename_i hc
      subst hc
      have h2 := ih [] (by simp)
      rw [List.nil_append] at h2
      rcases dropCr_split cur with ⟨h1, e⟩ | e
      · rw [e]; exact .lf h h1 h2
      · have h' : 10 ∉ dropCr cur := by
          intro hm; apply h; rw [e]; simp [hm]
        have := TextLines.crlf h' h2
        have e2 : cur ++ 10 :: s = dropCr cur ++ 13 :: 10 :: s := by
          have : cur ++ 10 :: s = (dropCr cur ++ [13]) ++ 10 :: s := congrArg (· ++ 10 :: s) e
          rw [this]; simp
        rw [e2]
        exact this
    · rename_i hc
      have := ih (cur ++ [c]) (by simp [h]; exact fun e => hc e.symm)
      simpa using this

theorem linesFrom_plain (l s : Bytes) (h : 10 ∉ l) : ∀ cur, linesFrom cur (l ++ s) = linesFrom (cur ++ l) s := by
  induction l with
  | nil => intro cur; simp
  | cons c l ih =>
    intro cur
    simp only [List.mem_cons, not_or] at h
    rw [List.cons_append, linesFrom, if_neg (fun e => h.1 e.symm), ih h.2]
    simp

theorem linesFrom_of {s : Bytes} {ls : List Bytes} (h : TextLines s ls) : linesFrom [] s = ls := by
  induction h with
  | nil => rfl
  | @last l hne h =>
    have := linesFrom_plain l [] h []
    rw [List.append_nil, List.nil_append] at this
    rw [this, linesFrom, if_neg hne]
  | @lf l s ls h h13 _ ih =>
    rw [linesFrom_plain l _ h [], List.nil_append, linesFrom, if_pos rfl, ih, dropCr, if_neg h13]
  | @crlf l s ls h _ ih =>
    have e : l ++ 13 :: 10 :: s = (l ++ [13]) ++ 10 :: s := by simp
    rw [e, linesFrom_plain (l ++ [13]) _ (by simp [h]) [], List.nil_append, linesFrom, if_pos rfl, ih, dropCr]
    simp

/-- **C77**: the lines of a text. -/
theorem C77_lines (s : Bytes) (ls : List Bytes) : linesFrom [] s = ls ↔ TextLines s ls := by
  constructor
  · rintro rfl
    have := linesFrom_lines s [] (by simp)
    simpa using this
  · exact linesFrom_of

/-! ### PEM -/

theorem isPrefix_split {p l : Bytes} : p.isPrefixOf l = true ↔ l = p ++ l.drop p.length := by
  rw [List.isPrefixOf_iff_prefix]
  constructor
  · rintro ⟨r, rfl⟩; simp
  · intro h; exact ⟨_, h.symm⟩

theorem kEnd_drop (t : Bytes) : (kEnd ++ t).drop 8 = t := by
  have : kEnd.length = 8 := by decide +kernel
  rw [← this]; simp

theorem kBegin_drop (t : Bytes) : (kBegin ++ t).drop 10 = t := by
  have : kBegin.length = 10 := by decide +kernel
  rw [← this]; simp

theorem pemBody_iff (tag : Bytes) (ls : List Bytes) : ∀ acc t, pemBody tag acc ls = .ok t ↔
    ∃ body rest, ls = body ++ (kEnd ++ tag) :: rest ∧ (∀ l ∈ body, ¬ kEnd <+: l) ∧ t = acc ++ body.flatten := by
  induction ls with
  | nil => intro acc t; simp [pemBody]
  | cons l ls ih =>
    intro acc t
    rw [pemBody]
    by_cases hp : kEnd.isPrefixOf l = true
    · rw [if_pos hp]
      have hp' : kEnd <+: l := List.isPrefixOf_iff_prefix.mp hp
      obtain ⟨r, rfl⟩ := hp'
      rw [kEnd_drop]
      constructor
      · intro h
        split at h
        · rename_i hr
          cases h
          exact ⟨[], ls, by simp [hr], by simp, by simp⟩
        · cases h
      · rintro ⟨body, rest, h1, h2, h3⟩
        cases body with
        | nil =>
          simp only [List.nil_append, List.cons.injEq, List.append_cancel_left_eq] at h1
          rw [if_pos h1.1]
          simp [h3]
        | cons b body =>
          simp only [List.cons_append, List.cons.injEq] at h1
          exact absurd ⟨r, h1.1⟩ (h2 b (by simp))
    · rw [if_neg hp, ih]
      have hp' : ¬ kEnd <+: l := fun h => hp (List.isPrefixOf_iff_prefix.mpr h)
      constructor
      · rintro ⟨body, rest, rfl, h2, rfl⟩
        refine ⟨l :: body, rest, rfl, ?_, by simp⟩
        intro x hx
        rcases List.mem_cons.mp hx with rfl | hx
        · exact hp'
        · exact h2 x hx
      · rintro ⟨body, rest, h1, h2, h3⟩
        cases body with
        | nil =>
          simp only [List.nil_append, List.cons.injEq] at h1
          exact absurd ⟨tag, h1.1.symm⟩ hp'
        | cons b body =>
          simp only [List.cons_append, List.cons.injEq] at h1
          obtain ⟨rfl, rfl⟩ := h1
          exact ⟨body, rest, rfl, fun x hx => h2 x (by simp [hx]), by simp [h3]⟩

/-- **C77**: a PEM text is read exactly if it is one; everything else makes the program panic. -/
theorem C77_pem (bs d : Bytes) : pemToDer bs = .ok d ↔ PemText bs d := by
  unfold PemText
  change _ ↔ utf8Ok bs = true ∧ ∃ (tag : Bytes) (body rest : List Bytes),
    TextLines bs ((kBegin ++ tag) :: (body ++ (kEnd ++ tag) :: rest)) ∧ (∀ l ∈ body, ¬ kEnd <+: l) ∧ PadText body.flatten d
  unfold pemToDer
  by_cases hu : utf8Ok bs = true
  · rw [if_pos hu]
    simp only [hu, true_and]
    simp only [← C77_lines, ← C77_base64]
    generalize linesFrom [] bs = ls
    cases ls with
    | nil => simp
    | cons l ls =>
      dsimp only
      by_cases hp : kBegin.isPrefixOf l = true
      · rw [if_pos hp]
        obtain ⟨tag, rfl⟩ := List.isPrefixOf_iff_prefix.mp hp
        rw [kBegin_drop]
        constructor
        · intro h
          split at h
          · cases h
          · rename_i text ht
            obtain ⟨body, rest, h1, h2, h3⟩ := (pemBody_iff _ _ _ _).mp ht
            split at h
            · rename_i x hx
              cases h
              refine ⟨tag, body, rest, by rw [h1], h2, ?_⟩
              rw [h3] at hx
              simpa using hx
            · cases h
        · rintro ⟨tag', body, rest, h1, h2, h3⟩
          simp only [List.cons.injEq, List.append_cancel_left_eq] at h1
          obtain ⟨rfl, rfl⟩ := h1
          have := (pemBody_iff tag (body ++ (kEnd ++ tag) :: rest) [] body.flatten).mpr ⟨body, rest, rfl, h2, by simp⟩
          rw [this]
          dsimp only
          rw [h3]
      · rw [if_neg hp]
        constructor
        · intro h; cases h
        · rintro ⟨tag, body, rest, h1, _⟩
          simp only [List.cons.injEq] at h1
          exact absurd (List.isPrefixOf_iff_prefix.mpr ⟨tag, h1.1.symm⟩) hp
  · rw [if_neg hu]
    constructor
    · intro h; cases h
    · rintro ⟨h, _⟩; exact absurd h hu

example : pemToDer "-----BEGIN something anything-----\naGVsbG8gd29ybGQ=\n-----END something anything-----\n\ngarbage".toUTF8.toList =
    .ok "hello world".toUTF8.toList := by decide +kernel

/-- The lines, each with a line feed. -/
def withFeeds (ls : List Bytes) : Bytes := ls.flatMap (fun l => l ++ [10])

theorem textLines_any (s : Bytes) : ∃ ls, TextLines s ls := ⟨_, (C77_lines s _).mp rfl⟩

theorem base64_noLine (d : Bytes) : 10 ∉ base64 d ∧ 13 ∉ base64 d ∧ 45 ∉ base64 d := by
  have key : ∀ n < 64, char64 n ≠ 10 ∧ char64 n ≠ 13 ∧ char64 n ≠ 45 := by decide +kernel
  refine ⟨?_, ?_, ?_⟩
  all_goals
    intro h
    rcases base64_chars d _ h with h | ⟨n, hn, h⟩
    · revert h; decide
    · have := key n hn
      rw [← h] at this
      simp at this

theorem textLines_feeds {ls : List Bytes} (h : ∀ l ∈ ls, 10 ∉ l ∧ 13 ∉ l) {s : Bytes} {rest : List Bytes} (hr : TextLines s rest) :
    TextLines (withFeeds ls ++ s) (ls ++ rest) := by
  induction ls with
  | nil => simpa [withFeeds] using hr
  | cons l ls ih =>
    have h1 := h l (by simp)
    have := TextLines.lf h1.1 (fun e => h1.2 (List.mem_of_getLast? e)) (ih (fun x hx => h x (by simp [hx])))
    simpa [withFeeds] using this

/-- **C77**: bytes are read from a PEM text however it is wrapped, and whatever follows it. -/
theorem C77_wrapped (d tag rest : Bytes) (body : List Bytes) (hb : body.flatten = base64 d) (ht : utf8Ok tag = true)
    (h10 : 10 ∉ tag) (h13 : 13 ∉ tag) (hr : utf8Ok rest = true) :
    pemToDer ("-----BEGIN".toUTF8.toList ++ tag ++ [10] ++ withFeeds body ++ "-----END".toUTF8.toList ++ tag ++ [10] ++ rest) = .ok d := by
  obtain ⟨ls, hls⟩ := textLines_any rest
  obtain ⟨b10, b13, b45⟩ := base64_noLine d
  have hmem : ∀ l ∈ body, ∀ c ∈ l, c ∈ base64 d := by
    intro l hl c hc
    rw [← hb]; exact List.mem_flatten.mpr ⟨l, hl, hc⟩
  rw [C77_pem]
  refine ⟨?_, tag, body, ls, ?_, ?_, ⟨[d], by simp [hb], by simp⟩⟩
  · have hbody : utf8Ok (withFeeds body) = true := by
      refine utf8Ok_ascii ?_
      intro c hc
      simp only [withFeeds, List.mem_flatMap, List.mem_append, List.mem_singleton] at hc
      obtain ⟨l, hl, hc | rfl⟩ := hc
      · exact UInt8.lt_iff_toNat_lt.mpr (base64_plain d c (hmem l hl c hc)).1.2
      · decide
    simp only [List.append_assoc]
    rw [utf8Ok_append (by decide +kernel), utf8Ok_append ht, utf8Ok_append (by decide +kernel), utf8Ok_append hbody,
      utf8Ok_append (by decide +kernel), utf8Ok_append ht, utf8Ok_append (by decide +kernel)]
    exact hr
  · have := textLines_feeds (ls := ("-----BEGIN".toUTF8.toList ++ tag) :: (body ++ ["-----END".toUTF8.toList ++ tag]))
      (s := rest) (rest := ls) ?_ hls
    · simpa [withFeeds] using this
    · intro l hl
      simp only [List.mem_cons, List.mem_append, List.not_mem_nil, or_false] at hl
      have e1 : 10 ∉ "-----BEGIN".toUTF8.toList ∧ 13 ∉ "-----BEGIN".toUTF8.toList ∧ 10 ∉ "-----END".toUTF8.toList ∧
        13 ∉ "-----END".toUTF8.toList := by decide +kernel
      rcases hl with rfl | hl | rfl
      · simp only [List.mem_append, not_or]; exact ⟨⟨e1.1, h10⟩, e1.2.1, h13⟩
      · exact ⟨fun h => b10 (hmem l hl _ h), fun h => b13 (hmem l hl _ h)⟩
      · simp only [List.mem_append, not_or]; exact ⟨⟨e1.2.2.1, h10⟩, e1.2.2.2, h13⟩
  · rintro l hl ⟨r, rfl⟩
    refine b45 (hmem _ hl 45 ?_)
    have : (45 : UInt8) ∈ "-----END".toUTF8.toList := by decide +kernel
    simp only [List.mem_append]
    exact Or.inl this

/-! ### JSON with line breaks -/

theorem jws_indent (n : Nat) : JWs (10 :: indentOf n) := by
  intro c hc
  simp only [indentOf, List.mem_cons, List.mem_replicate] at hc
  rcases hc with rfl | ⟨_, rfl⟩ <;> simp

theorem moreElems_pretty (d n n' : Nat) : ∀ l : List Json, (∀ x ∈ l, JText d x (prettyAt n x)) →
    MoreElems d l (prettyArr n l ++ 10 :: indentOf n') := by
  intro l
  induction l with
  | nil => intro _; simpa [prettyArr] using MoreElems.none (jws_indent n')
  | cons x l ih =>
    intro h
    have := MoreElems.some jws_nil (jws_indent n) (h x (by simp)) (ih (fun y hy => h y (by simp [hy])))
    simpa [prettyArr] using this

theorem moreMembers_pretty (d n n' : Nat) : ∀ m : List (Bytes × Json),
    (∀ e ∈ m, utf8Ok e.1 = true ∧ JText d e.2 (prettyAt n e.2)) → MoreMembers d m (prettyObj n m ++ 10 :: indentOf n') := by
  intro m
  induction m with
  | nil => intro _; simpa [prettyObj] using MoreMembers.none (jws_indent n')
  | cons e m ih =>
    intro h
    obtain ⟨k, x⟩ := e
    have hk := h (k, x) (by simp)
    have hw : JWs [32] := by simp [JWs]
    have := MoreMembers.some jws_nil (jws_indent n) (quoted_escape k) hk.1 jws_nil hw hk.2 (ih (fun y hy => h y (by simp [hy])))
    simpa [prettyObj, writeStr] using this

theorem nestingMap_le (m : List (Bytes × Json)) (d : Nat) : nestingMap m ≤ d ↔ ∀ e ∈ m, nesting e.2 ≤ d := by
  induction m with
  | nil => simp [nestingMap]
  | cons e m ih => rw [nestingMap, Nat.max_le, ih, List.forall_mem_cons]

theorem jtext_pretty (j : Json) : ∀ n d, Writable j → nesting j ≤ d → JText d j (prettyAt n j) := by
  refine Json.ind (P := fun j => ∀ n d, Writable j → nesting j ≤ d → JText d j (prettyAt n j)) ?_ ?_ ?_ ?_ ?_ ?_ j
  · intro n d h hd; simpa [prettyAt] using jtext_write _ d h hd
  · intro b n d h hd; simpa [prettyAt] using jtext_write _ d h hd
  · intro x n d h hd; simpa [prettyAt] using jtext_write _ d h hd
  · intro s n d h hd; simpa [prettyAt] using jtext_write _ d h hd
  · intro l ih n d hw hd
    rw [Writable, writableList_iff] at hw
    rw [nesting] at hd
    cases d with
    | zero => omega
    | succ d =>
      have hd' := (nestingList_le l d).mp (by omega)
      cases l with
      | nil => simpa [prettyAt] using JText.arr (d := d) (Elems.none jws_nil)
      | cons x l =>
        have hm := moreElems_pretty d (n + 1) n l
          (fun y hy => ih y (by simp [hy]) (n + 1) d (hw y (by simp [hy])) (hd' y (by simp [hy])))
        have := JText.arr (Elems.some (jws_indent (n + 1))
          (ih x (by simp) (n + 1) d (hw x (by simp)) (hd' x (by simp))) hm)
        simpa [prettyAt] using this
  · intro m ih n d hw hd
    rw [Writable, writableMap_iff] at hw
    rw [nesting] at hd
    cases d with
    | zero => omega
    | succ d =>
      have hd' := (nestingMap_le m d).mp (by omega)
      cases m with
      | nil => simpa [prettyAt] using JText.obj (d := d) (Members.none jws_nil)
      | cons e m =>
        obtain ⟨k, x⟩ := e
        have hm := moreMembers_pretty d (n + 1) n m
          (fun y hy => ⟨(hw y (by simp [hy])).1, ih y (by simp [hy]) (n + 1) d (hw y (by simp [hy])).2 (hd' y (by simp [hy]))⟩)
        have hws : JWs [32] := by simp [JWs]
        have hk := hw (k, x) (by simp)
        have := JText.obj (Members.some (jws_indent (n + 1)) (quoted_escape k) hk.1 jws_nil hws
          (ih (k, x) (by simp) (n + 1) d hk.2 (hd' (k, x) (by simp))) hm)
        simpa [prettyAt, writeStr] using this

/-- **C77**: what is written with line breaks is read as what was written. -/
theorem C77_pretty (j : Json) (h : Writable j) (hd : nesting j ≤ 127) (rest : Bytes) (hr : EndsHere j rest) :
    readJson (prettyAt 0 j ++ rest) = some (j, rest) :=
  (C65_read _ _ _).mpr ⟨[], prettyAt 0 j, jws_nil, jtext_pretty j 0 127 h hd, rfl, hr⟩

example : prettyAt 0 (.obj [([97], .arr [.null, .bool true]), ([98], .obj [])]) =
    "{\n  \"a\": [\n    null,\n    true\n  ],\n  \"b\": {}\n}".toUTF8.toList := by decide +kernel

end Verif.Props
