import Verif.Http.Cat
import Verif.Props.Add
import Verif.Props.FsPaths
import Verif.Props.Ipns
import Verif.Props.Path
import Verif.Props.Publish

/-! # C66: reading a file over HTTP -/

namespace Verif.Props

open Verif Verif.Http Verif.Ipfs Verif.Unixfs Verif.Ipld

/-! ### Specification -/

/-- The parameter is given exactly once, with this value. -/
def GivenOnce (name value : Bytes) (ps : List (Bytes × Bytes)) : Prop :=
  ∃ before after, ps = before ++ (name, value) :: after ∧ ∀ p ∈ before ++ after, p.1 ≠ name

/-- The value of an optional parameter. -/
def Given {α : Type} (parse : Bytes → Option α) (name : Bytes) (ps : List (Bytes × Bytes)) : Option α → Prop
  | none => ∀ p ∈ ps, p.1 ≠ name
  | some x => ∃ value, GivenOnce name value ps ∧ parse value = some x

/-- A form-encoded text: '+' is a space, and then escapes are decoded. -/
def FormText (lossy : Bytes → Bytes) (s t : Bytes) : Prop :=
  ∃ u, Unescaped (s.map (fun c => if c = 43 then 32 else c)) u ∧ t = lossy u

/-- The decoded parameters of a query. -/
inductive FormParams (lossy : Bytes → Bytes) : List (Bytes × Bytes) → List (Bytes × Bytes) → Prop
  | nil : FormParams lossy [] []
  | cons {a b a' b' : Bytes} {ps ps' : List (Bytes × Bytes)} : FormText lossy a a' → FormText lossy b b' →
      FormParams lossy ps ps' → FormParams lossy ((a, b) :: ps) ((a', b') :: ps')

/-- The query a client makes for a path and possibly a range, with what `esc` says being escaped. -/
def catUrl (esc : UInt8 → Bool) (path : Bytes) (range : Option (Nat × Nat)) : Bytes :=
  "arg=".toUTF8.toList ++ percentEncode esc path ++
    match range with
    | none => []
    | some (offset, length) =>
      "&offset=".toUTF8.toList ++ decimal offset ++ "&length=".toUTF8.toList ++ decimal length

/-- The path of a file in a directory. -/
def ipfsText (top : Cid) (path : Bytes) : Bytes := "/ipfs/".toUTF8.toList ++ top.toText ++ "/".toUTF8.toList ++ path

/-- The part of the content that is asked for. -/
def asked (range : Option (Nat × Nat)) (content : Bytes) : Bytes :=
  match range with
  | none => content
  | some (offset, length) => (content.drop offset).take length

/-! ### Queries -/

theorem fieldOnce_none {name : Bytes} {ps : List (Bytes × Bytes)} :
    fieldOnce name ps = .ok none ↔ ∀ p ∈ ps, p.1 ≠ name := by
  unfold fieldOnce
  constructor
  · intro h
    split at h
    · rename_i hf
      intro p hp he
      have : p ∈ ps.filter (fun p => p.1 = name) := List.mem_filter.mpr ⟨hp, by simpa using he⟩
      rw [hf] at this
      cases this
    · cases h
    · cases h
  · intro h
    have : ps.filter (fun p => p.1 = name) = [] := List.filter_eq_nil_iff.mpr (fun p hp => by simpa using h p hp)
    rw [this]

theorem fieldOnce_some {name value : Bytes} {ps : List (Bytes × Bytes)} :
    fieldOnce name ps = .ok (some value) ↔ GivenOnce name value ps := by
  unfold fieldOnce GivenOnce
  constructor
  · intro h
    split at h
    · cases h
    · rename_i p hf
      cases h
      have hp : p ∈ ps.filter (fun p => p.1 = name) := by rw [hf]; simp
      obtain ⟨hm, hn⟩ := List.mem_filter.mp hp
      obtain ⟨a, b, rfl⟩ := List.append_of_mem hm
      have hn : p.1 = name := by simpa using hn
      subst hn
      refine ⟨a, b, rfl, ?_⟩
      intro x hx he
      rw [List.filter_append, List.filter_cons_of_pos (by simp)] at hf
      have hl := congrArg List.length hf
      simp only [List.length_append, List.length_cons, List.length_nil] at hl
      rcases List.mem_append.mp hx with hx | hx
      · have := List.length_pos_of_mem (List.mem_filter.mpr ⟨hx, by simpa using he⟩ : x ∈ a.filter (fun q => q.1 = p.1))
        omega
      · have := List.length_pos_of_mem (List.mem_filter.mpr ⟨hx, by simpa using he⟩ : x ∈ b.filter (fun q => q.1 = p.1))
        omega
    · cases h
  · rintro ⟨a, b, rfl, h⟩
    have ha : a.filter (fun p => p.1 = name) = [] :=
      List.filter_eq_nil_iff.mpr (fun p hp => by simpa using h p (List.mem_append.mpr (Or.inl hp)))
    have hb : b.filter (fun p => p.1 = name) = [] :=
      List.filter_eq_nil_iff.mpr (fun p hp => by simpa using h p (List.mem_append.mpr (Or.inr hp)))
    rw [List.filter_append, List.filter_cons_of_pos (by simp), ha, hb]
    rfl

theorem queryField_iff {α : Type} {parse : Bytes → Option α} {name : Bytes} {ps : List (Bytes × Bytes)} {x : Option α} :
    queryField parse name ps = .ok x ↔ Given parse name ps x := by
  unfold queryField
  cases x with
  | none =>
    simp only [Given, ← fieldOnce_none]
    constructor
    · intro h
      split at h
      · cases h
      · assumption
      · split at h <;> cases h
    · intro h; rw [h]
  | some x =>
    simp only [Given, ← fieldOnce_some]
    constructor
    · intro h
      split at h
      · cases h
      · cases h
      · rename_i v hv
        split at h
        · rename_i y hy; cases h; exact ⟨v, hv, hy⟩
        · cases h
    · rintro ⟨v, h1, h2⟩
      rw [h1]
      simp only [h2]

theorem formPairs_iff {lossy : Bytes → Bytes} {query : Bytes} {ps' : List (Bytes × Bytes)} :
    formPairs lossy query = ps' ↔ ∃ ps, Params query ps ∧ FormParams lossy ps ps' := by
  have key : ∀ ps ps' : List (Bytes × Bytes), ps.map (fun p : Bytes × Bytes =>
      (lossy (percentDecode (replacePlus p.1)), lossy (percentDecode (replacePlus p.2)))) = ps' ↔ FormParams lossy ps ps' := by
    intro ps
    induction ps with
    | nil =>
      intro ps'
      constructor
      · rintro rfl; exact .nil
      · intro h; cases h; rfl
    | cons p ps ih =>
      intro ps'
      constructor
      · rintro rfl
        exact .cons ⟨_, (C54_unescaped _ _).mp rfl, rfl⟩ ⟨_, (C54_unescaped _ _).mp rfl, rfl⟩ ((ih _).mp rfl)
      · intro h
        cases h with
        | cons h1 h2 h3 =>
          obtain ⟨u, hu, rfl⟩ := h1
          obtain ⟨v, hv, rfl⟩ := h2
          rw [List.map_cons, (ih _).mpr h3]
          have e1 := (C54_unescaped _ _).mpr hu
          have e2 := (C54_unescaped _ _).mpr hv
          simp only [replacePlus, e1, e2]
  unfold formPairs
  rw [key]
  constructor
  · intro h; exact ⟨_, params_rawParts query, h⟩
  · rintro ⟨ps, h1, h2⟩
    rw [(C63_params query ps).mpr h1]
    exact h2

theorem kArg_eq : kArg = "arg".toUTF8.toList := by decide +kernel
theorem kOffset_eq : kOffset = "offset".toUTF8.toList := by decide +kernel
theorem kLength_eq : kLength = "length".toUTF8.toList := by decide +kernel
theorem kTimeout_eq : kTimeout = "timeout".toUTF8.toList := by decide +kernel

/-- **C66**: the query of `cat` is accepted just if it gives the path once, the offset, the length and the
timeout at most once each, and all of them are well-formed; other parameters do not matter. Then these are
the arguments. -/
theorem C66_query (q : QueryEnv) (query : Bytes) (args : CatArgs) :
    catQuery q query = .ok args ↔ ∃ ps ps', Params query ps ∧ FormParams q.lossy ps ps' ∧
      Given (IpfsPath.parse q.mb) "arg".toUTF8.toList ps' (some args.arg) ∧
      Given parseU64 "offset".toUTF8.toList ps' args.offset ∧
      Given parseU64 "length".toUTF8.toList ps' args.length ∧
      Given q.duration "timeout".toUTF8.toList ps' args.timeout := by
  rw [← kArg_eq, ← kOffset_eq, ← kLength_eq, ← kTimeout_eq]
  constructor
  · intro h
    obtain ⟨ps, h1, h2⟩ := formPairs_iff.mp (rfl : formPairs q.lossy query = _)
    refine ⟨ps, _, h1, h2, ?_⟩
    simp only [← queryField_iff]
    unfold catQuery at h
    simp only [] at h
    split at h
    · rename_i a b c d ha hb hc hd
      cases h
      exact ⟨ha, hb, hc, hd⟩
    · cases h
  · rintro ⟨ps, ps', h1, h2, h3, h4, h5, h6⟩
    have hp : formPairs q.lossy query = ps' := formPairs_iff.mpr ⟨ps, h1, h2⟩
    rw [← queryField_iff] at h3 h4 h5 h6
    unfold catQuery
    simp only [hp, h3, h4, h5, h6]

/-- **C66**: the same for `get`. -/
theorem C66_get_query (q : QueryEnv) (query : Bytes) (arg : IpfsPath) (timeout : Option Nat) :
    getQuery q query = .ok (arg, timeout) ↔ ∃ ps ps', Params query ps ∧ FormParams q.lossy ps ps' ∧
      Given (IpfsPath.parse q.mb) "arg".toUTF8.toList ps' (some arg) ∧
      Given q.duration "timeout".toUTF8.toList ps' timeout := by
  rw [← kArg_eq, ← kTimeout_eq]
  constructor
  · intro h
    obtain ⟨ps, h1, h2⟩ := formPairs_iff.mp (rfl : formPairs q.lossy query = _)
    refine ⟨ps, _, h1, h2, ?_⟩
    simp only [← queryField_iff]
    unfold getQuery at h
    simp only [] at h
    split at h
    · rename_i a d ha hd
      cases h
      exact ⟨ha, hd⟩
    · cases h
  · rintro ⟨ps, ps', h1, h2, h3, h6⟩
    have hp : formPairs q.lossy query = ps' := formPairs_iff.mpr ⟨ps, h1, h2⟩
    rw [← queryField_iff] at h3 h6
    unfold getQuery
    simp only [hp, h3, h6]

theorem percentDecode_plain {s : Bytes} (h : 37 ∉ s) : percentDecode s = s := by
  fun_induction percentDecode s with
  | case1 => rfl
  | case2 => simp at h
  | case3 => simp at h
  | case4 c s hc ih =>
    simp only [List.mem_cons, not_or] at h
    rw [ih h.2]

theorem decimal_isDigits (n : Nat) : ∀ c ∈ decimal n, 48 ≤ c ∧ c ≤ 57 := by
  intro c hc
  unfold decimal at hc
  split at hc
  · simp only [List.mem_singleton] at hc; subst hc; decide
  · obtain ⟨d, hd, rfl⟩ := List.mem_map.mp hc
    have := digits_lt (b := 10) n d hd
    have : ∀ d < 10, (48 : UInt8) ≤ UInt8.ofNat (d + 48) ∧ UInt8.ofNat (d + 48) ≤ 57 := by decide
    exact this d (by assumption)

theorem not_mem_digits {s : Bytes} (h : ∀ c ∈ s, 48 ≤ c ∧ c ≤ 57) {b : UInt8} (hb : b < 48 ∨ 57 < b) : b ∉ s := by
  intro hm
  obtain ⟨h1, h2⟩ := h b hm
  simp only [UInt8.le_iff_toNat_le, UInt8.lt_iff_toNat_lt] at h1 h2 hb
  omega

theorem replacePlus_plain {s : Bytes} (h : 43 ∉ s) : replacePlus s = s := by
  unfold replacePlus
  induction s with
  | nil => rfl
  | cons c s ih =>
    simp only [List.mem_cons, not_or] at h
    rw [List.map_cons, ih h.2, if_neg (Ne.symm h.1)]

theorem formText_plain {lossy : Bytes → Bytes} (hl : ∀ s, utf8Ok s = true → lossy s = s) {s : Bytes}
    (h1 : 43 ∉ s) (h2 : 37 ∉ s) (hu : utf8Ok s = true) : FormText lossy s s := by
  refine ⟨s, ?_, (hl s hu).symm⟩
  have := replacePlus_plain h1
  unfold replacePlus at this
  rw [this]
  exact (C54_unescaped _ _).mp (percentDecode_plain h2)

theorem formText_encoded {lossy : Bytes → Bytes} (hl : ∀ s, utf8Ok s = true → lossy s = s) {esc : UInt8 → Bool}
    (h1 : esc 37 = true) (h2 : esc 43 = true) {s : Bytes} (hu : utf8Ok s = true) :
    FormText lossy (percentEncode esc s) s := by
  refine ⟨s, ?_, (hl s hu).symm⟩
  have := replacePlus_plain (percentEncode_avoids esc 43 h2 (by decide) (by decide +kernel) s)
  unfold replacePlus at this
  rw [this]
  exact (C54_unescaped _ _).mp (C54_names esc h1 s)

theorem formText_decimal {lossy : Bytes → Bytes} (hl : ∀ s, utf8Ok s = true → lossy s = s) (n : Nat) :
    FormText lossy (decimal n) (decimal n) := by
  have h := decimal_isDigits n
  refine formText_plain hl (not_mem_digits h (by decide)) (not_mem_digits h (by decide)) (utf8Ok_ascii ?_)
  intro c hc
  have := (h c hc).2
  simp only [UInt8.le_iff_toNat_le, UInt8.lt_iff_toNat_lt] at this ⊢
  have e1 : (57 : UInt8).toNat = 57 := rfl
  have e2 : (0x80 : UInt8).toNat = 128 := rfl
  omega

/-- **C66**: whatever UTF-8 text a client that escapes '%', '&' and '+' sends for the path, with or without a range,
the server reads these, if the text is a path. -/
theorem C66_url (q : QueryEnv) (hl : ∀ s, utf8Ok s = true → q.lossy s = s) (esc : UInt8 → Bool) (h1 : esc 37 = true)
    (h2 : esc 38 = true) (h3 : esc 43 = true) (text : Bytes) (hu : utf8Ok text = true) (path : IpfsPath)
    (hp : IpfsPath.parse q.mb text = some path) (range : Option (Nat × Nat))
    (hr : ∀ r, range = some r → r.1 < 2 ^ 64 ∧ r.2 < 2 ^ 64) :
    catQuery q (catUrl esc text range) = .ok ⟨path, range.map Prod.fst, range.map Prod.snd, none⟩ := by
  have hh : ∀ n < 16, percentEncode.hexDigit n ≠ 38 := by decide +kernel
  have ha : 38 ∉ percentEncode esc text := percentEncode_avoids esc 38 h2 (by decide) hh text
  have e1 : "arg=".toUTF8.toList = "arg".toUTF8.toList ++ [61] := by decide +kernel
  have n1 : 38 ∉ "arg".toUTF8.toList := by decide +kernel
  have n2 : 61 ∉ "arg".toUTF8.toList := by decide +kernel
  have f1 : FormText q.lossy "arg".toUTF8.toList "arg".toUTF8.toList :=
    formText_plain hl (by decide +kernel) (by decide +kernel) (by decide +kernel)
  have f2 := formText_encoded hl h1 h3 hu
  have k1 : "arg".toUTF8.toList ≠ "offset".toUTF8.toList := by decide +kernel
  have k2 : "arg".toUTF8.toList ≠ "length".toUTF8.toList := by decide +kernel
  have k3 : "arg".toUTF8.toList ≠ "timeout".toUTF8.toList := by decide +kernel
  have k4 : "offset".toUTF8.toList ≠ "length".toUTF8.toList := by decide +kernel
  have k5 : "offset".toUTF8.toList ≠ "timeout".toUTF8.toList := by decide +kernel
  have k6 : "length".toUTF8.toList ≠ "timeout".toUTF8.toList := by decide +kernel
  rw [C66_query]
  cases range with
  | none =>
    refine ⟨[("arg".toUTF8.toList, percentEncode esc text)], [("arg".toUTF8.toList, text)], ?_,
      .cons f1 f2 .nil, ⟨text, ⟨[], [], rfl, by simp⟩, hp⟩, ?_, ?_, ?_⟩
    · have := Params.pair (s := []) n1 n2 ha (Or.inl rfl) .nil
      unfold catUrl
      rw [e1]
      simpa using this
    · intro p hpm; simp only [List.mem_singleton] at hpm; subst hpm; first | exact k1 | exact k2 | exact k3
    · intro p hpm; simp only [List.mem_singleton] at hpm; subst hpm; first | exact k1 | exact k2 | exact k3
    · intro p hpm; simp only [List.mem_singleton] at hpm; subst hpm; first | exact k1 | exact k2 | exact k3
  | some r =>
    obtain ⟨offset, length⟩ := r
    obtain ⟨r1, r2⟩ := hr _ rfl
    have e2 : "&offset=".toUTF8.toList = 38 :: ("offset".toUTF8.toList ++ [61]) := by decide +kernel
    have e3 : "&length=".toUTF8.toList = 38 :: ("length".toUTF8.toList ++ [61]) := by decide +kernel
    have m1 : 38 ∉ "offset".toUTF8.toList := by decide +kernel
    have m2 : 61 ∉ "offset".toUTF8.toList := by decide +kernel
    have l1 : 38 ∉ "length".toUTF8.toList := by decide +kernel
    have l2 : 61 ∉ "length".toUTF8.toList := by decide +kernel
    have d : ∀ n, 38 ∉ decimal n := fun n => not_mem_digits (decimal_isDigits n) (by decide)
    refine ⟨[("arg".toUTF8.toList, percentEncode esc text), ("offset".toUTF8.toList, decimal offset),
        ("length".toUTF8.toList, decimal length)],
      [("arg".toUTF8.toList, text), ("offset".toUTF8.toList, decimal offset), ("length".toUTF8.toList, decimal length)], ?_,
      .cons f1 f2 (.cons (formText_plain hl (by decide +kernel) (by decide +kernel) (by decide +kernel))
        (formText_decimal hl _) (.cons (formText_plain hl (by decide +kernel) (by decide +kernel) (by decide +kernel))
        (formText_decimal hl _) .nil)),
      ⟨text, ⟨[], _, rfl, ?_⟩, hp⟩, ⟨decimal offset, ⟨[_], [_], rfl, ?_⟩, parseU64_decimal _ r1⟩,
      ⟨decimal length, ⟨[_, _], [], rfl, ?_⟩, parseU64_decimal _ r2⟩, ?_⟩
    · have p0 := Params.pair (s := []) l1 l2 (d length) (Or.inl rfl) .nil
      have p1 := Params.pair m1 m2 (d offset) (Or.inr ⟨_, rfl⟩) (.sep p0)
      have p2 := Params.pair n1 n2 ha (Or.inr ⟨_, rfl⟩) (.sep p1)
      unfold catUrl
      simp only []
      rw [e1, e2, e3]
      simpa using p2
    all_goals
      intro p hpm
      simp only [List.nil_append, List.cons_append, List.append_nil, List.mem_cons, List.not_mem_nil, or_false] at hpm
      first
      | rcases hpm with rfl | rfl | rfl <;> first | exact k3 | exact k5 | exact k6
      | rcases hpm with rfl | rfl <;>
          first | exact k1 | exact k2 | exact k3 | exact k4 | exact k5 | exact k6 | exact Ne.symm k1 | exact Ne.symm k2 | exact Ne.symm k4

/-! ### Locating a file -/

/-- Only what is under a dag-pb cid. -/
def pbOnly (fetch : Cid → Option Bytes) (c : Cid) : Option Bytes := if c.codec = codecDagPb then fetch c else none

theorem resolve0_followed (e : Env) (size : Nat) {fetch : Cid → Option Bytes} {d : Cid} {data : Bytes}
    (hd : fetch d = some data) : ∀ (segs : List Bytes) (c : Cid) (total fuel : Nat),
    followNames (pbOnly fetch) c segs = .reached d → segs.length < fuel →
    resolve0 e size fetch true fuel c segs total = some (.ok (.block d data, total + segs.length)) := by
  intro segs
  induction segs with
  | nil =>
    intro c total fuel h hf
    simp only [followNames, Followed.reached.injEq] at h
    subst h
    obtain ⟨fuel, rfl⟩ : ∃ k, fuel = k + 1 := ⟨fuel - 1, by simp at hf; omega⟩
    rw [resolve0, hd]
    simp only [resolveLocal, List.length_nil, Nat.add_zero]
  | cons s segs ih =>
    intro c total fuel h hf
    obtain ⟨fuel, rfl⟩ : ∃ k, fuel = k + 1 := ⟨fuel - 1, by simp at hf; omega⟩
    rw [followNames] at h
    split at h
    · cases h
    · rename_i block hb
      unfold pbOnly at hb
      split at hb
      · rename_i hc
        split at h
        · rename_i c' hr
          rw [resolve0, hb]
          simp only [resolveLocal, hc, if_true, localDagPb, hr]
          rw [ih c' (total + 1) fuel h (by simp only [List.length_cons] at hf; omega), List.length_cons]
          rw [Nat.add_assoc, Nat.add_comm 1]
        · cases h
        · cases h
      · cases hb

/-- A path through dag-pb blocks leads to the block at its end. -/
theorem locate_follow (mb : UInt8 → Bytes → Option Bytes) (s : Served) {top d : Cid} {segs : List Bytes} {data : Bytes}
    (hd : s.fetch d = some data) (hc : d.codec = codecDagPb) (hf : followNames (pbOnly s.fetch) top segs = .reached d)
    (hfuel : segs.length + 2 ≤ s.fuel) : locate mb s ⟨.ipld top, segs⟩ none = .at d data := by
  obtain ⟨k, hk⟩ : ∃ k, s.fuel = k + 2 := ⟨s.fuel - 2, by omega⟩
  have hr := resolve0_followed s.env s.size hd segs top 0 s.fuel hf (by omega)
  have hi : resolveIpns mb s.txt s.fuel ⟨.ipld top, segs⟩ true = some (.ok ⟨.ipld top, segs⟩) := by
    rw [hk]; exact C55_ipld mb s.txt k top segs true
  unfold locate resolveAny
  have ht : s.timedOut none = false := rfl
  simp only [ht, Bool.false_eq_true, if_false, hi, dagResolve, hr, IpfsPath.shifted, Nat.zero_add, Nat.le_refl, if_true]
  have hb : intoUnixfsBlock (.block d data) = .ok (d, data) := by
    unfold intoUnixfsBlock nodeSource
    simp [hc]
  simp only [hb]

theorem wantedRange_some {debug : Bool} {range : Option (Nat × Nat)}
    (hr : ∀ r, range = some r → r.1 + r.2 < 2 ^ 64) :
    wantedRange debug (range.map Prod.fst) (range.map Prod.snd) =
      .range (range.map (fun r => ⟨r.1, r.1 + r.2⟩)) := by
  cases range with
  | none => rfl
  | some r => simp only [Option.map_some, wantedRange, if_pos (hr r rfl)]

theorem within_asked (range : Option (Nat × Nat)) (content : Bytes) :
    within (range.map (fun r => (⟨r.1, r.1 + r.2⟩ : Rng))) content = asked range content := by
  cases range with
  | none => rfl
  | some r =>
    simp only [Option.map_some, within, asked]
    rw [List.drop_take, Nat.add_sub_cancel_left]

theorem visitStart_of_cat {fetch : Cid → Option Bytes} {range : Option Rng} {data : Bytes} {fuel : Nat}
    {chunks : List Bytes} (h : cat fetch range data fuel = (chunks, .done)) : ∃ x, visitStart range data = .ok x := by
  unfold cat at h
  split at h
  · cases (Prod.mk.inj h).2
  · cases (Prod.mk.inj h).2
  · exact ⟨_, by assumption⟩

/-- What the handler does with a file that can be read. -/
theorem catInner_reads (mb : UInt8 → Bytes → Option Bytes) (s : Served) {top d : Cid} {segs : List Bytes}
    {content : Bytes} (hf : followNames (pbOnly s.fetch) top segs = .reached d) (hd : ReadsAs s.fetch d content)
    {offset length : Option Nat} {range : Option Rng} (hw : wantedRange s.debug offset length = .range range) :
    ∃ fuel0 chunks, chunks.flatten = within range content ∧
      ∀ fuel, fuel0 ≤ fuel → catInner mb { s with fuel := fuel } ⟨⟨.ipld top, segs⟩, offset, length, none⟩ = .stream chunks .done := by
  obtain ⟨hc, data, h1, _, h2⟩ := hd
  obtain ⟨n, chunks, h3, h4⟩ := h2 range
  refine ⟨max n (segs.length + 2), chunks, h3, ?_⟩
  intro fuel hfuel
  have hl := locate_follow mb { s with fuel := fuel } (top := top) (segs := segs) h1 hc hf (by simp only; omega)
  have hcat := h4 fuel (by omega)
  obtain ⟨x, hx⟩ := visitStart_of_cat hcat
  unfold catInner
  simp only [hw, hl, hx, hcat]

theorem ipfsText_parse (mb : UInt8 → Bytes → Option Bytes) {top : Cid} (ht : top.Valid) {path : Bytes}
    (hp : ∀ x ∈ splitSlash path, x ≠ []) :
    IpfsPath.parse mb (ipfsText top path) = some ⟨.ipld top, splitSlash path⟩ := by
  have hseg : ∀ x ∈ splitSlash path, Segment x := fun x hx => ⟨hp x hx, splitSlash_noSlash path x hx⟩
  have e1 : "/ipfs/".toUTF8.toList = 47 :: sIpfs ++ [47] := by decide +kernel
  have e2 : "/".toUTF8.toList = [47] := by decide +kernel
  have he : ipfsText top path = IpfsPath.text ⟨.ipld top, splitSlash path⟩ := by
    unfold ipfsText IpfsPath.text
    simp only [PathRoot.text]
    rw [e1, e2, if_neg (splitSlash_ne_nil path), slashedText_eq, join_splitSlash]
    simp
  rw [he]
  refine parse_text_of (ty := sIpfs) (key := top.toText) (by decide) (Cid.toText_no_slash top) hseg rfl ?_
  simp only [parseRoot, ne_eq, not_true_eq_false, if_false, true_or, if_true, Cid.ofText_toText mb top ht, Option.map_some]

theorem toText_ascii (c : Cid) : ∀ x ∈ c.toText, x < 0x80 := by
  have h58 : ∀ d < 58, char58 d < 0x80 := by decide +kernel
  intro x hx
  unfold Cid.toText at hx
  split at hx
  · unfold base58 at hx
    obtain ⟨d, hd, rfl⟩ := List.mem_map.mp hx
    exact h58 d (convert_lt (by decide) _ d hd)
  · rcases List.mem_cons.mp hx with rfl | hx
    · decide
    · have := base32_chars _ x hx
      rw [UInt8.lt_iff_toNat_lt]
      have e2 : (0x80 : UInt8).toNat = 128 := rfl
      omega

theorem ipfsText_utf8 (top : Cid) {path : Bytes} (h : utf8Ok path = true) : utf8Ok (ipfsText top path) = true := by
  have e1 : utf8Ok "/ipfs/".toUTF8.toList = true := by decide +kernel
  have e2 : utf8Ok "/".toUTF8.toList = true := by decide +kernel
  unfold ipfsText
  rw [List.append_assoc, List.append_assoc, utf8Ok_append e1, utf8Ok_append (utf8Ok_ascii (toText_ascii top)),
    utf8Ok_append e2, h]

/-! ### The properties -/

/-- The paths of accepted calls have no empty segments, unless they are empty. -/
theorem accepted_segments (opts : TreeOpts) (ops : List DirOp) :
    ∀ op ∈ acceptedOps (Builder.new opts) ops, op.path = [] ∨ ∀ x ∈ splitSlash op.path, x ≠ [] := by
  induction ops using ops_induction with
  | h0 => intro op h; cases h
  | h1 ops op ih =>
    intro op' h
    rw [acceptedOps_snoc] at h
    rcases List.mem_append.mp h with h | h
    · exact ih _ h
    · cases hr : (op.run (builderAfter opts ops)).2 with
      | error e => rw [hr] at h; cases h
      | ok u =>
        rw [hr] at h
        obtain rfl := List.mem_singleton.mp h
        have r1 : ∀ q, op'.path ≠ q ++ [47] := fun q hq => by
          rw [(C11_reasons opts ops op' _).mpr (.endsInSlash (q := q) hq)] at hr; cases hr
        have r2 : ∀ q r, op'.path ≠ q ++ 47 :: 47 :: r := fun q r hq => by
          rw [(C11_reasons opts ops op' _).mpr (.repeatSlashes (q := q) (r := r) r1 hq)] at hr; cases hr
        have r3 : ∀ r, op'.path ≠ 47 :: r := fun r hq => by
          rw [(C11_reasons opts ops op' _).mpr (.rootedPath (r := r) r1 r2 hq)] at hr; cases hr
        by_cases hp : op'.path = []
        · exact Or.inl hp
        · refine Or.inr fun x hx he => ?_
          have e1 : endsInSlash op'.path = false := by
            cases he : endsInSlash op'.path with
            | false => rfl
            | true => obtain ⟨q, hq⟩ := endsInSlash_iff.mp he; exact absurd hq (r1 q)
          have e2 : repeatsSlash op'.path = false := by
            cases he : repeatsSlash op'.path with
            | false => rfl
            | true => obtain ⟨q, r, hq⟩ := repeatsSlash_iff.mp he; exact absurd hq (r2 q r)
          have ht := splitSlash_tail e1 e2
          cases hsp : splitSlash op'.path with
          | nil => rw [hsp] at hx; cases hx
          | cons y l =>
            rw [hsp] at hx ht
            rcases List.mem_cons.mp hx with hxy | hx
            · rw [← hxy, he] at hsp
              rcases splitSlash_head hsp with h | ⟨t, h⟩
              · exact hp h
              · exact r3 t h
            · exact ht x hx he

/-- What was put into the tree for a file of the form. -/
theorem Answers.put_of {args : AddArgs} {stored : List Block} {parts : List FormPart} {ops : List DirOp}
    {lines : List AddLine} (ha : Answers args stored parts ops lines) {p : FormPart} (hp : p ∈ parts)
    (hct : p.contentType = some octetStream) {raw path : Bytes} (hraw : p.filename = some raw)
    (hpath : addPath raw = .ok path) :
    ∃ file size, DirOp.put path file size ∈ ops ∧ StoredAs stored file p.chunks.flatten size ∧
      .added (if path = [] then file.toText else path) file size ∈ lines := by
  induction ha with
  | nil => cases hp
  | file h1 h2 h3 h4 h5 h6 h7 h8 h9 h10 _ ih =>
    rcases List.mem_cons.mp hp with rfl | hp
    · rw [hraw] at h3; cases h3
      rw [hpath] at h4; cases h4
      exact ⟨_, _, by simp, h6, by simp⟩
    · obtain ⟨f, n, a, b, c⟩ := ih hp
      exact ⟨f, n, by simp [a], b, by simp [c]⟩
  | dir h1 h2 h3 h4 h5 _ ih =>
    rcases List.mem_cons.mp hp with rfl | hp
    · rw [hct] at h5
      exact absurd (Option.some.inj h5) (by decide +kernel)
    · obtain ⟨f, n, a, b, c⟩ := ih hp
      exact ⟨f, n, by simp [a], b, c⟩

/-- **C66**: what was added over HTTP with a wrapping directory is served by `cat`. When the request to add was
answered without error, its last line has the cid of that directory, and when later the blocks that were
stored can be loaded, then for every file of the form with a name, the request for its path in the directory,
in full or any range of it, is answered with exactly the bytes that were sent. -/
theorem C66_added {sha : Bytes → Bytes} (hsha : Digest32 sha) {put : Block → Bool} {args : AddArgs}
    (hw : args.wrap = true) {parts : List FormPart} {broken : Bool} {ev : List AddEvent}
    (hfit : ∀ p ∈ parts, Fits args.chunk args.bf p.chunks.flatten)
    (hs : ∀ p ∈ parts, ∀ raw, p.filename = some raw → raw.length < 2 ^ 30)
    (htot : FormTotals sha args parts)
    (h : addStream sha put args parts broken = (ev, .ok ()))
    (q : QueryEnv) (hl : ∀ s, utf8Ok s = true → q.lossy s = s) (s : Served)
    (hf : ∀ b ∈ putsOf ev, s.fetch b.1 = some b.2)
    (esc : UInt8 → Bool) (h37 : esc 37 = true) (h38 : esc 38 = true) (h43 : esc 43 = true) :
    ∃ top total, (linesOf ev).getLast? = some (.added [] top total) ∧
      ∀ p ∈ parts, p.contentType = some octetStream → ∀ raw path, p.filename = some raw → addPath raw = .ok path →
        path ≠ [] → ∀ range : Option (Nat × Nat), (∀ r, range = some r → r.1 + r.2 < 2 ^ 64) →
        ∃ fuel0 chunks, chunks.flatten = asked range p.chunks.flatten ∧ ∀ fuel, fuel0 ≤ fuel →
          catRequest q { s with fuel := fuel } (catUrl esc (ipfsText top path) range) = .stream chunks .done := by
  obtain ⟨ops, lines, nodes, puts, ha, hacc, hrun, hlines, hfd, hputs⟩ := addStream_inv hsha hfit h
  have hst : ∀ n ∈ nodes, (n.cid, n.block) ∈ putsOf ev := fun n hn => by
    rw [hputs]; exact List.mem_append_right _ (List.mem_map.mpr ⟨n, hn, rfl⟩)
  have htot := htot ops puts hfd
  have hops := ha.fits hs
  obtain ⟨front, root, hfr, hroot, _⟩ := C12_root_last hsha args.tree ops hops htot hw hrun
  obtain ⟨qs, node, _, _, _, hout, hnode⟩ := C12_nodes hsha args.tree ops hops htot hrun
  have hv0 : ∀ n ∈ nodes, n.cid = Cid.v0 (sha n.block) := by
    intro n hn
    rw [hout] at hn
    obtain ⟨x, hx, rfl⟩ := List.mem_map.mp hn
    exact (hnode x hx).cid
  subst hfr
  refine ⟨root.cid, root.total, by rw [hlines, ← hroot]; simp, ?_⟩
  intro p hp hct raw path hraw hpath hne range hrange
  obtain ⟨file, size, h1, h2, _⟩ := ha.put_of hp hct hraw hpath
  have hne : ∀ x ∈ splitSlash path, x ≠ [] := (accepted_segments args.tree ops (.put path file size) (by rw [hacc]; exact h1)).resolve_left hne
  have hserve : Serves (pbOnly s.fetch) (front ++ [root]) := by
    intro n hn
    unfold pbOnly
    rw [if_pos (by rw [hv0 n hn]; rfl)]
    exact hf _ (hst n hn)
  have hfol := C10_found hsha args.tree ops hops htot hw hrun hserve (by rw [hacc]; exact h1)
  obtain ⟨fuel0, chunks, hc1, hc2⟩ := catInner_reads q.mb s hfol (h2 s.fetch hf).2 (wantedRange_some (debug := s.debug) hrange)
  rw [within_asked] at hc1
  have htop : root.cid.Valid := by
    rw [hv0 root (by simp)]; exact Cid.v0_valid _ (hsha _)
  refine ⟨fuel0, chunks, hc1, ?_⟩
  intro fuel hfuel
  unfold catRequest
  rw [C66_url q hl esc h37 h38 h43 _ (ipfsText_utf8 root.cid (addPath_spec hpath).1) _ (ipfsText_parse q.mb htop hne) range
    (fun r hr => by have := hrange r hr; omega)]
  exact hc2 fuel hfuel

/-- **C66**: the cid in the line for a file is that of the file: asking for it gives the bytes that were sent,
with or without a wrapping directory and whatever the path. -/
theorem C66_file {sha : Bytes → Bytes} (hsha : Digest32 sha) {put : Block → Bool} {args : AddArgs}
    {parts : List FormPart} {broken : Bool} {ev : List AddEvent}
    (hfit : ∀ p ∈ parts, Fits args.chunk args.bf p.chunks.flatten)
    (h : addStream sha put args parts broken = (ev, .ok ()))
    (q : QueryEnv) (hl : ∀ s, utf8Ok s = true → q.lossy s = s) (s : Served)
    (hf : ∀ b ∈ putsOf ev, s.fetch b.1 = some b.2)
    (esc : UInt8 → Bool) (h37 : esc 37 = true) (h38 : esc 38 = true) (h43 : esc 43 = true)
    {p : FormPart} (hp : p ∈ parts) (hct : p.contentType = some octetStream) :
    ∃ name file size, .added name file size ∈ linesOf ev ∧
      ∀ range : Option (Nat × Nat), (∀ r, range = some r → r.1 + r.2 < 2 ^ 64) →
        ∃ fuel0 chunks, chunks.flatten = asked range p.chunks.flatten ∧ ∀ fuel, fuel0 ≤ fuel →
          catRequest q { s with fuel := fuel } (catUrl esc ("/ipfs/".toUTF8.toList ++ file.toText) range) = .stream chunks .done := by
  obtain ⟨ops, lines, nodes, ha, g1, g2, hlines, g3⟩ := C54_answer_partial hsha hfit h
  have key : ∃ name file size, .added name file size ∈ lines ∧ file.Valid ∧
      StoredAs (putsOf ev) file p.chunks.flatten size := by
    clear hlines hfit h g1 g2 g3
    induction ha with
    | nil => cases hp
    | file h1 h2 h3 h4 h5 h6 h7 h8 h9 h10 _ ih =>
      rcases List.mem_cons.mp hp with rfl | hp
      · exact ⟨_, _, _, by simp; left; rfl, h8, h6⟩
      · obtain ⟨a, b, c, d, e⟩ := ih hp
        exact ⟨a, b, c, by simp [d], e⟩
    | dir h1 h2 h3 h4 h5 _ ih =>
      rcases List.mem_cons.mp hp with rfl | hp
      · rw [hct] at h5
        exact absurd (Option.some.inj h5) (by decide +kernel)
      · exact ih hp
  obtain ⟨name, file, size, k1, k2, k3⟩ := key
  refine ⟨name, file, size, by rw [hlines]; simp [k1], ?_⟩
  intro range hrange
  obtain ⟨fuel0, chunks, hc1, hc2⟩ := catInner_reads q.mb s (top := file) (segs := []) rfl (k3 s.fetch hf).2
    (wantedRange_some (debug := s.debug) hrange)
  rw [within_asked] at hc1
  refine ⟨fuel0, chunks, hc1, ?_⟩
  intro fuel hfuel
  have e1 : "/ipfs/".toUTF8.toList = 47 :: sIpfs ++ [47] := by decide +kernel
  have hparse : IpfsPath.parse q.mb ("/ipfs/".toUTF8.toList ++ file.toText) = some ⟨.ipld file, []⟩ := by
    have he : "/ipfs/".toUTF8.toList ++ file.toText = IpfsPath.text ⟨.ipld file, []⟩ := by
      unfold IpfsPath.text
      simp only [PathRoot.text]
      rw [e1]
      simp
    rw [he]
    refine parse_text_of (ty := sIpfs) (key := file.toText) (by decide) (Cid.toText_no_slash file) (by simp) rfl ?_
    simp only [parseRoot, ne_eq, not_true_eq_false, if_false, true_or, if_true, Cid.ofText_toText q.mb file k2, Option.map_some]
  have hu : utf8Ok ("/ipfs/".toUTF8.toList ++ file.toText) = true := by
    rw [utf8Ok_append (by decide +kernel)]; exact utf8Ok_ascii (toText_ascii file)
  unfold catRequest
  rw [C66_url q hl esc h37 h38 h43 _ hu _ hparse range (fun r hr => by have := hrange r hr; omega)]
  exact hc2 fuel hfuel

/-- **C66**: which range is read: it begins at the offset, or at the start, and has the length. -/
theorem C66_range (debug : Bool) (offset length : Option Nat) (r : Option Rng) :
    wantedRange debug offset length = .range r ↔
      (offset = none ∧ length = none ∧ r = none) ∨
      ∃ len, length = some len ∧ ∃ rng, r = some rng ∧ rng.start = offset.getD 0 ∧
        (rng.stop = rng.start + len ∧ (offset = none ∨ rng.stop < 2 ^ 64) ∨
         debug = false ∧ offset ≠ none ∧ 2 ^ 64 ≤ rng.start + len ∧ rng.stop + 2 ^ 64 = rng.start + len) := by
  cases offset with
  | none =>
    cases length with
    | none => simp [wantedRange, eq_comm]
    | some len =>
      simp only [wantedRange, Wanted.range.injEq, reduceCtorEq, false_and, and_false, false_or, Option.some.injEq,
        Option.getD_none, true_or, and_true, ne_eq, not_true_eq_false, or_false]
      constructor
      · rintro rfl; exact ⟨len, rfl, _, rfl, rfl, by simp⟩
      · rintro ⟨_, rfl, ⟨a, b⟩, rfl, h1, h2⟩
        simp only at h1 h2
        subst h1
        rw [h2, Nat.zero_add]
  | some start =>
    cases length with
    | none => simp [wantedRange]
    | some len =>
      simp only [wantedRange, reduceCtorEq, false_and, and_false, false_or, Option.some.injEq, Option.getD_some, ne_eq,
        not_false_eq_true, true_and]
      by_cases h : start + len < 2 ^ 64
      · rw [if_pos h]
        simp only [Wanted.range.injEq]
        constructor
        · rintro rfl; exact ⟨len, rfl, _, rfl, rfl, Or.inl ⟨rfl, h⟩⟩
        · rintro ⟨_, rfl, ⟨a, b⟩, rfl, h1, h2⟩
          simp only at h1 h2
          subst h1
          rcases h2 with ⟨rfl, _⟩ | ⟨_, h2, _⟩
          · rfl
          · exact absurd h (by omega)
      · rw [if_neg h]
        cases debug with
        | true =>
          simp only [if_true, reduceCtorEq, false_and, or_false, false_iff]
          rintro ⟨_, rfl, ⟨a, b⟩, rfl, h1, h2, h3⟩
          simp only at h1 h2 h3
          subst h1
          exact h (by omega)
        | false =>
          simp only [Bool.false_eq_true, if_false, Wanted.range.injEq, true_and]
          constructor
          · rintro rfl
            exact ⟨len, rfl, _, rfl, rfl, Or.inr ⟨by simp only; omega, by simp only; omega⟩⟩
          · rintro ⟨_, rfl, ⟨a, b⟩, rfl, h1, h2⟩
            simp only at h1 h2
            subst h1
            rcases h2 with ⟨rfl, h2⟩ | ⟨_, h2⟩
            · exact absurd h2 h
            · have hb : b = a + len - 2 ^ 64 := by omega
              rw [hb]

/-! #### What does not hold -/

/-- A file cannot be read from an offset to its end: the request is not implemented. -/
theorem C66_offset_only (mb : UInt8 → Bytes → Option Bytes) (s : Served) (path : IpfsPath) (start : Nat)
    (timeout : Option Nat) : catInner mb s ⟨path, some start, none, timeout⟩ = .notImplemented := rfl

/-- Asking for everything from an offset by giving a length that is large enough for every file, such as the largest: a
debug build panics, before the path is even looked at; otherwise the answer is empty and looks complete, whatever the file
has after the offset. -/
theorem C66_overflow (mb : UInt8 → Bytes → Option Bytes) (s : Served) {top d : Cid} {segs : List Bytes}
    {content : Bytes} (hf : followNames (pbOnly s.fetch) top segs = .reached d) (hd : ReadsAs s.fetch d content)
    (start len : Nat) (hlen : len < 2 ^ 64) (hn : ¬ start + len < 2 ^ 64) :
    (s.debug = true → ∀ timeout, catInner mb s ⟨⟨.ipld top, segs⟩, some start, some len, timeout⟩ = .panic) ∧
    (s.debug = false → ∃ fuel0 chunks, chunks.flatten = [] ∧ ∀ fuel, fuel0 ≤ fuel →
      catInner mb { s with fuel := fuel } ⟨⟨.ipld top, segs⟩, some start, some len, none⟩ = .stream chunks .done) := by
  constructor
  · intro hb timeout
    unfold catInner
    simp only [wantedRange, if_neg hn, hb, if_true]
  · intro hb
    have hw : wantedRange s.debug (some start) (some len) = .range (some ⟨start, start + len - 2 ^ 64⟩) := by
      simp only [wantedRange, if_neg hn, hb, Bool.false_eq_true, if_false]
    obtain ⟨fuel0, chunks, h1, h2⟩ := catInner_reads mb s hf hd hw
    refine ⟨fuel0, chunks, ?_, h2⟩
    rw [h1]
    simp only [within]
    rw [List.drop_eq_nil_iff, List.length_take]
    omega

/-- With a wrapping directory a file that is sent with an empty name, or just a slash, is linked with an empty name, while
the line names it by its cid. No text names that link, so no request for a path in the directory reaches the file. -/
theorem C66_empty_name {sha : Bytes → Bytes} (hsha : Digest32 sha) {put : Block → Bool} {args : AddArgs}
    (hw : args.wrap = true) {parts : List FormPart} {broken : Bool} {ev : List AddEvent}
    (hfit : ∀ p ∈ parts, Fits args.chunk args.bf p.chunks.flatten)
    (hs : ∀ p ∈ parts, ∀ raw, p.filename = some raw → raw.length < 2 ^ 30)
    (htot : FormTotals sha args parts)
    (h : addStream sha put args parts broken = (ev, .ok ()))
    (mb : UInt8 → Bytes → Option Bytes) (s : Served) (hf : ∀ b ∈ putsOf ev, s.fetch b.1 = some b.2)
    {p : FormPart} (hp : p ∈ parts) (hct : p.contentType = some octetStream) (hraw : p.filename = some [] ∨ p.filename = some [47]) :
    ∃ top total file size, (linesOf ev).getLast? = some (.added [] top total) ∧
      followNames (pbOnly s.fetch) top [[]] = .reached file ∧ ReadsAs s.fetch file p.chunks.flatten ∧
      .added file.toText file size ∈ linesOf ev ∧
      IpfsPath.parse mb (ipfsText top []) = some ⟨.ipld top, []⟩ ∧
      ∀ text segs, IpfsPath.parse mb text ≠ some ⟨.ipld top, [] :: segs⟩ := by
  obtain ⟨ops, lines, nodes, puts, ha, hacc, hrun, hlines, hfd, hputs⟩ := addStream_inv hsha hfit h
  have hst : ∀ n ∈ nodes, (n.cid, n.block) ∈ putsOf ev := fun n hn => by
    rw [hputs]; exact List.mem_append_right _ (List.mem_map.mpr ⟨n, hn, rfl⟩)
  have htot := htot ops puts hfd
  have hops := ha.fits hs
  obtain ⟨front, root, hfr, hroot, _⟩ := C12_root_last hsha args.tree ops hops htot hw hrun
  obtain ⟨qs, node, _, _, _, hout, hnode⟩ := C12_nodes hsha args.tree ops hops htot hrun
  have hv0 : ∀ n ∈ nodes, n.cid = Cid.v0 (sha n.block) := by
    intro n hn
    rw [hout] at hn
    obtain ⟨x, hx, rfl⟩ := List.mem_map.mp hn
    exact (hnode x hx).cid
  subst hfr
  have hpath : ∃ raw, p.filename = some raw ∧ addPath raw = .ok [] := by
    rcases hraw with h | h
    · exact ⟨_, h, by decide +kernel⟩
    · exact ⟨_, h, by decide +kernel⟩
  obtain ⟨raw, hraw, hpath⟩ := hpath
  obtain ⟨file, size, h1, h2, h3⟩ := ha.put_of hp hct hraw hpath
  have hserve : Serves (pbOnly s.fetch) (front ++ [root]) := by
    intro n hn
    unfold pbOnly
    rw [if_pos (by rw [hv0 n hn]; rfl)]
    exact hf _ (hst n hn)
  have hfol := C10_found hsha args.tree ops hops htot hw hrun hserve (by rw [hacc]; exact h1)
  have htop : root.cid.Valid := by
    rw [hv0 root (by simp)]; exact Cid.v0_valid _ (hsha _)
  refine ⟨root.cid, root.total, file, size, by rw [hlines, ← hroot]; simp, hfol, (h2 s.fetch hf).2,
    by rw [hlines]; simpa using Or.inl h3, ?_, ?_⟩
  · have e1 : "/ipfs/".toUTF8.toList = 47 :: sIpfs ++ [47] := by decide +kernel
    have e2 : "/".toUTF8.toList = [47] := by decide +kernel
    unfold ipfsText IpfsPath.parse
    rw [e1, e2]
    have h0 : ∀ t, splitSlash (47 :: t) = [] :: splitSlash t := by intro t; simp [splitSlash]
    simp only [List.append_assoc, List.cons_append, List.nil_append]
    rw [h0, splitSlash_append (by decide), splitSlash_append (Cid.toText_no_slash root.cid)]
    simp only [parseRoot, ne_eq, not_true_eq_false, if_false, true_or, if_true, Cid.ofText_toText mb root.cid htop,
      Option.map_some]
    simp [splitSlash, pushSplit]
  · intro text segs hc
    exact (C19_parsed mb text _ hc [] (by simp)).1 rfl

/-! ### Examples -/

/-- The blocks stored for the request of the example of C54. -/
def exPuts : List Block := ((addRounds exDirHash (fun _ => true) exAddArgs exForm false 20).map (fun r => putsOf r.1)).getD []

def exTop : Cid := Cid.v0 (List.replicate 30 0 ++ [48, 7])

def exServed : Served :=
  ⟨fun _ => none, ⟨fun _ b => b, fun _ => none, fun _ => none⟩, 0, fun c => exPuts.lookup c, true, false, 100⟩

def exQueryEnv : QueryEnv := ⟨id, fun _ => none, fun _ _ => none⟩

/-- Spaces, ampersands, percent and plus signs are encoded. -/
def exEsc : UInt8 → Bool := fun c => c == 37 || c == 38 || c == 43 || c == 32

/-- The bodies, put together. -/
def bodyOf : Reply CatEnd → Option (Bytes × CatEnd)
  | .stream chunks how => some (chunks.flatten, how)
  | _ => none

/-- The hypotheses of `C66_added` about the stored blocks, and the line. -/
example : (addRounds exDirHash (fun _ => true) exAddArgs exForm false 20).map (fun r => (linesOf r.1).getLast?) =
    some (some (.added [] exTop 412)) := by decide +kernel

example : ∀ b ∈ exPuts, exServed.fetch b.1 = some b.2 := by decide +kernel

example : addPath "/x/a%20b".toUTF8.toList = .ok "x/a b".toUTF8.toList ∧
    ∀ x ∈ splitSlash "x/a b".toUTF8.toList, x ≠ [] := by decide +kernel

/-- Both queries and their answers: the whole file, and three bytes of it. -/
example : catUrl exEsc (ipfsText exTop "x/a b".toUTF8.toList) (some (1, 3)) =
    "arg=/ipfs/QmNLei78zWmzUdbeRB3CiUfAizWUrbeeZh5K1rhAQKCkiz/x/a%20b&offset=1&length=3".toUTF8.toList := by decide +kernel

example : bodyOf (catRequest exQueryEnv exServed (catUrl exEsc (ipfsText exTop "x/a b".toUTF8.toList) none)) =
    some ([1, 2, 3, 4, 5], .done) := by decide +kernel

example : bodyOf (catRequest exQueryEnv exServed (catUrl exEsc (ipfsText exTop "x/a b".toUTF8.toList) (some (1, 3)))) =
    some ([2, 3, 4], .done) := by decide +kernel

/-- `C66_overflow` with an offset of one and the largest length, in a release build. -/
example : bodyOf (catRequest exQueryEnv { exServed with debug := false }
    (catUrl exEsc (ipfsText exTop "x/a b".toUTF8.toList) (some (1, 2 ^ 64 - 1)))) = some ([], .done) := by decide +kernel

/-- `C66_query` refuses a key that is given twice, and takes the bytes after a plus sign. -/
example : (catQuery exQueryEnv "arg=/ipfs/QmNLei78zWmzUdbeRB3CiUfAizWUrbeeZh5K1rhAQKCkiz&offset=1&offset=1".toUTF8.toList) =
    .error () := by decide +kernel

/-- The request of `C66_empty_name` is accepted. -/
example : (addRounds exDirHash (fun _ => true) exAddArgs
    [⟨some "file".toUTF8.toList, some "/".toUTF8.toList, some octetStream, [[1, 2, 3]], false⟩] false 20).map
      (fun r => ((linesOf r.1).map lineShape, r.2)) =
    some ([([], 3, true), ([], 3, true), ("QmNLei78zWmzUdbeRB3CiUfAizWUrbeeZh5K1rhAQKCpH8".toUTF8.toList, 113, false),
      ([], 159, false)], .ok ()) := by decide +kernel

end Verif.Props
