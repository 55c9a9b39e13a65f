import Verif.Props.BitswapMessage

/-!
# Exactly which bytes are a bitswap message (C41, C42, C43)

The round trips say what happens to bytes this implementation wrote. Here is what it makes of any bytes: the
format of varints, of protobuf fields, and the table of the fields of `bitswap/src/bitswap_pb.proto`, stated
from the side of the writer.
-/

namespace Verif.Props

open Verif Verif.Prost Verif.Bitswap

/-! ## Varints -/

/-- The bytes of a list of seven-bit digits, the lowest first. -/
def leb : List Nat → Bytes
  | [] => []
  | [d] => [UInt8.ofNat d]
  | d :: ds => UInt8.ofNat (d + 128) :: leb ds

/-- The number they stand for. -/
def lebVal : List Nat → Nat
  | [] => 0
  | d :: ds => d + 128 * lebVal ds

/-- A varint of at most `n` bytes, cut to 64 bits. -/
structure IsVarint (n : Nat) (ds : List Nat) (v : Nat) : Prop where
  some : ds ≠ []
  digits : ∀ d ∈ ds, d < 128
  short : ds.length ≤ n
  val : v = lebVal ds % 2 ^ 64

/-- Not longer than needed. -/
def Minimal (ds : List Nat) : Prop := ds.length = 1 ∨ ds.getLast? ≠ some 0

theorem readVarintAux_iff (fuel : Nat) : ∀ (bs : Bytes) (v : Nat) (r : Bytes), readVarintAux fuel bs = some (v, r) ↔
    ∃ ds, ds ≠ [] ∧ (∀ d ∈ ds, d < 128) ∧ ds.length ≤ fuel ∧ bs = leb ds ++ r ∧ v = lebVal ds := by
  induction fuel with
  | zero =>
    intro bs v r
    simp only [readVarintAux]
    constructor
    · intro h; cases h
    · rintro ⟨ds, h1, -, h3, -⟩
      exact absurd (List.length_eq_zero_iff.1 (by omega)) h1
  | succ fuel ih =>
    intro bs v r
    cases bs with
    | nil =>
      simp only [readVarintAux]
      constructor
      · intro h; cases h
      · rintro ⟨ds, h1, -, -, h4, -⟩
        cases ds with
        | nil => exact absurd rfl h1
        | cons d ds => cases ds <;> simp [leb] at h4
    | cons b bs =>
      simp only [readVarintAux]
      by_cases hb : b.toNat < 128
      · rw [if_pos hb]
        constructor
        · intro h
          cases h
          exact ⟨[b.toNat], by simp, by simp [hb], by simp, by simp [leb], by simp [lebVal]⟩
        · rintro ⟨ds, h1, h2, h3, h4, h5⟩
          match ds, h1, h2, h3, h4, h5 with
          | [d], _, h2, _, h4, h5 =>
            have := h2 d (List.mem_singleton.2 rfl)
            simp only [leb, List.cons_append, List.nil_append, List.cons.injEq] at h4
            obtain ⟨rfl, rfl⟩ := h4
            have hd : (UInt8.ofNat d).toNat = d := by simp [UInt8.toNat_ofNat']; omega
            rw [hd, h5]
            simp [lebVal]
          | d :: e :: ds, _, h2, _, h4, _ =>
            have := h2 d (by simp)
            simp only [leb, List.cons_append, List.cons.injEq] at h4
            have h6 := congrArg UInt8.toNat h4.1
            simp [UInt8.toNat_ofNat'] at h6
            omega
      · rw [if_neg hb]
        have hb' : b.toNat < 256 := UInt8.toNat_lt b
        constructor
        · intro h
          cases hr : readVarintAux fuel bs with
          | none => rw [hr] at h; cases h
          | some x =>
            obtain ⟨v', r'⟩ := x
            rw [hr] at h
            simp only [Option.some.injEq, Prod.mk.injEq] at h
            obtain ⟨rfl, rfl⟩ := h
            obtain ⟨ds, h1, h2, h3, h4, h5⟩ := (ih bs v' r').1 hr
            refine ⟨(b.toNat - 128) :: ds, by simp, ?_, by simp only [List.length_cons]; omega, ?_, by rw [h5]; rfl⟩
            · intro d hd
              rcases List.mem_cons.1 hd with hd | hd
              · rw [hd]; omega
              · exact h2 d hd
            · cases ds with
              | nil => exact absurd rfl h1
              | cons e ds =>
                simp only [leb, List.cons_append, List.cons.injEq]
                refine ⟨?_, h4⟩
                apply UInt8.toNat_inj.1
                simp [UInt8.toNat_ofNat']
                omega
        · rintro ⟨ds, h1, h2, h3, h4, h5⟩
          match ds, h1, h2, h3, h4, h5 with
          | [d], _, h2, _, h4, h5 =>
            have := h2 d (by simp)
            simp only [leb, List.cons_append, List.nil_append, List.cons.injEq] at h4
            have h6 := congrArg UInt8.toNat h4.1
            simp [UInt8.toNat_ofNat'] at h6
            omega
          | d :: e :: ds, _, h2, h3, h4, h5 =>
            have hd := h2 d (by simp)
            simp only [leb, List.cons_append, List.cons.injEq] at h4
            have h6 := congrArg UInt8.toNat h4.1
            simp [UInt8.toNat_ofNat'] at h6
            have := (ih bs (lebVal (e :: ds)) r).2 ⟨e :: ds, by simp, fun x hx => h2 x (List.mem_cons_of_mem _ hx),
              by simp at h3 ⊢; omega, h4.2, rfl⟩
            rw [this]
            simp only [Option.some.injEq, Prod.mk.injEq, and_true, h5]
            simp only [lebVal]
            omega

/-- The varints that are read: up to ten digits, cut to 64 bits. -/
theorem readVarint_iff (bs : Bytes) (v : Nat) (r : Bytes) : readVarint bs = some (v, r) ↔
    ∃ ds, IsVarint 10 ds v ∧ bs = leb ds ++ r := by
  unfold readVarint
  constructor
  · intro h
    cases hr : readVarintAux 10 bs with
    | none => rw [hr] at h; cases h
    | some x =>
      obtain ⟨v', r'⟩ := x
      rw [hr] at h
      simp only [Option.some.injEq, Prod.mk.injEq] at h
      obtain ⟨rfl, rfl⟩ := h
      obtain ⟨ds, h1, h2, h3, h4, h5⟩ := (readVarintAux_iff 10 bs v' r').1 hr
      exact ⟨ds, ⟨h1, h2, h3, by rw [h5]⟩, h4⟩
  · rintro ⟨ds, ⟨h1, h2, h3, h5⟩, h4⟩
    rw [(readVarintAux_iff 10 bs (lebVal ds) r).2 ⟨ds, h1, h2, h3, h4, rfl⟩, h5]

theorem leb_length (ds : List Nat) : (leb ds).length = ds.length := by
  induction ds with
  | nil => rfl
  | cons d ds ih => cases ds with
    | nil => rfl
    | cons e ds => simp only [leb, List.length_cons] at ih ⊢; omega

theorem leb_getLast {ds : List Nat} (h : ds ≠ []) : (leb ds).getLast? = (ds.getLast?).map UInt8.ofNat := by
  induction ds with
  | nil => exact absurd rfl h
  | cons d ds ih => cases ds with
    | nil => rfl
    | cons e ds =>
      have := ih (by simp)
      simp only [leb]
      have hne : leb (e :: ds) ≠ [] := by
        intro hx
        have := congrArg List.length hx
        rw [leb_length] at this
        simp at this
      obtain ⟨x, xs, hx⟩ := List.exists_cons_of_ne_nil hne
      rw [hx] at this ⊢
      rw [List.getLast?_cons_cons, this, List.getLast?_cons_cons]

/-- Those of `unsigned_varint` must not be longer than needed. -/
theorem readMinVarint_iff (bs : Bytes) (v : Nat) (r : Bytes) : readMinVarint bs = some (v, r) ↔
    ∃ ds, IsVarint 10 ds v ∧ Minimal ds ∧ bs = leb ds ++ r := by
  have key : ∀ ds, ds ≠ [] → (∀ d ∈ ds, d < 128) → (bs = leb ds ++ r) →
      ((1 < bs.length - r.length ∧ (bs.take (bs.length - r.length)).getLast? = some 0) ↔ ¬ Minimal ds) := by
    intro ds h1 h2 h4
    have hl : bs.length - r.length = ds.length := by rw [h4, List.length_append, leb_length]; omega
    have ht : bs.take ds.length = leb ds := by rw [h4, ← leb_length ds]; simp
    rw [hl, ht, leb_getLast h1]
    have hpos : 0 < ds.length := List.length_pos_iff.2 h1
    unfold Minimal
    rw [not_or, Classical.not_not]
    refine and_congr (by omega) ?_
    cases hg : ds.getLast? with
    | none => simp
    | some d =>
      have hd := h2 d (List.mem_of_getLast? hg)
      simp only [Option.map_some, Option.some.injEq]
      constructor
      · intro hx
        have := congrArg UInt8.toNat hx
        simp [UInt8.toNat_ofNat'] at this
        omega
      · rintro rfl; rfl
  unfold readMinVarint
  constructor
  · intro h
    cases hr : readVarint bs with
    | none => rw [hr] at h; cases h
    | some x =>
      obtain ⟨v', r'⟩ := x
      rw [hr] at h
      simp only at h
      split at h
      · cases h
      · next hc =>
        cases h
        obtain ⟨ds, h1, h2⟩ := (readVarint_iff bs v r).1 hr
        refine ⟨ds, h1, ?_, h2⟩
        rw [key ds h1.some h1.digits h2, Classical.not_not] at hc
        exact hc
  · rintro ⟨ds, h1, h2, h3⟩
    rw [(readVarint_iff bs v r).2 ⟨ds, h1, h3⟩]
    simp only
    rw [if_neg]
    rw [key ds h1.some h1.digits h3, Classical.not_not]
    exact h2

/-- **C43**: the bytes that are a prefix: four varints, none longer than needed, of a known version, codec and
hash; whatever follows is ignored. -/
theorem C43_accepted (H : Hashes) (data : Bytes) (p : Prefix) : Prefix.new H data = some p ↔
    ∃ a b c d rest v, data = leb a ++ leb b ++ leb c ++ leb d ++ rest ∧
      IsVarint 10 a v ∧ Minimal a ∧ IsVarint 10 b p.codec ∧ Minimal b ∧ IsVarint 10 c p.mhType ∧ Minimal c ∧
      IsVarint 10 d p.mhLen ∧ Minimal d ∧
      (v = 0 ∧ p.version = .v0 ∨ v = 1 ∧ p.version = .v1) ∧ knownCodec p.codec = true ∧ (H p.mhType).isSome = true := by
  constructor
  · intro h
    unfold Prefix.new at h
    split at h
    · cases h
    · next v r1 h1 =>
      split at h
      · cases h
      · next version hv =>
        split at h
        · cases h
        · next codec r2 h2 =>
          split at h
          · next hk =>
            split at h
            · cases h
            · next mh r3 h3 =>
              split at h
              · next hm =>
                split at h
                · cases h
                · next len r4 h4 =>
                  cases h
                  obtain ⟨a, a1, a2, a3⟩ := (readMinVarint_iff _ _ _).1 h1
                  obtain ⟨b, b1, b2, b3⟩ := (readMinVarint_iff _ _ _).1 h2
                  obtain ⟨c, c1, c2, c3⟩ := (readMinVarint_iff _ _ _).1 h3
                  obtain ⟨d, d1, d2, d3⟩ := (readMinVarint_iff _ _ _).1 h4
                  refine ⟨a, b, c, d, r4, v, by rw [a3, b3, c3, d3]; simp, a1, a2, b1, b2, c1, c2, d1, d2, ?_, hk, hm⟩
                  unfold versionOf at hv
                  split at hv <;> cases hv
                  · exact .inl ⟨rfl, rfl⟩
                  · exact .inr ⟨rfl, rfl⟩
              · cases h
          · cases h
  · rintro ⟨a, b, c, d, rest, v, h0, a1, a2, b1, b2, c1, c2, d1, d2, hv, hk, hm⟩
    have e1 := (readMinVarint_iff data v (leb b ++ leb c ++ leb d ++ rest)).2 ⟨a, a1, a2, by rw [h0]; simp⟩
    have e2 := (readMinVarint_iff (leb b ++ leb c ++ leb d ++ rest) _ (leb c ++ leb d ++ rest)).2 ⟨b, b1, b2, by simp⟩
    have e3 := (readMinVarint_iff (leb c ++ leb d ++ rest) _ (leb d ++ rest)).2 ⟨c, c1, c2, by simp⟩
    have e4 := (readMinVarint_iff (leb d ++ rest) _ rest).2 ⟨d, d1, d2, rfl⟩
    unfold Prefix.new
    rw [e1]
    have hvo : versionOf v = some p.version := by
      rcases hv with ⟨rfl, h⟩ | ⟨rfl, h⟩ <;> rw [h] <;> rfl
    simp only [hvo, e2, hk, if_true, e3, hm, e4]

example : Prefix.new exHashes [1, 0x55, 0x12, 32] = some ⟨.v1, 0x55, 0x12, 32⟩ ∧
    Prefix.new exHashes [0x81, 0, 0x55, 0x12, 32] = none := by decide +kernel

/-! ## Fields -/

/-- What is written for a payload, and its wire type. -/
inductive IsPayload : Nat → WireVal → Bytes → Prop where
  | varint {ds v} (h : IsVarint 10 ds v) : IsPayload 0 (.varint v) (leb ds)
  | fixed64 {x : Bytes} (h : x.length = 8) : IsPayload 1 (.fixed64 x) x
  | len {ds x} (h : IsVarint 10 ds x.length) : IsPayload 2 (.len x) (leb ds ++ x)
  | fixed32 {x : Bytes} (h : x.length = 4) : IsPayload 5 (.fixed32 x) x

/-- The bytes of a field: the key with number and wire type, and the payload. -/
def IsField (n : Nat) (v : WireVal) (bs : Bytes) : Prop :=
  ∃ ds ty pay, IsVarint 10 ds (n * 8 + ty) ∧ n * 8 + ty < 2 ^ 32 ∧ 0 < n ∧ IsPayload ty v pay ∧ bs = leb ds ++ pay

/-- The bytes of a message with these fields. -/
inductive IsMsg : List (Nat × WireVal) → Bytes → Prop where
  | nil : IsMsg [] []
  | cons {n v fs a b} (h : IsField n v a) (h' : IsMsg fs b) : IsMsg ((n, v) :: fs) (a ++ b)

theorem takeExact_iff (n : Nat) (bs x r : Bytes) : takeExact n bs = some (x, r) ↔ x.length = n ∧ bs = x ++ r := by
  unfold takeExact
  constructor
  · intro h
    split at h
    · next hl =>
      cases h
      exact ⟨by simp [hl], (List.take_append_drop n bs).symm⟩
    · cases h
  · rintro ⟨rfl, rfl⟩
    simp

theorem readField_iff (bs : Bytes) (n : Nat) (v : WireVal) (r : Bytes) : readField bs = some ((n, v), r) ↔
    ∃ a, IsField n v a ∧ bs = a ++ r := by
  constructor
  · intro h
    unfold readField at h
    cases hk : readVarint bs with
    | none => rw [hk] at h; cases h
    | some x =>
      obtain ⟨key, r0⟩ := x
      rw [hk] at h
      simp only at h
      obtain ⟨ds, hd, hbs⟩ := (readVarint_iff _ _ _).1 hk
      have hsplit : key / 8 * 8 + key % 8 = key := by omega
      split at h
      · cases h
      · next hlt =>
        split at h
        · cases h
        · next hn0 =>
          have fld : ∀ (w : WireVal) (pay : Bytes), IsPayload (key % 8) w pay → IsField (key / 8) w (leb ds ++ pay) := by
            intro w pay hp
            exact ⟨ds, key % 8, pay, by rw [hsplit]; exact hd, by omega, by omega, hp, rfl⟩
          split at h
          · next hm =>
            cases h2 : readVarint r0 with
            | none => rw [h2] at h; cases h
            | some y =>
              obtain ⟨w, r1⟩ := y
              rw [h2] at h
              cases h
              obtain ⟨es, he, hr0⟩ := (readVarint_iff _ _ _).1 h2
              have hp : IsPayload (key % 8) (.varint w) (leb es) := by rw [hm]; exact .varint he
              exact ⟨_, fld _ _ hp, by rw [hbs, hr0]; simp⟩
          · next hm =>
            cases h2 : takeExact 8 r0 with
            | none => rw [h2] at h; cases h
            | some y =>
              obtain ⟨w, r1⟩ := y
              rw [h2] at h
              cases h
              obtain ⟨e1, e2⟩ := (takeExact_iff _ _ _ _).1 h2
              have hp : IsPayload (key % 8) (.fixed64 w) w := by rw [hm]; exact .fixed64 e1
              exact ⟨_, fld _ _ hp, by rw [hbs, e2]; simp⟩
          · next hm =>
            cases h2 : readVarint r0 with
            | none => rw [h2] at h; cases h
            | some y =>
              obtain ⟨w, r1⟩ := y
              rw [h2] at h
              simp only at h
              cases h3 : takeExact w r1 with
              | none => rw [h3] at h; cases h
              | some z =>
                obtain ⟨x, r2⟩ := z
                rw [h3] at h
                cases h
                obtain ⟨es, he, hr0⟩ := (readVarint_iff _ _ _).1 h2
                obtain ⟨e1, e2⟩ := (takeExact_iff _ _ _ _).1 h3
                have hp : IsPayload (key % 8) (.len x) (leb es ++ x) := by rw [hm]; exact .len (by rw [e1]; exact he)
                exact ⟨_, fld _ _ hp, by rw [hbs, hr0, e2]; simp⟩
          · next hm =>
            cases h2 : takeExact 4 r0 with
            | none => rw [h2] at h; cases h
            | some y =>
              obtain ⟨w, r1⟩ := y
              rw [h2] at h
              cases h
              obtain ⟨e1, e2⟩ := (takeExact_iff _ _ _ _).1 h2
              have hp : IsPayload (key % 8) (.fixed32 w) w := by rw [hm]; exact .fixed32 e1
              exact ⟨_, fld _ _ hp, by rw [hbs, e2]; simp⟩
          · cases h
  · rintro ⟨a, ⟨ds, ty, pay, hd, hlt, hn, hp, rfl⟩, rfl⟩
    have hk := (readVarint_iff (leb ds ++ pay ++ r) _ (pay ++ r)).2 ⟨ds, hd, by simp⟩
    unfold readField
    rw [hk]
    simp only
    cases hp with
    | varint he =>
      rw [if_neg (by omega), if_neg (by omega), show (n * 8 + 0) % 8 = 0 by omega, show (n * 8 + 0) / 8 = n by omega]
      simp only
      rw [(readVarint_iff _ _ r).2 ⟨_, he, rfl⟩]
    | fixed64 he =>
      rw [if_neg (by omega), if_neg (by omega), show (n * 8 + 1) % 8 = 1 by omega, show (n * 8 + 1) / 8 = n by omega]
      simp only
      rw [(takeExact_iff _ _ _ r).2 ⟨he, rfl⟩]
    | len he =>
      rw [if_neg (by omega), if_neg (by omega), show (n * 8 + 2) % 8 = 2 by omega, show (n * 8 + 2) / 8 = n by omega]
      simp only
      rw [(readVarint_iff _ _ _).2 ⟨_, he, List.append_assoc ..⟩]
      simp only
      rw [(takeExact_iff _ _ _ r).2 ⟨rfl, rfl⟩]
    | fixed32 he =>
      rw [if_neg (by omega), if_neg (by omega), show (n * 8 + 5) % 8 = 5 by omega, show (n * 8 + 5) / 8 = n by omega]
      simp only
      rw [(takeExact_iff _ _ _ r).2 ⟨he, rfl⟩]

/-- The fields one after the other. -/
def foldFields {σ : Type} (step : σ → Nat → WireVal → Option σ) : σ → List (Nat × WireVal) → Option σ
  | s, [] => some s
  | s, (n, v) :: fs => (step s n v).bind (fun s' => foldFields step s' fs)

theorem msg_iff {σ : Type} {step : σ → Nat → WireVal → Option σ} {bs : Bytes} : ∀ {s s' : σ},
    msg step s bs = some s' ↔ ∃ fs, IsMsg fs bs ∧ foldFields step s fs = some s' := by
  generalize hl : bs.length = l
  induction l using Nat.strongRecOn generalizing bs with
  | ind l ih =>
    intro s s'
    constructor
    · intro h
      cases hb : bs with
      | nil =>
        rw [hb, msg_nil] at h
        cases h
        exact ⟨[], .nil, rfl⟩
      | cons b t =>
        have hne : bs ≠ [] := by rw [hb]; simp
        rw [← hb]
        cases hr : readField bs with
        | none =>
          rw [msg] at h
          simp only [hne, if_false] at h
          split at h
          · cases h
          · next hx => rw [hr] at hx; cases hx
        | some x =>
          obtain ⟨⟨n, v⟩, r⟩ := x
          rw [msg_field hr] at h
          cases hs : step s n v with
          | none => rw [hs] at h; cases h
          | some s1 =>
            rw [hs] at h
            simp only [Option.bind_some] at h
            obtain ⟨fs, h1, h2⟩ := (ih r.length (by have := readField_shorter hr; omega) rfl).1 h
            obtain ⟨a, ha, hbs⟩ := (readField_iff _ _ _ _).1 hr
            exact ⟨(n, v) :: fs, hbs ▸ .cons ha h1, by simp [foldFields, hs, h2]⟩
    · rintro ⟨fs, h1, h2⟩
      cases h1 with
      | nil => rw [msg_nil]; exact h2
      | cons ha hb =>
        rename_i n v fs a b
        have hr := (readField_iff (a ++ b) n v b).2 ⟨a, ha, rfl⟩
        rw [msg_field hr]
        simp only [foldFields] at h2
        cases hs : step s n v with
        | none => rw [hs] at h2; cases h2
        | some s1 =>
          rw [hs] at h2
          simp only [Option.bind_some] at h2 ⊢
          exact (ih b.length (by have := readField_shorter hr; omega) rfl).2 ⟨fs, hb, h2⟩

/-! ## The table of the fields -/

/-- The wire type of a payload. -/
def wireTy : WireVal → Nat
  | .varint _ => 0
  | .fixed64 _ => 1
  | .len _ => 2
  | .fixed32 _ => 5

/-- Fields of the table have the wire type of the table; others do not matter. -/
def Typed (table : List (Nat × Nat)) (fs : List (Nat × WireVal)) : Prop :=
  ∀ f ∈ fs, ∀ t ∈ table, t.1 = f.1 → wireTy f.2 = t.2

/-- `wantlist::Entry`: `block` bytes, `priority` int32, `cancel` bool, `wantType` enum, `sendDontHave` bool. -/
def entryTable : List (Nat × Nat) := [(1, 2), (2, 0), (3, 0), (4, 0), (5, 0)]

/-- `Wantlist`: `entries` message, `full` bool. -/
def wantlistTable : List (Nat × Nat) := [(1, 2), (2, 0)]

/-- `Block`: `prefix` and `data` bytes. -/
def blockTable : List (Nat × Nat) := [(1, 2), (2, 2)]

/-- `BlockPresence`: `cid` bytes, `type` enum. -/
def presenceTable : List (Nat × Nat) := [(1, 2), (2, 0)]

/-- `Message`: `wantlist` message, `blocks` bytes, `payload` message, `blockPresences` message, `pendingBytes` int32. -/
def messageTable : List (Nat × Nat) := [(1, 2), (2, 2), (3, 2), (4, 2), (5, 0)]

/-- The byte strings of a field, in order. -/
def strings (n : Nat) (fs : List (Nat × WireVal)) : List Bytes :=
  fs.filterMap (fun f => match f with
    | (m, .len b) => if m = n then some b else none
    | _ => none)

/-- The numbers of a field, in order. -/
def numbers (n : Nat) (fs : List (Nat × WireVal)) : List Nat :=
  fs.filterMap (fun f => match f with
    | (m, .varint x) => if m = n then some x else none
    | _ => none)

/-- The number in two's complement of 32 bits, of the lower bits. -/
def IsI32 (x : Nat) (i : Int) : Prop := -(2 : Int) ^ 31 ≤ i ∧ i < 2 ^ 31 ∧ ∃ k : Int, (x : Int) = i + k * 2 ^ 32

/-- Bytes of an entry: the last value of a field counts. -/
def IsEntry (bs : Bytes) (e : PbEntry) : Prop :=
  ∃ fs, IsMsg fs bs ∧ Typed entryTable fs ∧ e.block = ((strings 1 fs).getLast?).getD [] ∧
    IsI32 (((numbers 2 fs).getLast?).getD 0) e.priority ∧ (e.cancel = true ↔ ((numbers 3 fs).getLast?).getD 0 ≠ 0)

/-- Bytes of a block. -/
def IsBlock (bs : Bytes) (b : PbBlock) : Prop :=
  ∃ fs, IsMsg fs bs ∧ Typed blockTable fs ∧ b.prefix_ = ((strings 1 fs).getLast?).getD [] ∧
    b.data = ((strings 2 fs).getLast?).getD []

/-- Element by element. -/
inductive Each {α β : Type} (R : α → β → Prop) : List α → List β → Prop where
  | nil : Each R [] []
  | cons {a b as bs} (h : R a b) (h' : Each R as bs) : Each R (a :: as) (b :: bs)

/-- Bytes of a want list. -/
def IsWantlist (bs : Bytes) (es : List PbEntry) : Prop :=
  ∃ fs, IsMsg fs bs ∧ Typed wantlistTable fs ∧ Each IsEntry (strings 1 fs) es

/-- Bytes of a message: several want lists are put together. -/
def IsPb (bs : Bytes) (m : PbMessage) : Prop :=
  ∃ fs, IsMsg fs bs ∧ Typed messageTable fs ∧ Each IsBlock (strings 3 fs) m.payload ∧
    (∀ b ∈ strings 4 fs, ∃ gs, IsMsg gs b ∧ Typed presenceTable gs) ∧
    ∃ ls, Each IsWantlist (strings 1 fs) ls ∧ m.entries = if strings 1 fs = [] then none else some ls.flatten

theorem varToI32_iff (x : Nat) (i : Int) : varToI32 x = i ↔ IsI32 x i := by
  unfold varToI32 IsI32
  constructor
  · intro h
    subst h
    split
    · exact ⟨by omega, by omega, (x / 2 ^ 32 : Nat), by omega⟩
    · exact ⟨by omega, by omega, (x / 2 ^ 32 : Nat) + 1, by omega⟩
  · rintro ⟨h1, h2, k, h3⟩
    split <;> omega

theorem typed_nil (t : List (Nat × Nat)) : Typed t [] := by intro f hf; cases hf

theorem typed_cons {t : List (Nat × Nat)} {f : Nat × WireVal} {fs : List (Nat × WireVal)} :
    Typed t (f :: fs) ↔ (∀ e ∈ t, e.1 = f.1 → wireTy f.2 = e.2) ∧ Typed t fs := by
  unfold Typed
  simp only [List.mem_cons, forall_eq_or_imp]

theorem strings_cons (n m : Nat) (v : WireVal) (fs : List (Nat × WireVal)) : strings n ((m, v) :: fs) =
    (match v with
      | .len b => if m = n then [b] else []
      | _ => []) ++ strings n fs := by
  cases v <;> simp only [strings, List.filterMap_cons, List.nil_append]
  by_cases h : m = n <;> simp [h]

theorem numbers_cons (n m : Nat) (v : WireVal) (fs : List (Nat × WireVal)) : numbers n ((m, v) :: fs) =
    (match v with
      | .varint x => if m = n then [x] else []
      | _ => []) ++ numbers n fs := by
  cases v <;> simp only [numbers, List.filterMap_cons, List.nil_append]
  by_cases h : m = n <;> simp [h]

theorem last_cons {α : Type} (a d : α) (l : List α) : ((a :: l).getLast?).getD d = (l.getLast?).getD a := by
  cases l with
  | nil => rfl
  | cons b l =>
    rw [List.getLast?_cons_cons]
    obtain ⟨x, hx⟩ : ∃ x, (b :: l).getLast? = some x := ⟨_, List.getLast?_eq_some_getLast (by simp)⟩
    rw [hx]; rfl

theorem entry_fold (fs : List (Nat × WireVal)) : ∀ (s e : PbEntry), foldFields entryStep s fs = some e ↔
    Typed entryTable fs ∧ e.block = ((strings 1 fs).getLast?).getD s.block ∧
      e.priority = ((numbers 2 fs).map varToI32).getLast?.getD s.priority ∧
      e.cancel = ((numbers 3 fs).map (fun x => decide (x ≠ 0))).getLast?.getD s.cancel := by
  induction fs with
  | nil =>
    intro s e
    simp only [foldFields, strings, numbers, List.filterMap_nil, List.map_nil, List.getLast?_nil, Option.getD_none,
      typed_nil, true_and, Option.some.injEq]
    obtain ⟨a, b, c⟩ := s
    obtain ⟨a', b', c'⟩ := e
    simp only [PbEntry.mk.injEq]
    constructor <;> rintro ⟨rfl, rfl, rfl⟩ <;> exact ⟨rfl, rfl, rfl⟩
  | cons f fs ih =>
    intro s e
    obtain ⟨n, v⟩ := f
    simp only [foldFields, typed_cons, strings_cons, numbers_cons]
    have tab : (∀ t ∈ entryTable, t.1 = n → wireTy v = t.2) ↔
        (n = 1 → wireTy v = 2) ∧ (n = 2 → wireTy v = 0) ∧ (n = 3 → wireTy v = 0) ∧ (n = 4 → wireTy v = 0) ∧
          (n = 5 → wireTy v = 0) := by
      simp only [entryTable, List.forall_mem_cons, List.not_mem_nil, false_imp_iff, implies_true, and_true, eq_comm]
    simp only [tab]
    by_cases h1 : n = 1
    · subst h1
      cases v <;> simp [entryStep, wireTy, ih, last_cons]
    by_cases h2 : n = 2
    · subst h2
      cases v <;> simp [entryStep, wireTy, ih, last_cons]
    by_cases h3 : n = 3
    · subst h3
      cases v <;> simp [entryStep, wireTy, ih, last_cons]
    by_cases h4 : n = 4
    · subst h4
      cases v <;> simp [entryStep, wireTy, ih]
    by_cases h5 : n = 5
    · subst h5
      cases v <;> simp [entryStep, wireTy, ih]
    · cases v <;> simp [entryStep, h1, h2, h3, h4, h5, ih]

theorem entry_iff (bs : Bytes) (e : PbEntry) : msg entryStep {} bs = some e ↔ IsEntry bs e := by
  rw [msg_iff]
  unfold IsEntry
  refine exists_congr (fun fs => and_congr_right (fun _ => ?_))
  rw [entry_fold]
  refine and_congr_right (fun _ => and_congr_right (fun _ => ?_))
  have h0 : (0 : Int) = varToI32 0 := rfl
  rw [List.getLast?_map, List.getLast?_map]
  refine and_congr ?_ ?_
  · rw [← varToI32_iff]
    cases (numbers 2 fs).getLast? with
    | none => simp only [Option.map_none, Option.getD_none]; rw [← h0]; exact eq_comm
    | some x => simp only [Option.map_some, Option.getD_some]; exact eq_comm
  · cases (numbers 3 fs).getLast? with
    | none => simp
    | some x => cases h : e.cancel <;> simp

theorem block_fold (fs : List (Nat × WireVal)) : ∀ (s b : PbBlock), foldFields blockStep s fs = some b ↔
    Typed blockTable fs ∧ b.prefix_ = ((strings 1 fs).getLast?).getD s.prefix_ ∧
      b.data = ((strings 2 fs).getLast?).getD s.data := by
  induction fs with
  | nil =>
    intro s b
    simp only [foldFields, strings, List.filterMap_nil, List.getLast?_nil, Option.getD_none,
      typed_nil, true_and, Option.some.injEq]
    obtain ⟨a, c⟩ := s
    obtain ⟨a', c'⟩ := b
    simp only [PbBlock.mk.injEq]
    constructor <;> rintro ⟨rfl, rfl⟩ <;> exact ⟨rfl, rfl⟩
  | cons f fs ih =>
    intro s b
    obtain ⟨n, v⟩ := f
    simp only [foldFields, typed_cons, strings_cons]
    have tab : (∀ t ∈ blockTable, t.1 = n → wireTy v = t.2) ↔ (n = 1 → wireTy v = 2) ∧ (n = 2 → wireTy v = 2) := by
      simp only [blockTable, List.forall_mem_cons, List.not_mem_nil, false_imp_iff, implies_true, and_true, eq_comm]
    simp only [tab]
    by_cases h1 : n = 1
    · subst h1
      cases v <;> simp [blockStep, wireTy, ih, last_cons]
    by_cases h2 : n = 2
    · subst h2
      cases v <;> simp [blockStep, wireTy, ih, last_cons]
    · cases v <;> simp [blockStep, h1, h2, ih]

theorem block_iff (bs : Bytes) (b : PbBlock) : msg blockStep {} bs = some b ↔ IsBlock bs b := by
  rw [msg_iff]
  unfold IsBlock
  exact exists_congr (fun fs => and_congr_right (fun _ => block_fold fs _ b))

theorem presence_fold (fs : List (Nat × WireVal)) (s s' : Unit) : foldFields presenceStep s fs = some s' ↔
    Typed presenceTable fs := by
  induction fs with
  | nil => simp [foldFields, typed_nil]
  | cons f fs ih =>
    obtain ⟨n, v⟩ := f
    simp only [foldFields, typed_cons]
    have tab : (∀ t ∈ presenceTable, t.1 = n → wireTy v = t.2) ↔ (n = 1 → wireTy v = 2) ∧ (n = 2 → wireTy v = 0) := by
      simp only [presenceTable, List.forall_mem_cons, List.not_mem_nil, false_imp_iff, implies_true, and_true, eq_comm]
    simp only [tab]
    by_cases h1 : n = 1
    · subst h1
      cases v <;> simp [presenceStep, wireTy, ih]
    by_cases h2 : n = 2
    · subst h2
      cases v <;> simp [presenceStep, wireTy, ih]
    · cases v <;> simp [presenceStep, h1, h2, ih]

theorem each_nil_iff {α β : Type} {R : α → β → Prop} {l : List β} : Each R [] l ↔ l = [] := by
  constructor
  · intro h; cases h; rfl
  · rintro rfl; exact .nil

theorem each_cons_iff {α β : Type} {R : α → β → Prop} {a : α} {as : List α} {l : List β} :
    Each R (a :: as) l ↔ ∃ b bs, l = b :: bs ∧ R a b ∧ Each R as bs := by
  constructor
  · intro h; cases h with | cons h h' => exact ⟨_, _, rfl, h, h'⟩
  · rintro ⟨b, bs, rfl, h, h'⟩; exact .cons h h'

theorem wantlist_fold (fs : List (Nat × WireVal)) : ∀ (s r : List PbEntry), foldFields wantlistStep s fs = some r ↔
    Typed wantlistTable fs ∧ ∃ es, Each IsEntry (strings 1 fs) es ∧ r = s ++ es := by
  induction fs with
  | nil =>
    intro s r
    have : strings 1 [] = [] := rfl
    simp only [foldFields, this, each_nil_iff, typed_nil, true_and, Option.some.injEq, exists_eq_left, List.append_nil]
    exact eq_comm
  | cons f fs ih =>
    intro s r
    obtain ⟨n, v⟩ := f
    simp only [foldFields, typed_cons, strings_cons]
    have tab : (∀ t ∈ wantlistTable, t.1 = n → wireTy v = t.2) ↔ (n = 1 → wireTy v = 2) ∧ (n = 2 → wireTy v = 0) := by
      simp only [wantlistTable, List.forall_mem_cons, List.not_mem_nil, false_imp_iff, implies_true, and_true, eq_comm]
    simp only [tab]
    by_cases h1 : n = 1
    · subst h1
      cases v with
      | len b =>
        simp only [wantlistStep, if_true, wireTy, List.cons_append, List.nil_append, each_cons_iff]
        cases hm : msg entryStep {} b with
        | none =>
          have hno : ∀ e, ¬ IsEntry b e := by intro e he; rw [← entry_iff, hm] at he; cases he
          simp [hno]
        | some e =>
          have hyes : ∀ e', IsEntry b e' ↔ e' = e := by
            intro e'; rw [← entry_iff, hm, Option.some.injEq]; exact eq_comm
          simp only [Option.map_some, Option.bind_some, ih, hyes]
          constructor
          · rintro ⟨h, es, h', rfl⟩
            exact ⟨⟨by simp, h⟩, e :: es, ⟨e, es, rfl, rfl, h'⟩, by simp⟩
          · rintro ⟨⟨-, h⟩, _, ⟨_, es, rfl, rfl, h'⟩, rfl⟩
            exact ⟨h, es, h', by simp⟩
      | _ => simp [wantlistStep, wireTy]
    by_cases h2 : n = 2
    · subst h2
      cases v <;> simp [wantlistStep, wireTy, ih]
    · cases v <;> simp [wantlistStep, h1, h2, ih]

theorem wantlist_iff (bs : Bytes) (s r : List PbEntry) : msg wantlistStep s bs = some r ↔
    ∃ es, IsWantlist bs es ∧ r = s ++ es := by
  rw [msg_iff]
  unfold IsWantlist
  constructor
  · rintro ⟨fs, h1, h2⟩
    obtain ⟨h3, es, h4, h5⟩ := (wantlist_fold fs s r).1 h2
    exact ⟨es, ⟨fs, h1, h3, h4⟩, h5⟩
  · rintro ⟨es, ⟨fs, h1, h3, h4⟩, h5⟩
    exact ⟨fs, h1, (wantlist_fold fs s r).2 ⟨h3, es, h4, h5⟩⟩

theorem message_fold (fs : List (Nat × WireVal)) : ∀ (s m : PbMessage), foldFields messageStep s fs = some m ↔
    Typed messageTable fs ∧ (∃ bs, Each IsBlock (strings 3 fs) bs ∧ m.payload = s.payload ++ bs) ∧
    (∀ b ∈ strings 4 fs, ∃ gs, IsMsg gs b ∧ Typed presenceTable gs) ∧
    ∃ ls, Each IsWantlist (strings 1 fs) ls ∧
      m.entries = if strings 1 fs = [] then s.entries else some (s.entries.getD [] ++ ls.flatten) := by
  induction fs with
  | nil =>
    intro s m
    have e : ∀ n, strings n [] = [] := fun _ => rfl
    simp only [foldFields, e, each_nil_iff, typed_nil, true_and, Option.some.injEq, exists_eq_left, List.append_nil,
      List.not_mem_nil, false_imp_iff, implies_true, if_true]
    obtain ⟨a, b⟩ := s
    obtain ⟨a', b'⟩ := m
    simp only [PbMessage.mk.injEq]
    constructor
    · rintro ⟨rfl, rfl⟩; exact ⟨rfl, rfl⟩
    · rintro ⟨rfl, rfl⟩; exact ⟨rfl, rfl⟩
  | cons f fs ih =>
    intro s m
    obtain ⟨n, v⟩ := f
    simp only [foldFields, typed_cons, strings_cons]
    have tab : (∀ t ∈ messageTable, t.1 = n → wireTy v = t.2) ↔
        (n = 1 → wireTy v = 2) ∧ (n = 2 → wireTy v = 2) ∧ (n = 3 → wireTy v = 2) ∧ (n = 4 → wireTy v = 2) ∧
          (n = 5 → wireTy v = 0) := by
      simp only [messageTable, List.forall_mem_cons, List.not_mem_nil, false_imp_iff, implies_true, and_true, eq_comm]
    simp only [tab]
    by_cases h1 : n = 1
    · subst h1
      cases v with
      | len b =>
        simp only [messageStep, if_true, wireTy, List.cons_append, List.nil_append, each_cons_iff,
          show ¬ (1 = 3) by decide, show ¬ (1 = 4) by decide, if_false, reduceCtorEq, if_false]
        constructor
        · intro h
          cases hm : msg wantlistStep (s.entries.getD []) b with
          | none => rw [hm] at h; cases h
          | some l =>
            rw [hm] at h
            obtain ⟨es, h3, h4⟩ := (wantlist_iff _ _ _).1 hm
            obtain ⟨g1, g2, g3, ls, g4, g5⟩ := (ih _ _).1 h
            refine ⟨⟨by simp, g1⟩, g2, g3, es :: ls, ⟨es, ls, rfl, h3, g4⟩, ?_⟩
            rw [g5]
            simp only [List.flatten_cons, Option.getD_some, h4, ← List.append_assoc]
            split
            · next hn => rw [hn, each_nil_iff] at g4; rw [g4]; simp
            · rfl
        · rintro ⟨⟨-, g1⟩, g2, g3, _, ⟨es, ls, rfl, h3, g4⟩, g5⟩
          rw [(wantlist_iff _ _ (s.entries.getD [] ++ es)).2 ⟨es, h3, rfl⟩]
          simp only [Option.map_some, Option.bind_some]
          refine (ih _ _).2 ⟨g1, g2, g3, ls, g4, ?_⟩
          rw [g5]
          simp only [List.flatten_cons, Option.getD_some, ← List.append_assoc]
          split
          · next hn => rw [hn, each_nil_iff] at g4; rw [g4]; simp
          · rfl
      | _ => simp [messageStep, wireTy]
    by_cases h2 : n = 2
    · subst h2
      cases v <;> simp [messageStep, wireTy, ih]
    by_cases h3 : n = 3
    · subst h3
      cases v with
      | len b =>
        simp only [messageStep, if_true, wireTy, List.cons_append, List.nil_append, each_cons_iff,
          show ¬ (3 = 1) by decide, show ¬ (3 = 2) by decide, show ¬ (3 = 4) by decide, if_false]
        constructor
        · intro h
          cases hm : msg blockStep {} b with
          | none => rw [hm] at h; cases h
          | some l =>
            rw [hm] at h
            obtain ⟨g1, ⟨bs, g2, g2'⟩, g3, g4⟩ := (ih _ _).1 h
            exact ⟨⟨by simp, g1⟩, ⟨l :: bs, ⟨l, bs, rfl, (block_iff _ _).1 hm, g2⟩, by rw [g2']; simp⟩, g3, g4⟩
        · rintro ⟨⟨-, g1⟩, ⟨_, ⟨l, bs, rfl, hl, g2⟩, g2'⟩, g3, g4⟩
          rw [(block_iff _ _).2 hl]
          simp only [Option.map_some, Option.bind_some]
          exact (ih _ _).2 ⟨g1, ⟨bs, g2, by rw [g2']; simp⟩, g3, g4⟩
      | _ => simp [messageStep, wireTy]
    by_cases h4 : n = 4
    · subst h4
      cases v with
      | len b =>
        simp only [messageStep, if_true, wireTy, List.cons_append, List.nil_append, List.forall_mem_cons,
          show ¬ (4 = 1) by decide, show ¬ (4 = 2) by decide, show ¬ (4 = 3) by decide, if_false]
        have hp : (∃ gs, IsMsg gs b ∧ Typed presenceTable gs) ↔ msg presenceStep () b = some () := by
          rw [msg_iff]
          exact exists_congr (fun gs => and_congr_right (fun _ => (presence_fold gs () ()).symm))
        rw [hp]
        cases hm : msg presenceStep () b with
        | none => simp
        | some u => simp [ih]
      | _ => simp [messageStep, wireTy]
    by_cases h5 : n = 5
    · subst h5
      cases v <;> simp [messageStep, wireTy, ih]
    · cases v <;> simp [messageStep, h1, h2, h3, h4, h5, ih]

/-- **C41**, **C42**: the bytes that are a protobuf message of the definition, and what they say. -/
theorem C41_decoded (bs : Bytes) (m : PbMessage) : PbMessage.decode bs = some m ↔ IsPb bs m := by
  unfold PbMessage.decode IsPb
  rw [msg_iff]
  refine exists_congr (fun fs => and_congr_right (fun _ => ?_))
  rw [message_fold]
  simp

/-- Two want lists, with a field of another number between them; the entries are put together. -/
example : IsPb ([10, 4, 10, 2, 24, 1] ++ [0x30, 7] ++ [10, 5, 10, 3, 16, 0x83, 1])
    { entries := some [{ cancel := true }, { priority := 131 }] } := by
  rw [← C41_decoded]; decide +kernel

/-! ## What the message asks for -/

/-- The entries that ask for a cid, and those that take it back. -/
def entriesOf (c : Cid) (cancel : Bool) (es : List PbEntry) : List PbEntry :=
  es.filter (fun e => decide (Cid.ofBytes e.block = some c ∧ e.cancel = cancel))

theorem addEntries_iff (es : List PbEntry) : ∀ (m : Message), (∃ m', addEntries m es = some m') ↔
    ∀ e ∈ es, ∃ c, Cid.ofBytes e.block = some c := by
  induction es with
  | nil => intro m; simp [addEntries]
  | cons e es ih =>
    intro m
    simp only [addEntries, List.forall_mem_cons]
    cases hc : Cid.ofBytes e.block with
    | none => simp
    | some c => simp [ih]

theorem addEntries_spec (es : List PbEntry) : ∀ (m m' : Message), addEntries m es = some m' →
    (m.want.map Prod.fst).Nodup → m.cancel.Nodup →
    (m'.want.map Prod.fst).Nodup ∧ m'.cancel.Nodup ∧ m'.full = m.full ∧ m'.blocks = m.blocks ∧
    (∀ c, AMap.get m'.want c = (((entriesOf c false es).getLast?).map PbEntry.priority).or (AMap.get m.want c)) ∧
    ∀ c, c ∈ m'.cancel ↔ c ∈ m.cancel ∨ entriesOf c true es ≠ [] := by
  induction es with
  | nil =>
    intro m m' h h1 h2
    cases h
    exact ⟨h1, h2, rfl, rfl, fun c => rfl, fun c => by simp [entriesOf]⟩
  | cons e es ih =>
    intro m m' h h1 h2
    simp only [addEntries] at h
    cases hc : Cid.ofBytes e.block with
    | none => rw [hc] at h; cases h
    | some c =>
      rw [hc] at h
      simp only at h
      have hl : ∀ (d : Cid) (b : Bool), entriesOf d b (e :: es) =
          (if d = c ∧ e.cancel = b then [e] else []) ++ entriesOf d b es := by
        intro d b
        unfold entriesOf
        rw [List.filter_cons]
        simp only [hc, Option.some.injEq, decide_eq_true_eq]
        by_cases hd : d = c
        · subst hd; split <;> simp [*]
        · simp [hd, Ne.symm hd]
      cases hcan : e.cancel with
      | true =>
        simp only [hcan, if_true] at h
        obtain ⟨a1, a2, a3, a4, a5, a6⟩ := ih _ _ h h1 (by
          unfold Message.cancelBlock
          simp only
          split
          · exact h2
          · next hn => exact List.nodup_append.2 ⟨h2, by simp, by rintro x hx y hy rfl; rw [List.mem_singleton] at hy; exact hn (hy ▸ hx)⟩)
        refine ⟨a1, a2, a3, a4, ?_, ?_⟩
        · intro d
          rw [a5, hl, hcan]
          simp [Message.cancelBlock]
        · intro d
          rw [a6, hl, hcan]
          have : d ∈ (m.cancelBlock c).cancel ↔ d ∈ m.cancel ∨ d = c := by
            unfold Message.cancelBlock
            simp only
            split
            · constructor
              · exact .inl
              · rintro (h | rfl) <;> assumption
            · simp
          rw [this]
          by_cases hd : d = c <;> simp [hd]
      | false =>
        simp only [hcan, Bool.false_eq_true, if_false] at h
        obtain ⟨a1, a2, a3, a4, a5, a6⟩ := ih _ _ h (by exact AMap.Uniq.set (m := m.want) h1 c e.priority) h2
        refine ⟨a1, a2, a3, a4, ?_, ?_⟩
        · intro d
          rw [a5, hl, hcan]
          simp only [Message.wantBlock, AMap.get_set]
          by_cases hd : d = c
          · rw [if_pos hd, if_pos ⟨hd, trivial⟩]
            cases hg : entriesOf d false es with
            | nil => simp
            | cons x xs => simp [List.getLast?_cons]
          · rw [if_neg hd, if_neg (fun h => hd h.1)]
            rfl
        · intro d
          rw [a6, hl, hcan]
          simp [Message.wantBlock]

theorem addPayload_iff (H : Hashes) (bs : List PbBlock) : ∀ (m : Message), (∃ m', addPayload H m bs = some m') ↔
    ∀ b ∈ bs, ∃ p, Prefix.new H b.prefix_ = some p ∧
      (p.version = .v0 → p.codec = codecDagPb ∧ p.mhType = mhSha256) := by
  induction bs with
  | nil => intro m; simp [addPayload]
  | cons b bs ih =>
    intro m
    simp only [addPayload, List.forall_mem_cons]
    cases hp : Prefix.new H b.prefix_ with
    | none => simp
    | some p =>
      have hH : (H p.mhType).isSome = true := by
        obtain ⟨_, _, _, _, _, _, _, _, _, _, _, _, _, _, _, _, _, h⟩ := (C43_accepted H b.prefix_ p).1 hp
        exact h
      obtain ⟨f, hf⟩ := Option.isSome_iff_exists.1 hH
      simp only [Option.some.injEq, exists_eq_left']
      have hc : (∃ c, p.toCid H b.data = some c) ↔ (p.version = .v0 → p.codec = codecDagPb ∧ p.mhType = mhSha256) := by
        unfold Prefix.toCid Cid.new
        rw [hf]
        cases p.version <;> simp
      cases ht : p.toCid H b.data with
      | none =>
        rw [ht] at hc
        simp only [reduceCtorEq, exists_false, false_iff] at hc ⊢
        exact fun h => hc h.1
      | some c =>
        rw [ht] at hc
        simp only [Option.some.injEq, exists_eq', true_iff] at hc
        simp only [ih]
        exact ⟨fun h => ⟨hc, h⟩, fun h => h.2⟩

/-- **C41**, **C42**: the bytes that are accepted: a protobuf message whose entries hold cids, and whose blocks
hold prefixes, of version 0 only with the codec and hash that version stands for. -/
theorem C42_accepted (H : Hashes) (bs : Bytes) : (∃ m, Message.ofBytes H bs = some m) ↔
    ∃ pb, IsPb bs pb ∧ (∀ e ∈ pb.entries.getD [], ∃ c, Cid.ofBytes e.block = some c) ∧
      ∀ b ∈ pb.payload, ∃ p, Prefix.new H b.prefix_ = some p ∧
        (p.version = .v0 → p.codec = codecDagPb ∧ p.mhType = mhSha256) := by
  simp only [← C41_decoded]
  unfold Message.ofBytes
  cases hd : PbMessage.decode bs with
  | none => simp
  | some pb =>
    simp only [Option.some.injEq, exists_eq_left']
    rw [← addEntries_iff _ {}]
    cases he : addEntries {} (pb.entries.getD []) with
    | none => simp
    | some m => simp [addPayload_iff]

/-- **C41**: what they ask for: a cid is wanted with the priority of the last entry for it that does not cancel,
and cancelled if there is an entry that does. -/
theorem C41_asked (H : Hashes) (bs : Bytes) (m : Message) (h : Message.ofBytes H bs = some m) :
    ∃ pb, IsPb bs pb ∧ (m.want.map Prod.fst).Nodup ∧ m.cancel.Nodup ∧ m.full = false ∧
      (∀ c, AMap.get m.want c = ((entriesOf c false (pb.entries.getD [])).getLast?).map PbEntry.priority) ∧
      ∀ c, c ∈ m.cancel ↔ entriesOf c true (pb.entries.getD []) ≠ [] := by
  unfold Message.ofBytes at h
  split at h
  · cases h
  · next pb hpb =>
    split at h
    · cases h
    · next m0 hm0 =>
      obtain ⟨p1, p2, p3, -⟩ := addPayload_blocks H _ _ _ h
      obtain ⟨a1, a2, a3, -, a5, a6⟩ := addEntries_spec _ _ _ hm0 (by simp) (by simp)
      refine ⟨pb, (C41_decoded bs pb).1 hpb, by rw [p1]; exact a1, by rw [p2]; exact a2, by rw [p3, a3], ?_, ?_⟩
      · intro c
        rw [p1, a5]
        simp [AMap.get]
      · intro c
        rw [p2, a6]
        simp

example : ∃ m, Message.ofBytes exHashes exMsg.toBytes = some m ∧ m.want.length = 2 :=
  ⟨exMsg, C41_roundtrip exHashes exMsg exMsg_ok (by decide +kernel), rfl⟩

/-- **C41**, **C42**: over the wire: the length, not longer than needed and at most 512 KiB, then the message;
whatever follows is not read. A stream that is closed at once is an empty message. -/
theorem C42_framed (H : Hashes) (bs : Bytes) (m : Message) : Message.unframe H bs = some m ↔
    bs = [] ∧ Message.ofBytes H [] = some m ∨
    ∃ ds packet rest, IsVarint 10 ds packet.length ∧ Minimal ds ∧ packet.length ≤ 512 * 1024 ∧
      bs = leb ds ++ packet ++ rest ∧ Message.ofBytes H packet = some m := by
  have hleb : ∀ ds, ds ≠ [] → leb ds ≠ [] := by
    intro ds h hx
    have := congrArg List.length hx
    rw [leb_length] at this
    exact h (List.length_eq_zero_iff.1 this)
  unfold Message.unframe
  by_cases hb : bs = []
  · subst hb
    rw [if_pos rfl]
    constructor
    · intro h; exact .inl ⟨rfl, h⟩
    · rintro (⟨-, h⟩ | ⟨ds, packet, rest, h1, -, -, h4, -⟩)
      · exact h
      · have := congrArg List.length h4
        simp only [List.length_nil, List.length_append] at this
        exact absurd (List.length_eq_zero_iff.1 (by omega)) (hleb ds h1.some)
  · rw [if_neg hb]
    constructor
    · intro h
      cases hr : readMinVarint bs with
      | none => rw [hr] at h; cases h
      | some x =>
        obtain ⟨len, r⟩ := x
        rw [hr] at h
        simp only at h
        split at h
        · cases h
        · next hl =>
          cases ht : takeExact len r with
          | none => rw [ht] at h; cases h
          | some y =>
            obtain ⟨packet, rest⟩ := y
            rw [ht] at h
            obtain ⟨ds, d1, d2, d3⟩ := (readMinVarint_iff _ _ _).1 hr
            obtain ⟨e1, e2⟩ := (takeExact_iff _ _ _ _).1 ht
            unfold maxBufSize at hl
            exact .inr ⟨ds, packet, rest, by rw [e1]; exact d1, d2, by omega, by rw [d3, e2]; simp, h⟩
    · rintro (⟨h, -⟩ | ⟨ds, packet, rest, h1, h2, h3, h4, h5⟩)
      · exact absurd h hb
      · rw [(readMinVarint_iff bs packet.length (packet ++ rest)).2 ⟨ds, h1, h2, by rw [h4]; simp⟩]
        simp only
        rw [if_neg (by unfold maxBufSize; omega), (takeExact_iff _ _ packet rest).2 ⟨rfl, rfl⟩]
        exact h5

example : Message.unframe exHashes [] = some {} ∧ Message.unframe exHashes [0x80, 0] = none ∧
    Message.unframe exHashes [2, 0x30, 7, 99] = some {} := by decide +kernel

end Verif.Props
