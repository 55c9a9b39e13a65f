import Verif.Ipld.DagJson
import Verif.Props.JsonWrite
import Verif.Props.FsPaths

/-!
# C65: dag-json
-/

namespace Verif.Props

open Verif Verif.Ipld

/-! ### Specification -/

mutual
/-- `P` holds of a document and of all documents inside it. -/
def Everywhere (P : Ipld → Prop) : Ipld → Prop
  | .list l => P (.list l) ∧ EverywhereList P l
  | .map m => P (.map m) ∧ EverywhereMap P m
  | d => P d

def EverywhereList (P : Ipld → Prop) : List Ipld → Prop
  | [] => True
  | x :: l => Everywhere P x ∧ EverywhereList P l

def EverywhereMap (P : Ipld → Prop) : List (Bytes × Ipld) → Prop
  | [] => True
  | (_, x) :: m => Everywhere P x ∧ EverywhereMap P m
end

mutual
/-- How many lists, maps, links and byte strings are inside each other. -/
def levels : Ipld → Nat
  | .list l => levelsList l + 1
  | .map m => levelsMap m + 1
  | .link _ => 1
  | .bytes _ => 1
  | _ => 0

def levelsList : List Ipld → Nat
  | [] => 0
  | x :: l => max (levels x) (levelsList l)

def levelsMap : List (Bytes × Ipld) → Nat
  | [] => 0
  | (_, x) :: m => max (levels x) (levelsMap m)
end

/-- A number: the eleven bits after the sign, the exponent, are not all set. -/
def RealFloat (x : UInt64) : Prop := ¬ ∃ sign exponent fraction, sign < 2 ∧ exponent = 2047 ∧ fraction < 2 ^ 52 ∧
  x.toNat = sign * 2 ^ 63 + exponent * 2 ^ 52 + fraction

theorem isFinite_iff (x : UInt64) : isFinite x = true ↔ RealFloat x := by
  have hx := x.toNat_lt
  unfold isFinite RealFloat
  generalize x.toNat = n at *
  simp only [decide_eq_true_eq, ne_eq]
  constructor
  · rintro h ⟨s, e, f, h1, rfl, h3, h4⟩
    omega
  · intro h h'
    exact h ⟨n / 2 ^ 63, 2047, n % 2 ^ 52, by omega, rfl, by omega, by omega⟩

instance (x : UInt64) : Decidable (RealFloat x) := decidable_of_iff _ (isFinite_iff x)

/-- What the code can rely on: cids are well-formed, and floats are written as numbers with a fraction or an
exponent. -/
def SoundLeaf (f : Floats) : Ipld → Prop
  | .link c => c.Valid
  | .float x => RealFloat x → JNumber (f.text x) ∧ (f.text x).tail ≠ []
  | _ => True

/-- What dag-json can represent. -/
def JsonSafe (f : Floats) : Ipld → Prop
  | .bytes _ => False
  | .int i => -(2 ^ 63) ≤ i ∧ i < 2 ^ 64
  | .float x => RealFloat x ∧ f.value (f.text x) = some x
  | .map [(k, .str _)] => k ≠ "/".toUTF8.toList
  | _ => True

/-- A number that is handed out as an integer. -/
inductive IsInteger : JNum → Int → Prop
  | nat {v : Nat} : v < 2 ^ 64 → IsInteger ⟨false, decimal v, []⟩ v
  | neg {v : Nat} : 0 < v → v ≤ 2 ^ 63 → IsInteger ⟨true, decimal v, []⟩ (-(v : Int))

mutual
/-- The document a JSON value stands for. -/
inductive Means (f : Floats) : Json → Ipld → Prop
  | null : Means f .null .null
  | bool {b : Bool} : Means f (.bool b) (.bool b)
  | int {n : JNum} {i : Int} : IsInteger n i → Means f (.num n) (.int i)
  | float {n : JNum} {x : UInt64} : (∀ i, ¬ IsInteger n i) → f.value n = some x → Means f (.num n) (.float x)
  | str {s : Bytes} : Means f (.str s) (.str s)
  | list {l : List Json} {xs : List Ipld} : MeansList f l xs → Means f (.arr l) (.list xs)
  | link {t bs : Bytes} {c : Cid} : unbase64 t = some bs → Cid.ofBytes bs = some c →
      Means f (.obj [("/".toUTF8.toList, .str t)]) (.link c)
  | map {m : List (Bytes × Json)} {es r : List (Bytes × Ipld)} : MeansMap f m es →
      (∀ t, m ≠ [("/".toUTF8.toList, .str t)]) → BMap.Sorted r → (∀ k, AMap.get r k = AMap.get es.reverse k) →
      Means f (.obj m) (.map r)

inductive MeansList (f : Floats) : List Json → List Ipld → Prop
  | nil : MeansList f [] []
  | cons {j : Json} {l : List Json} {x : Ipld} {xs : List Ipld} : Means f j x → MeansList f l xs →
      MeansList f (j :: l) (x :: xs)

inductive MeansMap (f : Floats) : List (Bytes × Json) → List (Bytes × Ipld) → Prop
  | nil : MeansMap f [] []
  | cons {k : Bytes} {j : Json} {m : List (Bytes × Json)} {x : Ipld} {es : List (Bytes × Ipld)} : Means f j x →
      MeansMap f m es → MeansMap f ((k, j) :: m) ((k, x) :: es)
end

/-! ### Numbers -/

theorem decimal_digits (n : Nat) : ∃ ds, digitVals (decimal n) = some ds ∧ ofDigits 10 ds = n := by
  unfold decimal
  split
  · rename_i h; subst h; exact ⟨[0], by decide, by decide⟩
  · exact ⟨digits 10 n, digitVals_map _ (digits_lt n), ofDigits_digits (by decide) n⟩

theorem ofInt_value (i : Int) : (JNum.ofInt i).intValue = if -(2 ^ 63) ≤ i ∧ i < 2 ^ 64 then some i else none := by
  obtain ⟨ds, h1, h2⟩ := decimal_digits i.natAbs
  unfold JNum.intValue JNum.ofInt
  simp only [ne_eq, not_true_eq_false, if_false, h1, h2]
  by_cases hi : i < 0
  · simp only [hi, decide_true, if_true]
    by_cases hr : -(2 ^ 63) ≤ i
    · rw [if_pos (by omega), if_pos (by omega)]
      congr 1; omega
    · rw [if_neg (by omega), if_neg (by omega)]
  · simp only [hi, decide_false, Bool.false_eq_true, if_false]
    by_cases hr : i < 2 ^ 64
    · rw [if_pos (by omega), if_pos (by omega)]
      congr 1; omega
    · rw [if_neg (by omega), if_neg (by omega)]

theorem decimal_jdigits (n : Nat) : JDigits (decimal n) ∧ ((decimal n).head? = some 48 → decimal n = [48]) := by
  unfold decimal
  split
  · refine ⟨⟨by simp, ?_⟩, fun _ => rfl⟩
    intro c hc
    simp only [List.mem_cons, List.not_mem_nil, or_false] at hc
    subst hc; decide
  · rename_i h0
    have hlt := digits_lt (b := 10) n
    refine ⟨⟨?_, ?_⟩, ?_⟩
    · intro h
      have hd : digits 10 n = [] := by simpa using h
      have := ofDigits_digits (b := 10) (by decide) n
      rw [hd] at this
      exact h0 this.symm
    · intro c hc
      simp only [List.mem_map] at hc
      obtain ⟨d, hd, rfl⟩ := hc
      have := hlt d hd
      unfold JDigit
      simp only [UInt8.toNat_ofNat']
      omega
    · intro h
      exfalso
      cases hd : digits 10 n with
      | nil => rw [hd] at h; cases h
      | cons d ds =>
        rw [hd] at h
        simp only [List.map_cons, List.head?_cons, Option.some.injEq] at h
        have := digits_head (b := 10) (by decide) n d ds hd
        have h10 : d < 10 := hlt d (by rw [hd]; simp)
        have := congrArg UInt8.toNat h
        simp [UInt8.toNat_ofNat'] at this
        omega

theorem ofInt_number (i : Int) : JNumber (JNum.ofInt i) :=
  ⟨(decimal_jdigits _).1, (decimal_jdigits _).2, .plain .none⟩

/-- The digits of a number are the decimal text of their value. -/
theorem digits_decimal {ds : Bytes} (h : JDigits ds) (hz : ds.head? = some 48 → ds = [48]) :
    ∃ vs, digitVals ds = some vs ∧ ds = decimal (ofDigits 10 vs) := by
  have hv : ∀ ds : Bytes, (∀ c ∈ ds, JDigit c) → ∃ vs, digitVals ds = some vs ∧ (∀ v ∈ vs, v < 10) ∧
      ds = vs.map (fun d => UInt8.ofNat (d + 48)) := by
    intro ds
    induction ds with
    | nil => intro _; exact ⟨[], rfl, by simp, rfl⟩
    | cons c ds ih =>
      intro h
      obtain ⟨vs, h1, h2, h3⟩ := ih (fun x hx => h x (by simp [hx]))
      obtain ⟨hc1, hc2⟩ := h c (by simp)
      refine ⟨(c.toNat - 48) :: vs, ?_, ?_, ?_⟩
      · simp only [digitVals, digitVal, h1]
        rw [if_pos ⟨hc1, hc2⟩]
      · intro v hv
        rcases List.mem_cons.mp hv with rfl | hv
        · omega
        · exact h2 v hv
      · rw [List.map_cons, ← h3]
        congr 1
        rw [← UInt8.toNat_inj]; simp only [UInt8.toNat_ofNat']; omega
  obtain ⟨hne, hall⟩ := h
  obtain ⟨vs, h1, h2, h3⟩ := hv ds hall
  refine ⟨vs, h1, ?_⟩
  cases hvs : vs with
  | nil => rw [hvs] at h3; exact absurd h3 hne
  | cons v rest =>
    by_cases h0 : v = 0
    · have : ds = [48] := hz (by rw [h3, hvs, h0]; rfl)
      have hr : rest = [] := by
        rw [this, hvs] at h3
        simp only [List.map_cons, List.cons.injEq] at h3
        simpa using h3.2.symm
      rw [this, h0, hr]; decide
    · have hd := digits_ofDigits (b := 10) (by decide) vs h2
      have hlz : leadingZeros vs = 0 := by rw [hvs]; simp [leadingZeros, h0]
      rw [hlz, List.replicate_zero, List.nil_append] at hd
      rw [← hvs]
      unfold decimal
      rw [if_neg, hd]
      · exact h3
      · intro h
        rw [h, hvs] at hd
        simp [digits] at hd

theorem isInteger_iff {n : JNum} (hn : JNumber n) (i : Int) : n.intValue = some i ↔ IsInteger n i := by
  obtain ⟨vs, h1, h2⟩ := digits_decimal hn.1 hn.2.1
  obtain ⟨neg, int, tail⟩ := n
  simp only at h1 h2
  constructor
  · intro h
    unfold JNum.intValue at h
    simp only [h1] at h
    split at h
    · cases h
    · rename_i ht
      have ht : tail = [] := by simpa using ht
      subst ht
      cases neg with
      | true =>
        simp only [if_true] at h
        split at h
        · rename_i hv
          cases h
          rw [h2]
          exact .neg (by omega) hv.2
        · cases h
      | false =>
        simp only [Bool.false_eq_true, if_false] at h
        split at h
        · rename_i hv
          cases h
          rw [h2]
          exact .nat hv
        · cases h
  · intro h
    cases h with
    | @nat v hv =>
      obtain ⟨ds, e1, e2⟩ := decimal_digits v
      simp [JNum.intValue, e1, e2, hv]
    | @neg v hv hv' =>
      obtain ⟨ds, e1, e2⟩ := decimal_digits v
      simp [JNum.intValue, e1, e2, hv', Nat.pos_iff_ne_zero.mp hv]

/-! ### What is written is read -/

theorem everywhereList_iff (P : Ipld → Prop) (l : List Ipld) : EverywhereList P l ↔ ∀ x ∈ l, Everywhere P x := by
  induction l with
  | nil => simp [EverywhereList]
  | cons x l ih => simp [EverywhereList, ih]

theorem everywhereMap_iff (P : Ipld → Prop) (m : List (Bytes × Ipld)) :
    EverywhereMap P m ↔ ∀ e ∈ m, Everywhere P e.2 := by
  induction m with
  | nil => simp [EverywhereMap]
  | cons x m ih => obtain ⟨k, x⟩ := x; simp [EverywhereMap, ih]

theorem toJsonList_map (f : Floats) (l : List Ipld) : toJsonList f l = l.map (toJson f) := by
  induction l with
  | nil => rfl
  | cons x l ih => simp [toJsonList, ih]

theorem toJsonMap_map (f : Floats) (m : List (Bytes × Ipld)) :
    toJsonMap f m = m.map (fun e => (e.1, toJson f e.2)) := by
  induction m with
  | nil => rfl
  | cons x m ih => obtain ⟨k, x⟩ := x; simp [toJsonMap, ih]

theorem writableMap_iff (m : List (Bytes × Json)) :
    WritableMap m ↔ ∀ e ∈ m, utf8Ok e.1 = true ∧ Writable e.2 := by
  induction m with
  | nil => simp [WritableMap]
  | cons x m ih => obtain ⟨k, x⟩ := x; simp [WritableMap, ih, and_assoc]

theorem base64_utf8 (bs : Bytes) : utf8Ok (base64 bs) = true :=
  utf8Ok_ascii (fun c hc => by
    have := (base64_plain bs c hc).1.2
    rw [UInt8.lt_iff_toNat_lt]; exact this)

theorem writable_toJson (f : Floats) (d : Ipld) : d.WF → Everywhere (SoundLeaf f) d → Writable (toJson f d) := by
  refine Ipld.ind (P := fun d => d.WF → Everywhere (SoundLeaf f) d → Writable (toJson f d))
    ?_ ?_ ?_ ?_ ?_ ?_ ?_ ?_ ?_ d
  · intro _ _; simp [toJson, Writable]
  · intro b _ _; simp [toJson, Writable]
  · intro i _ _; simp only [toJson, Writable]; exact ofInt_number i
  · intro x _ h
    simp only [toJson]
    split
    · rename_i hx; exact (h ((isFinite_iff x).mp hx)).1
    · trivial
  · intro s h _; exact h
  · intro b _ _
    simp only [toJson, Writable, writableList_iff, List.mem_map]
    rintro j ⟨c, _, rfl⟩
    exact ofInt_number _
  · intro c _ _
    simp only [toJson, Writable, WritableMap]
    exact ⟨by decide, base64_utf8 _, trivial⟩
  · intro l ih hw hs
    simp only [toJson, Writable, writableList_iff, toJsonList_map, List.mem_map]
    rintro j ⟨x, hx, rfl⟩
    exact ih x hx ((WFList_iff l).mp hw x hx) ((everywhereList_iff _ l).mp hs.2 x hx)
  · intro m ih hw hs
    simp only [toJson, Writable, writableMap_iff, toJsonMap_map, List.mem_map]
    rintro j ⟨x, hx, rfl⟩
    have h := (WFMap_iff m).mp hw.2 x hx
    exact ⟨h.1, ih x hx h.2 ((everywhereMap_iff _ m).mp hs.2 x hx)⟩

theorem nesting_bytes (b : Bytes) : nestingList (b.map (fun c => .num (JNum.ofInt c.toNat))) = 0 := by
  induction b with
  | nil => rfl
  | cons c b ih => simp [nestingList, ih, nesting]

theorem nesting_toJson (f : Floats) (d : Ipld) : nesting (toJson f d) = levels d := by
  refine Ipld.ind (P := fun d => nesting (toJson f d) = levels d) ?_ ?_ ?_ ?_ ?_ ?_ ?_ ?_ ?_ d
  · rfl
  · intro b; rfl
  · intro i; rfl
  · intro x
    simp only [toJson]
    split <;> rfl
  · intro s; rfl
  · intro b
    simp only [toJson, nesting, nesting_bytes, levels]
  · intro c; rfl
  · intro l ih
    simp only [toJson, nesting, levels, Nat.add_right_cancel_iff]
    induction l with
    | nil => rfl
    | cons x l ih' =>
      simp only [toJsonList, nestingList, levelsList, ih x (by simp), ih' (fun y hy => ih y (by simp [hy]))]
  · intro m ih
    simp only [toJson, nesting, levels, Nat.add_right_cancel_iff]
    induction m with
    | nil => rfl
    | cons x m ih' =>
      obtain ⟨k, x⟩ := x
      simp only [toJsonMap, nestingMap, levelsMap, ih (k, x) (by simp), ih' (fun y hy => ih y (by simp [hy]))]

theorem fromJsonList_forall (f : Floats) (l : List Json) (xs : List Ipld) :
    fromJsonList f l = some xs ↔ l.map (fromJson f) = xs.map some := by
  induction l generalizing xs with
  | nil => cases xs <;> simp [fromJsonList]
  | cons j l ih =>
    rw [fromJsonList]
    cases xs with
    | nil =>
      constructor
      · intro h; split at h <;> cases h
      · intro h; cases h
    | cons x xs =>
      simp only [List.map_cons, List.cons.injEq, ← ih]
      constructor
      · intro h
        split at h
        · rename_i h1 h2; cases h; exact ⟨h1, h2⟩
        · cases h
      · rintro ⟨h1, h2⟩; simp [h1, h2]

theorem fromJsonMap_forall (f : Floats) (m : List (Bytes × Json)) (es : List (Bytes × Ipld)) :
    fromJsonMap f m = some es ↔
      m.map (fun e => (e.1, fromJson f e.2)) = es.map (fun e => (e.1, some e.2)) := by
  induction m generalizing es with
  | nil => cases es <;> simp [fromJsonMap]
  | cons j m ih =>
    obtain ⟨k, j⟩ := j
    rw [fromJsonMap]
    cases es with
    | nil =>
      constructor
      · intro h; split at h <;> cases h
      · intro h; cases h
    | cons x es =>
      obtain ⟨k', x⟩ := x
      simp only [List.map_cons, List.cons.injEq, ← ih, Prod.mk.injEq]
      constructor
      · intro h
        split at h
        · rename_i h1 h2; cases h; exact ⟨⟨rfl, h1⟩, h2⟩
        · cases h
      · rintro ⟨⟨rfl, h1⟩, h2⟩; simp [h1, h2]

/-- A list with the keys of a sorted map is sorted. -/
theorem sorted_of_keys {α β : Type} {m : List (Bytes × α)} {es : List (Bytes × β)}
    (h : es.map Prod.fst = m.map Prod.fst) (hm : BMap.Sorted m) : BMap.Sorted es := by
  unfold BMap.Sorted at *
  have h1 : (m.map Prod.fst).Pairwise (fun a b => blt a b = true) := List.pairwise_map.mpr hm
  rw [← h] at h1
  exact List.pairwise_map.mp h1

/-- The map of a list of entries which is no link. -/
theorem finishMap_map {es : List (Bytes × Ipld)} (h : ∀ v, es ≠ [(linkKey, .str v)]) :
    finishMap es = some (.map (es.foldl (fun m e => BMap.insert m e.1 e.2) [])) := by
  unfold finishMap
  split
  · rename_i k v
    rw [if_neg]
    · rfl
    · rintro rfl; exact h v rfl
  · rfl

theorem finishMap_link (v : Bytes) (r : List (Bytes × Ipld)) : finishMap [(linkKey, .str v)] ≠ some (.map r) := by
  unfold finishMap
  simp only [if_true]
  split
  · simp
  · split <;> simp

theorem slash_key : "/".toUTF8.toList = linkKey := by decide +kernel

theorem jsonSafe_map (f : Floats) (m : List (Bytes × Ipld)) :
    JsonSafe f (.map m) ↔ ∀ v, m ≠ [(linkKey, .str v)] := by
  rw [JsonSafe.eq_def]
  split
  · rename_i h; cases h
  · rename_i h; cases h
  · rename_i h; cases h
  · rename_i k v h
    cases h
    rw [slash_key]
    constructor
    · intro h v' e; cases e; exact h rfl
    · rintro h rfl; exact h v rfl
  · rename_i h
    refine ⟨fun _ v e => ?_, fun _ => trivial⟩
    subst e
    exact h _ _ rfl

theorem fromJson_toJson (f : Floats) (d : Ipld) : d.WF → Everywhere (SoundLeaf f) d →
    (fromJson f (toJson f d) = some d ↔ Everywhere (JsonSafe f) d) := by
  refine Ipld.ind (P := fun d => d.WF → Everywhere (SoundLeaf f) d →
    (fromJson f (toJson f d) = some d ↔ Everywhere (JsonSafe f) d)) ?_ ?_ ?_ ?_ ?_ ?_ ?_ ?_ ?_ d
  · intro _ _; simp [toJson, fromJson, Everywhere, JsonSafe]
  · intro b _ _; simp [toJson, fromJson, Everywhere, JsonSafe]
  · intro i _ _
    simp only [toJson, fromJson, Everywhere, JsonSafe, ofInt_value]
    by_cases h : -(2 ^ 63) ≤ i ∧ i < 2 ^ 64
    · rw [if_pos h]; simp only [h, and_self]
    · rw [if_neg h]
      simp only [h, iff_false]
      split <;> simp
  · intro x _ hs
    simp only [toJson, Everywhere, JsonSafe, ← isFinite_iff]
    by_cases h : isFinite x = true
    · obtain ⟨h1, h2⟩ := hs ((isFinite_iff x).mp h)
      rw [if_pos h]
      have : (f.text x).intValue = none := by unfold JNum.intValue; rw [if_pos h2]
      simp only [fromJson, this, h, true_and]
      split
      · rename_i y hy; rw [hy]; simp
      · rename_i hy; rw [hy]; simp
    · rw [if_neg h]
      simp [fromJson, h]
  · intro s _ _; simp [toJson, fromJson, Everywhere, JsonSafe]
  · intro b _ _
    simp only [toJson, fromJson, Everywhere, JsonSafe, iff_false]
    split <;> simp
  · intro c _ hs
    have hc : c.Valid := hs
    simp [toJson, fromJson, fromJsonMap, finishMap, unbase64_base64, Cid.ofBytes_toBytes c hc, Everywhere, JsonSafe]
  · intro l ih hw hs
    have hsl := (everywhereList_iff _ l).mp hs.2
    have hwl := (WFList_iff l).mp hw
    have key : fromJson f (toJson f (.list l)) = some (.list l) ↔ fromJsonList f (toJsonList f l) = some l := by
      simp only [toJson, fromJson]
      constructor
      · intro h
        split at h
        · rename_i e; cases h; exact e
        · cases h
      · intro h; simp [h]
    rw [key, fromJsonList_forall, toJsonList_map, List.map_map]
    simp only [Everywhere, JsonSafe, true_and, everywhereList_iff]
    rw [List.map_inj_left]
    constructor
    · intro h x hx; exact (ih x hx (hwl x hx) (hsl x hx)).mp (h x hx)
    · intro h x hx; exact (ih x hx (hwl x hx) (hsl x hx)).mpr (h x hx)
  · intro m ih hw hs
    have hsm := (everywhereMap_iff _ m).mp hs.2
    have hwm := (WFMap_iff m).mp hw.2
    have key : fromJson f (toJson f (.map m)) = some (.map m) ↔
        (fromJsonMap f (toJsonMap f m) = some m ∧ ∀ v, m ≠ [(linkKey, .str v)]) := by
      simp only [toJson, fromJson]
      constructor
      · intro h
        split at h
        · rename_i es e
          have hk : es.map Prod.fst = m.map Prod.fst := by
            have := congrArg (List.map Prod.fst) ((fromJsonMap_forall f _ _).mp e)
            rw [toJsonMap_map, List.map_map, List.map_map, List.map_map] at this
            exact this.symm
          by_cases hl : ∀ v, es ≠ [(linkKey, .str v)]
          · rw [finishMap_map hl, BMap.foldl_insert (sorted_of_keys hk hw.1) (List.Perm.refl es)] at h
            cases h
            exact ⟨e, hl⟩
          · exfalso
            obtain ⟨v, hv⟩ := Classical.not_forall.mp hl
            rw [Classical.not_not.mp hv] at h
            exact finishMap_link v m h
        · cases h
      · rintro ⟨h, hl⟩
        rw [h]
        simp only
        rw [finishMap_map hl, BMap.foldl_insert hw.1 (List.Perm.refl m)]
    rw [key, fromJsonMap_forall, toJsonMap_map, List.map_map, ← jsonSafe_map f]
    simp only [Everywhere, everywhereMap_iff]
    rw [List.map_inj_left, and_comm]
    refine and_congr Iff.rfl ?_
    constructor
    · intro h x hx
      exact (ih x hx (hwm x hx).2 (hsm x hx)).mp (Prod.mk.inj (h x hx)).2
    · intro h x hx
      simp only [Function.comp, (ih x hx (hwm x hx).2 (hsm x hx)).mpr (h x hx)]

/-- **C65.** A document is read back from its dag-json exactly if no byte strings, no other floats and no other
integers are in it, no map in it looks like a link, and not too much is nested. -/
theorem C65_exact (f : Floats) (d : Ipld) (hw : d.WF) (hs : Everywhere (SoundLeaf f) d) :
    jsonDecode f (jsonEncode f d) = some d ↔ Everywhere (JsonSafe f) d ∧ levels d ≤ 127 := by
  have hr := C65_write (toJson f d) (writable_toJson f d hw hs) [] (by
    cases toJson f d <;> simp [EndsHere])
  rw [List.append_nil] at hr
  unfold jsonDecode jsonEncode
  rw [hr, nesting_toJson]
  by_cases h : levels d ≤ 127
  · rw [if_pos h]; simp only [h, and_true]; exact fromJson_toJson f d hw hs
  · rw [if_neg h]; simp [h]

/-! ### What is read -/

theorem jtext_writable {d : Nat} {j : Json} {t : Bytes} (h : JText d j t) : Writable j := by
  refine JText.rec
    (motive_1 := fun _ j _ _ => Writable j)
    (motive_2 := fun _ l _ _ => WritableList l)
    (motive_3 := fun _ l _ _ => WritableList l)
    (motive_4 := fun _ l _ _ => WritableMap l)
    (motive_5 := fun _ l _ _ => WritableMap l)
    ?_ ?_ ?_ ?_ ?_ ?_ ?_ ?_ ?_ ?_ ?_ ?_ ?_ ?_ ?_ h
  all_goals intros
  all_goals simp only [Writable, WritableList, WritableMap]
  all_goals simp [*]

/-- The map of a list of entries: the last entry with a key counts. -/
theorem foldl_last (es : List (Bytes × Ipld)) :
    BMap.Sorted (es.foldl (fun m e => BMap.insert m e.1 e.2) []) ∧
      ∀ k, AMap.get (es.foldl (fun m e => BMap.insert m e.1 e.2) []) k = AMap.get es.reverse k := by
  suffices H : ∀ l : List (Bytes × Ipld), BMap.Sorted (l.foldr (fun e m => BMap.insert m e.1 e.2) []) ∧
      ∀ k, AMap.get (l.foldr (fun e m => BMap.insert m e.1 e.2) []) k = AMap.get l k by
    have := H es.reverse
    rw [List.foldr_reverse] at this
    exact this
  intro l
  induction l with
  | nil => exact ⟨List.Pairwise.nil, fun _ => rfl⟩
  | cons e l ih =>
    obtain ⟨k', x⟩ := e
    refine ⟨ih.1.insert _ _, fun k => ?_⟩
    rw [List.foldr_cons, BMap.get_insert, ih.2 k]
    simp only [AMap.get]
    by_cases h : k = k'
    · simp [h]
    · simp [h, Ne.symm h]

theorem fromJson_str {f : Floats} {j : Json} {v : Bytes} : fromJson f j = some (.str v) ↔ j = .str v := by
  constructor
  · intro h
    cases j with
    | null => cases h
    | bool b => cases h
    | num n =>
      rw [fromJson] at h
      split at h
      · cases h
      · split at h <;> cases h
    | str s => rw [fromJson] at h; cases h; rfl
    | arr l => rw [fromJson] at h; split at h <;> cases h
    | obj m =>
      rw [fromJson] at h
      split at h
      · rename_i es _
        exfalso
        unfold finishMap at h
        split at h
        · split at h
          · split at h
            · cases h
            · split at h <;> cases h
          · cases h
        · cases h
      · cases h
  · rintro rfl; rfl

theorem means_iff (f : Floats) (j : Json) : Writable j → ∀ d, fromJson f j = some d ↔ Means f j d := by
  refine Json.ind (P := fun j => Writable j → ∀ d, fromJson f j = some d ↔ Means f j d) ?_ ?_ ?_ ?_ ?_ ?_ j
  · intro _ d
    constructor
    · intro h; cases h; exact .null
    · intro h; cases h; rfl
  · intro b _ d
    constructor
    · intro h; cases h; exact .bool
    · intro h; cases h; rfl
  · intro n hn d
    have hn : JNumber n := hn
    rw [fromJson]
    constructor
    · intro h
      split at h
      · rename_i i hi
        cases h
        exact .int ((isInteger_iff hn i).mp hi)
      · rename_i hi
        split at h
        · rename_i x hx
          cases h
          refine .float (fun i h => ?_) hx
          rw [(isInteger_iff hn i).mpr h] at hi
          cases hi
        · cases h
    · intro h
      cases h with
      | int hi => rw [(isInteger_iff hn _).mpr hi]
      | float hi hx =>
        cases hv : n.intValue with
        | some i => exact absurd ((isInteger_iff hn i).mp hv) (hi i)
        | none => simp [hx]
  · intro s _ d
    constructor
    · intro h; rw [fromJson] at h; cases h; exact .str
    · intro h; cases h; rfl
  · intro l ih hw d
    have hl : ∀ xs, fromJsonList f l = some xs ↔ MeansList f l xs := by
      have hw : WritableList l := hw
      clear d
      induction l with
      | nil =>
        intro xs
        constructor
        · intro h; cases h; exact .nil
        · intro h; cases h; rfl
      | cons j l ih' =>
        intro xs
        have h1 := ih j (by simp) hw.1
        have h2 := ih' (fun x hx => ih x (by simp [hx])) hw.2 hw.2
        rw [fromJsonList]
        constructor
        · intro h
          split at h
          · rename_i e1 e2
            cases h
            exact .cons ((h1 _).mp e1) ((h2 _).mp e2)
          · cases h
        · intro h
          cases h with
          | cons e1 e2 => simp [(h1 _).mpr e1, (h2 _).mpr e2]
    rw [fromJson]
    constructor
    · intro h
      split at h
      · rename_i xs e; cases h; exact .list ((hl _).mp e)
      · cases h
    · intro h
      cases h with
      | list e => rw [(hl _).mpr e]
  · intro m ih hw d
    have hm : ∀ es, fromJsonMap f m = some es ↔ MeansMap f m es := by
      have hw : WritableMap m := hw
      clear d
      induction m with
      | nil =>
        intro xs
        constructor
        · intro h; cases h; exact .nil
        · intro h; cases h; rfl
      | cons j m ih' =>
        obtain ⟨k, j⟩ := j
        intro es
        have h1 := ih (k, j) (by simp) hw.2.1
        have h2 := ih' (fun x hx => ih x (by simp [hx])) hw.2.2 hw.2.2
        rw [fromJsonMap]
        constructor
        · intro h
          split at h
          · rename_i e1 e2
            cases h
            exact .cons ((h1 _).mp e1) ((h2 _).mp e2)
          · cases h
        · intro h
          cases h with
          | cons e1 e2 => simp [(h1 _).mpr e1, (h2 _).mpr e2]
    have hlink : ∀ es, fromJsonMap f m = some es → ∀ t, es = [(linkKey, .str t)] ↔ m = [(linkKey, .str t)] := by
      intro es he t
      constructor
      · rintro rfl
        rw [fromJsonMap_forall] at he
        cases m with
        | nil => cases he
        | cons e m =>
          obtain ⟨k, j⟩ := e
          simp only [List.map_cons, List.map_nil, List.cons.injEq, List.map_eq_nil_iff, Prod.mk.injEq] at he
          obtain ⟨⟨rfl, h2⟩, rfl⟩ := he
          rw [fromJson_str.mp h2]
      · rintro rfl
        simp only [fromJsonMap, fromJson, Option.some.injEq] at he
        exact he.symm
    rw [fromJson]
    constructor
    · intro h
      split at h
      · rename_i es e
        by_cases hl : ∀ v, es ≠ [(linkKey, .str v)]
        · rw [finishMap_map hl] at h
          cases h
          refine .map ((hm _).mp e) (fun t ht => ?_) (foldl_last es).1 (foldl_last es).2
          rw [slash_key] at ht
          exact hl t ((hlink es e t).mpr ht)
        · obtain ⟨v, hv⟩ := Classical.not_forall.mp hl
          have hv := Classical.not_not.mp hv
          rw [(hlink es e v).mp hv]
          rw [hv] at h
          simp only [finishMap, if_true] at h
          split at h
          · cases h
          · rename_i bs hb
            split at h
            · rename_i c hc
              cases h
              exact slash_key ▸ Means.link hb hc
            · cases h
      · cases h
    · intro h
      generalize hj : Json.obj m = j' at h
      cases h with
      | link hb hc =>
        cases hj
        rw [slash_key]
        simp [fromJsonMap, fromJson, finishMap, hb, hc]
      | map h1 h2 h3 h4 =>
        cases hj
        rename_i es r
        have he := (hm es).mpr h1
        rw [he]
        simp only
        rw [finishMap_map (fun v hv => h2 v (by rw [slash_key]; exact (hlink es he v).mp hv))]
        congr 2
        exact BMap.Sorted.ext (foldl_last es).1 h3 (fun k => by rw [(foldl_last es).2, h4])
      | _ => cases hj

/-- **C65.** A byte string is decoded to a document exactly if it begins, after white space, with a JSON text for a
value which stands for the document; what follows the value does not matter. -/
theorem C65_decode (f : Floats) (s : Bytes) (d : Ipld) :
    jsonDecode f s = some d ↔ ∃ j w t rest, JWs w ∧ JText 127 j t ∧ s = w ++ (t ++ rest) ∧ EndsHere j rest ∧
      Means f j d := by
  unfold jsonDecode
  constructor
  · intro h
    split at h
    · rename_i j rest e
      obtain ⟨w, t, h1, h2, h3, h4⟩ := (C65_read s j rest).mp e
      exact ⟨j, w, t, rest, h1, h2, h3, h4, (means_iff f j (jtext_writable h2) d).mp h⟩
    · cases h
  · rintro ⟨j, w, t, rest, h1, h2, h3, h4, h5⟩
    rw [(C65_read s j rest).mpr ⟨w, t, h1, h2, h3, h4⟩]
    exact (means_iff f j (jtext_writable h2) d).mpr h5

/-! ### Consequences -/

/-- A value that does not end where the text ends: only numbers can be continued. -/
theorem endsHere_of {f : Floats} {d : Ipld} (hi : ∀ i, d ≠ .int i) (hf : ∀ x, d ≠ .float x) (rest : Bytes) :
    EndsHere (toJson f d) rest := by
  cases d with
  | int i => exact absurd rfl (hi i)
  | float x => exact absurd rfl (hf x)
  | _ => simp [toJson, EndsHere]

/-- **C65.** Whatever follows a document, unless it is a number, is ignored. -/
theorem C65_trailing (f : Floats) (d : Ipld) (hw : d.WF) (hs : Everywhere (SoundLeaf f) d) (hi : ∀ i, d ≠ .int i)
    (hf : ∀ x, d ≠ .float x) (rest : Bytes) :
    jsonDecode f (jsonEncode f d ++ rest) = jsonDecode f (jsonEncode f d) := by
  have h1 := C65_write (toJson f d) (writable_toJson f d hw hs) rest (endsHere_of hi hf rest)
  have h2 := C65_write (toJson f d) (writable_toJson f d hw hs) [] (endsHere_of hi hf [])
  rw [List.append_nil] at h2
  unfold jsonDecode jsonEncode
  rw [h1, h2]
  by_cases h : nesting (toJson f d) ≤ 127
  · rw [if_pos h, if_pos h]
  · rw [if_neg h, if_neg h]

/-- **C65.** Byte strings are decoded as lists of numbers. -/
theorem C65_bytes (f : Floats) (b : Bytes) :
    jsonDecode f (jsonEncode f (.bytes b)) = some (.list (b.map (fun c => .int c.toNat))) := by
  have hr := C65_write (toJson f (.bytes b)) (writable_toJson f (.bytes b) trivial trivial) [] (by
    simp [toJson, EndsHere])
  rw [List.append_nil, nesting_toJson, if_pos (by simp [levels])] at hr
  unfold jsonDecode jsonEncode
  rw [hr]
  simp only [toJson, fromJson]
  have : fromJsonList f (b.map (fun c => .num (JNum.ofInt c.toNat))) = some (b.map (fun c => .int c.toNat)) := by
    rw [fromJsonList_forall, List.map_map, List.map_map, List.map_inj_left]
    intro c _
    have hc := c.toNat_lt
    simp only [Function.comp, fromJson, ofInt_value]
    rw [if_pos (by omega)]
  rw [this]

/-- **C65.** What is infinite or not a number is decoded as null. -/
theorem C65_not_finite (f : Floats) (x : UInt64) (h : ¬ RealFloat x) :
    jsonDecode f (jsonEncode f (.float x)) = some .null := by
  rw [← isFinite_iff, Bool.not_eq_true] at h
  unfold jsonDecode jsonEncode
  simp only [toJson, h, Bool.false_eq_true, if_false]
  have : readJson (Json.write .null) = some (.null, []) := by
    simpa [nesting] using C65_write .null trivial [] (by simp [EndsHere])
  rw [this]
  rfl

/-- **C65.** A link and a map with the link's text are encoded alike. -/
theorem C65_link_lookalike (f : Floats) (c : Cid) :
    jsonEncode f (.map [("/".toUTF8.toList, .str (base64 c.toBytes))]) = jsonEncode f (.link c) := by
  rw [slash_key]; rfl

/-- **C65.** Documents which can be represented are encoded differently. -/
theorem C65_injective (f : Floats) (d d' : Ipld) (hw : d.WF) (hw' : d'.WF) (hs : Everywhere (SoundLeaf f) d)
    (hs' : Everywhere (SoundLeaf f) d') (hj : Everywhere (JsonSafe f) d) (hj' : Everywhere (JsonSafe f) d')
    (h : jsonEncode f d = jsonEncode f d') : d = d' := by
  have e : ∀ j : Json, EndsHere j [] := fun j => by cases j <;> simp [EndsHere]
  have key : ∀ d : Ipld, d.WF → Everywhere (SoundLeaf f) d → ∀ n, levels d ≤ n → ∀ fuel,
      2 * (jsonEncode f d).length + 1 ≤ fuel → readVal fuel n (jsonEncode f d) = some (toJson f d, []) := by
    intro d hw hs n hn fuel hf
    have := read_complete (jtext_write _ n (writable_toJson f d hw hs) (by rw [nesting_toJson]; exact hn)) [] []
      fuel jws_nil (e _) (by simpa [jsonEncode] using hf)
    simpa [jsonEncode] using this
  have h1 := key d hw hs (max (levels d) (levels d')) (by omega) _ (Nat.le_refl _)
  have h2 := key d' hw' hs' (max (levels d) (levels d')) (by omega) _ (Nat.le_refl _)
  rw [h, h2] at h1
  simp only [Option.some.injEq, Prod.mk.injEq, and_true] at h1
  have f1 := (fromJson_toJson f d hw hs).mpr hj
  have f2 := (fromJson_toJson f d' hw' hs').mpr hj'
  rw [← h1, f2] at f1
  exact (Option.some.inj f1).symm

/-- Lists inside lists. -/
def nested : Nat → Ipld
  | 0 => .list []
  | n + 1 => .list [nested n]

/-- **C65.** Lists nested in lists can be encoded to any depth, but are only decoded up to depth 127. -/
theorem C65_deep (f : Floats) (n : Nat) :
    jsonDecode f (jsonEncode f (nested n)) = if n < 127 then some (nested n) else none := by
  have hw : ∀ n, (nested n).WF := by
    intro n
    induction n with
    | zero => trivial
    | succ n ih => exact ⟨ih, trivial⟩
  have hs : ∀ n, Everywhere (SoundLeaf f) (nested n) := by
    intro n
    induction n with
    | zero => exact ⟨trivial, trivial⟩
    | succ n ih => exact ⟨trivial, ih, trivial⟩
  have hj : ∀ n, Everywhere (JsonSafe f) (nested n) := by
    intro n
    induction n with
    | zero => exact ⟨trivial, trivial⟩
    | succ n ih => exact ⟨trivial, ih, trivial⟩
  have hl : ∀ n, levels (nested n) = n + 1 := by
    intro n
    induction n with
    | zero => rfl
    | succ n ih => simp [nested, levels, levelsList, ih]
  split
  · rename_i hn
    exact (C65_exact f _ (hw n) (hs n)).mpr ⟨hj n, by rw [hl]; omega⟩
  · rename_i hn
    have e : ∀ j : Json, EndsHere j [] := fun j => by cases j <;> simp [EndsHere]
    have hr := C65_write (toJson f (nested n)) (writable_toJson f _ (hw n) (hs n)) [] (e _)
    rw [List.append_nil, nesting_toJson, hl, if_neg (by omega)] at hr
    unfold jsonDecode jsonEncode
    rw [hr]

/-! ### Examples -/

/-- Floats all written `0.5`. -/
def exFloats : Floats := ⟨fun _ => ⟨false, [48], [46, 53]⟩, fun _ => some 0x3fe0000000000000⟩

/-- `{"a":[1,-2,0.5],"b":null}` -/
def exJsonDoc : Ipld :=
  .map [([97], .list [.int 1, .int (-2), .float 0x3fe0000000000000]), ([98], .null)]

example : jsonEncode exFloats exJsonDoc = "{\"a\":[1,-2,0.5],\"b\":null}".toUTF8.toList := by decide +kernel

example : exJsonDoc.WF := by
  refine ⟨?_, by decide, ?_, by decide, trivial, trivial⟩
  · unfold BMap.Sorted; simp; decide
  · exact ⟨trivial, trivial, trivial, trivial⟩

example : jsonDecode exFloats (jsonEncode exFloats exJsonDoc) = some exJsonDoc := by decide +kernel

example : Everywhere (JsonSafe exFloats) exJsonDoc ∧ levels exJsonDoc = 2 := by
  simp [exJsonDoc, Everywhere, EverywhereMap, EverywhereList, JsonSafe, levels, levelsMap, levelsList]
  decide

/-- Integers that do not fit come back as floats, the last of equal keys counts, and a map with the key `/` is
unreadable. -/
example : jsonDecode exFloats (jsonEncode exFloats (.int (2 ^ 64))) = some (.float 0x3fe0000000000000) := by
  decide +kernel

example : jsonDecode exFloats " {\"a\":1,\"a\" : 2}x".toUTF8.toList = some (.map [([97], .int 2)]) := by
  decide +kernel

example : jsonDecode exFloats (jsonEncode exFloats (.map [([47], .str [120])])) = none := by decide +kernel

end Verif.Props
