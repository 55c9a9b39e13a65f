import Verif.Props.DagCbor

/-!
# C22: dag-cbor encoding is canonical
-/

namespace Verif.Props

open Verif Verif.Ipld

/-! ### Shortest heads -/

/-- The ways CBOR (RFC 8949, section 3) has to write a number below 2^64 with a major type. -/
inductive IsHead (major n : Nat) : Bytes → Prop where
  | imm : n < 24 → IsHead major n [UInt8.ofNat (major * 32 + n)]
  | one (b : Bytes) : b.length = 1 → beVal b = n → IsHead major n (UInt8.ofNat (major * 32 + 24) :: b)
  | two (b : Bytes) : b.length = 2 → beVal b = n → IsHead major n (UInt8.ofNat (major * 32 + 25) :: b)
  | four (b : Bytes) : b.length = 4 → beVal b = n → IsHead major n (UInt8.ofNat (major * 32 + 26) :: b)
  | eight (b : Bytes) : b.length = 8 → beVal b = n → IsHead major n (UInt8.ofNat (major * 32 + 27) :: b)

theorem beVal_lt (b : Bytes) : beVal b < 256 ^ b.length := by
  have key : ∀ (b : Bytes) a, b.foldl (fun a b => a * 256 + b.toNat) a < (a + 1) * 256 ^ b.length := by
    intro b
    induction b with
    | nil => intro a; simp
    | cons x b ih =>
      intro a
      simp only [List.foldl_cons, List.length_cons]
      have h1 := ih (a * 256 + x.toNat)
      have hx := x.toNat_lt
      refine Nat.lt_of_lt_of_le h1 ?_
      rw [Nat.pow_succ, Nat.mul_comm (256 ^ b.length) 256, ← Nat.mul_assoc]
      refine Nat.mul_le_mul_right _ ?_
      omega
  simpa [beVal] using key b 0

/-- **C22**: integers and lengths are written with the shortest of the possible heads. -/
theorem C22_shortest_head (major n : Nat) (h : n < 2 ^ 64) :
    IsHead major n (head major n) ∧ ∀ bs, IsHead major n bs → (head major n).length ≤ bs.length := by
  constructor
  · unfold head
    split
    · exact .imm (by omega)
    · split
      · exact .one _ (beBytes_length _ _) (beVal_beBytes _ _ (by omega))
      · split
        · exact .two _ (beBytes_length _ _) (beVal_beBytes _ _ (by omega))
        · split
          · exact .four _ (beBytes_length _ _) (beVal_beBytes _ _ (by omega))
          · exact .eight _ (beBytes_length _ _) (beVal_beBytes _ _ (by omega))
  · intro bs hb
    have hl : (head major n).length = if n ≤ 0x17 then 1 else if n ≤ 0xFF then 2
        else if n ≤ 0xFFFF then 3 else if n ≤ 0xFFFFFFFF then 5 else 9 := by
      unfold head
      repeat' split
      all_goals simp [beBytes_length]
    rw [hl]
    cases hb with
    | imm h1 => rw [if_pos (by omega)]; simp
    | one b h1 h2 =>
      have := beVal_lt b
      rw [h1, h2] at this
      simp only [List.length_cons, h1]
      split
      · omega
      · rw [if_pos (by omega)]; omega
    | two b h1 h2 =>
      have := beVal_lt b
      rw [h1, h2] at this
      simp only [List.length_cons, h1]
      split
      · omega
      · split
        · omega
        · rw [if_pos (by omega)]; omega
    | four b h1 h2 =>
      have := beVal_lt b
      rw [h1, h2] at this
      simp only [List.length_cons, h1]
      split
      · omega
      · split
        · omega
        · split
          · omega
          · rw [if_pos (by omega)]; omega
    | eight b h1 h2 =>
      simp only [List.length_cons, h1]
      repeat' split
      all_goals omega

/-! ### Sorted keys -/

/-- **C22**: the encoding of a map is its head followed by its entries, each once, in the order of
their keys: shorter first, those of the same length bytewise. -/
theorem C22_sorted_entries (m : List (Bytes × Ipld)) (hs : BMap.Sorted m) (bs : Bytes)
    (h : enc (.map m) = some bs) :
    ∃ es : List (Bytes × Bytes),
      bs = head 5 m.length ++ es.flatMap (fun e => head 3 e.1.length ++ e.1 ++ e.2) ∧
      (es.map (fun e => (e.1, some e.2))).Perm (m.map (fun e => (e.1, enc e.2))) ∧
      es.Pairwise (fun e f => e.1.length < f.1.length ∨ (e.1.length = f.1.length ∧ blt e.1 f.1 = true)) := by
  simp only [enc] at h
  obtain ⟨es, hes, rfl⟩ := Option.map_eq_some_iff.mp h
  have hsp := encMap_spec hes
  refine ⟨sortKeys es, rfl, ?_, ?_⟩
  · rw [hsp]
    exact (sortKeys_perm es).map _
  · have hk : es.map Prod.fst = m.map Prod.fst := by
      have := congrArg (List.map Prod.fst) hsp
      simpa [Function.comp_def] using this.symm
    have := sortKeys_sorted es (by rw [hk]; exact hs.uniq)
    refine this.imp ?_
    intro e f h
    simpa [keyLt] using h

/-! ### Different documents, different bytes -/

mutual
/-- What fits in memory: lengths below 2^64, real cids; and no NaN, which equals nothing. -/
def Real : Ipld → Prop
  | .float x => finite x.toNat = true ∨ x.toNat % 2 ^ 52 = 0
  | .str s => s.length < 2 ^ 64
  | .bytes b => b.length < 2 ^ 64
  | .list l => l.length < 2 ^ 64 ∧ RealList l
  | .map m => m.length < 2 ^ 64 ∧ RealMap m
  | .link c => c.Valid ∧ c.toBytes.length + 1 < 2 ^ 64
  | _ => True

def RealList : List Ipld → Prop
  | [] => True
  | x :: xs => Real x ∧ RealList xs

def RealMap : List (Bytes × Ipld) → Prop
  | [] => True
  | (k, x) :: xs => k.length < 2 ^ 64 ∧ Real x ∧ RealMap xs
end

theorem RealList_iff (l : List Ipld) : RealList l ↔ ∀ x ∈ l, Real x := by
  induction l with
  | nil => simp [RealList]
  | cons x l ih => simp [RealList, ih]

theorem RealMap_iff (m : List (Bytes × Ipld)) :
    RealMap m ↔ ∀ e ∈ m, e.1.length < 2 ^ 64 ∧ Real e.2 := by
  induction m with
  | nil => simp [RealMap]
  | cons x m ih => obtain ⟨k, x⟩ := x; simp [RealMap, ih, and_assoc]

theorem head_inj {major n n' : Nat} {r r' : Bytes} (hm : major < 8) (h : n < 2 ^ 64) (h' : n' < 2 ^ 64)
    (he : head major n ++ r = head major n' ++ r') : n = n' ∧ r = r' := by
  obtain ⟨b, t, h1, _, h3⟩ := head_spec major n hm h
  obtain ⟨b', t', h1', _, h3'⟩ := head_spec major n' hm h'
  rw [h1, h1'] at he
  simp only [List.cons_append, List.cons.injEq] at he
  have e1 := h3 r
  have e2 := h3' r'
  rw [he.1, he.2, e2] at e1
  simp only [Option.some.injEq, Prod.mk.injEq] at e1
  exact ⟨e1.1.symm, e1.2.symm⟩

theorem append_inj_len {a b r s : Bytes} (h : a ++ r = b ++ s) (hl : a.length = b.length) : a = b ∧ r = s :=
  List.append_inj h hl

theorem encStr_inj {a b r s : Bytes} (ha : a.length < 2 ^ 64) (hb : b.length < 2 ^ 64)
    (h : encStr a ++ r = encStr b ++ s) : a = b ∧ r = s := by
  unfold encStr at h
  rw [List.append_assoc, List.append_assoc] at h
  obtain ⟨h1, h2⟩ := head_inj (by decide) ha hb h
  exact append_inj_len h2 h1

theorem beBytes_inj {k n n' : Nat} {r r' : Bytes} (h : n < 256 ^ k) (h' : n' < 256 ^ k)
    (he : beBytes k n ++ r = beBytes k n' ++ r') : n = n' ∧ r = r' := by
  obtain ⟨h1, h2⟩ := append_inj_len he (by rw [beBytes_length, beBytes_length])
  refine ⟨?_, h2⟩
  rw [← beVal_beBytes k n h, h1, beVal_beBytes k n' h']

theorem encFloat_inj {x y : UInt64} {r s : Bytes} (hx : Real (.float x)) (hy : Real (.float y))
    (h : encFloat x.toNat ++ r = encFloat y.toNat ++ s) : x = y ∧ r = s := by
  simp only [Real] at hx hy
  have bx := x.toNat_lt
  have bY := y.toNat_lt
  have fin : ∀ z : UInt64, finite z.toNat = false → z.toNat % 2 ^ 52 = 0 →
      z.toNat = z.toNat / 2 ^ 63 * 2 ^ 63 + 2047 * 2 ^ 52 := by
    intro z h1 h2
    simp only [finite, bne_eq_false_iff_eq] at h1
    have := z.toNat_lt
    omega
  have hN : narrow x.toNat < 256 ^ 4 := narrow_lt bx
  have hN' : narrow y.toNat < 256 ^ 4 := narrow_lt bY
  have key : x.toNat = y.toNat ∧ r = s := by
    unfold encFloat at h
    cases fx : finite x.toNat with
    | true =>
      cases fy : finite y.toNat with
      | true =>
        simp only [fx, fy, if_true] at h
        split at h <;> split at h
        · rename_i h1 h2
          simp only [List.cons_append, List.cons.injEq, true_and] at h
          obtain ⟨h3, h4⟩ := beBytes_inj hN hN' h
          exact ⟨by rw [← h1, ← h2, h3], h4⟩
        · simp only [List.cons_append, List.cons.injEq] at h
          exact absurd h.1 (by decide)
        · simp only [List.cons_append, List.cons.injEq] at h
          exact absurd h.1 (by decide)
        · simp only [List.cons_append, List.cons.injEq, true_and] at h
          exact beBytes_inj bx bY h
      | false =>
        exfalso
        simp only [fx, fy, if_true] at h
        repeat' split at h
        all_goals first | contradiction | (simp at h)
    | false =>
      have x0 : x.toNat % 2 ^ 52 = 0 := by simpa [fx] using hx
      cases fy : finite y.toNat with
      | true =>
        exfalso
        simp only [fx, fy, if_true] at h
        repeat' split at h
        all_goals first | contradiction | (simp at h)
      | false =>
        have y0 : y.toNat % 2 ^ 52 = 0 := by simpa [fy] using hy
        have ex := fin x fx x0
        have ey := fin y fy y0
        simp only [fx, fy, x0, y0, if_true] at h
        split at h
        · rename_i hh; cases hh
        · split at h <;> split at h
          · simp only [List.cons_append, List.nil_append, List.cons.injEq, true_and] at h
            exact ⟨by omega, h⟩
          · simp at h
          · simp at h
          · simp only [List.cons_append, List.nil_append, List.cons.injEq, true_and] at h
            exact ⟨by omega, h⟩
  exact ⟨UInt64.toNat_inj.mp key.1, key.2⟩

/-- Which constructor a document has. -/
def kindOf : Ipld → Nat
  | .int i => if i < 0 then 1 else 0
  | .bytes _ => 2
  | .str _ => 3
  | .list _ => 4
  | .map _ => 5
  | .link _ => 6
  | .bool b => if b then 8 else 7
  | .null => 9
  | .float _ => 10

/-- The same from the first byte. -/
def kindByte (b : UInt8) : Nat :=
  if b.toNat / 32 < 7 then b.toNat / 32
  else if b = 0xF4 then 7 else if b = 0xF5 then 8 else if b = 0xF6 then 9 else 10

theorem kindByte_head {major n : Nat} {b : UInt8} {t r : Bytes} (hm : major < 7) (h : n < 2 ^ 64)
    (he : b :: t = head major n ++ r) : kindByte b = major := by
  obtain ⟨b', t', h1, h2, _⟩ := head_spec major n (by omega) h
  rw [h1] at he
  simp only [List.cons_append, List.cons.injEq] at he
  unfold kindByte
  rw [he.1, h2, if_pos hm]

theorem enc_first {d : Ipld} {bs : Bytes} (hr : Real d) (h : enc d = some bs) :
    ∃ b t, bs = b :: t ∧ kindByte b = kindOf d := by
  have hh : ∀ {major n : Nat} {r : Bytes}, major < 7 → n < 2 ^ 64 → bs = head major n ++ r →
      ∃ b t, bs = b :: t ∧ kindByte b = major := by
    intro major n r hm hn he
    cases bs with
    | nil =>
      have := head_length_pos major n
      have h2 := congrArg List.length he
      simp only [List.length_nil, List.length_append] at h2
      omega
    | cons b t => exact ⟨b, t, rfl, kindByte_head hm hn he⟩
  cases d with
  | null => simp only [enc, Option.some.injEq] at h; subst h; exact ⟨_, _, rfl, rfl⟩
  | bool b => simp only [enc, Option.some.injEq] at h; subst h; cases b <;> exact ⟨_, _, rfl, rfl⟩
  | int i =>
    simp only [enc, encInt] at h
    simp only [kindOf]
    split at h
    · rename_i hi
      rw [if_pos hi]
      split at h
      · rename_i hlt
        simp only [Option.some.injEq] at h
        exact hh (r := []) (by decide) hlt (by rw [← h]; simp)
      · cases h
    · rename_i hi
      rw [if_neg hi]
      split at h
      · rename_i hlt
        simp only [Option.some.injEq] at h
        exact hh (r := []) (by decide) hlt (by rw [← h]; simp)
      · cases h
  | float x =>
    simp only [enc, Option.some.injEq, encFloat] at h
    subst h
    repeat' split
    all_goals exact ⟨_, _, rfl, rfl⟩
  | str s =>
    simp only [enc, Option.some.injEq, encStr] at h
    exact hh (major := 3) (by decide) (by simpa [Real] using hr) h.symm
  | bytes s =>
    simp only [enc, Option.some.injEq] at h
    exact hh (major := 2) (by decide) (by simpa [Real] using hr) h.symm
  | list l =>
    simp only [enc] at h
    obtain ⟨body, _, rfl⟩ := Option.map_eq_some_iff.mp h
    simp only [Real] at hr
    exact hh (major := 4) (by decide) hr.1 rfl
  | map m =>
    simp only [enc] at h
    obtain ⟨body, _, rfl⟩ := Option.map_eq_some_iff.mp h
    simp only [Real] at hr
    exact hh (major := 5) (by decide) hr.1 rfl
  | link c =>
    simp only [enc, Option.some.injEq, encLink, List.append_assoc] at h
    exact hh (major := 6) (n := 42) (by decide) (by decide) h.symm

theorem parts_inj {l l' : List Ipld} {ps ps' : List Bytes} {r r' : Bytes}
    (hp : l.map enc = ps.map some) (hp' : l'.map enc = ps'.map some) (hlen : l.length = l'.length)
    (hinj : ∀ x ∈ l, ∀ y ∈ l', ∀ bs bs' r r', enc x = some bs → enc y = some bs' →
      bs ++ r = bs' ++ r' → x = y ∧ r = r')
    (he : ps.flatten ++ r = ps'.flatten ++ r') : l = l' ∧ r = r' := by
  induction l generalizing l' ps ps' with
  | nil =>
    cases l' with
    | cons y l' => simp at hlen
    | nil =>
      have h1 : ps = [] := by simpa using hp.symm
      have h2 : ps' = [] := by simpa using hp'.symm
      subst h1; subst h2
      exact ⟨rfl, by simpa using he⟩
  | cons x l ih =>
    cases l' with
    | nil => simp at hlen
    | cons y l' =>
      cases ps with
      | nil => simp at hp
      | cons p ps =>
        cases ps' with
        | nil => simp at hp'
        | cons p' ps' =>
          simp only [List.map_cons, List.cons.injEq] at hp hp'
          simp only [List.flatten_cons, List.append_assoc] at he
          obtain ⟨h1, h2⟩ := hinj x (by simp) y (by simp) p p' _ _ hp.1 hp'.1 he
          obtain ⟨h3, h4⟩ := ih hp.2 hp'.2 (by simpa using hlen)
            (fun a ha b hb => hinj a (by simp [ha]) b (by simp [hb])) h2
          exact ⟨by rw [h1, h3], h4⟩

theorem entries_inj {l l' : List (Bytes × Ipld)} {ps ps' : List (Bytes × Bytes)} {r r' : Bytes}
    (hp : l.map (fun e => (e.1, enc e.2)) = ps.map (fun e => (e.1, some e.2)))
    (hp' : l'.map (fun e => (e.1, enc e.2)) = ps'.map (fun e => (e.1, some e.2)))
    (hlen : l.length = l'.length)
    (hk : ∀ e ∈ l, e.1.length < 2 ^ 64) (hk' : ∀ e ∈ l', e.1.length < 2 ^ 64)
    (hinj : ∀ x ∈ l, ∀ y ∈ l', ∀ bs bs' r r', enc x.2 = some bs → enc y.2 = some bs' →
      bs ++ r = bs' ++ r' → x.2 = y.2 ∧ r = r')
    (he : ps.flatMap encEntry ++ r = ps'.flatMap encEntry ++ r') : l = l' ∧ r = r' := by
  induction l generalizing l' ps ps' with
  | nil =>
    cases l' with
    | cons y l' => simp at hlen
    | nil =>
      have h1 : ps = [] := by simpa using hp.symm
      have h2 : ps' = [] := by simpa using hp'.symm
      subst h1; subst h2
      exact ⟨rfl, by simpa using he⟩
  | cons x l ih =>
    cases l' with
    | nil => simp at hlen
    | cons y l' =>
      cases ps with
      | nil => simp at hp
      | cons p ps =>
        cases ps' with
        | nil => simp at hp'
        | cons p' ps' =>
          obtain ⟨k, x⟩ := x
          obtain ⟨k', y⟩ := y
          obtain ⟨q, p⟩ := p
          obtain ⟨q', p'⟩ := p'
          simp only [List.map_cons, List.cons.injEq, Prod.mk.injEq] at hp hp'
          obtain ⟨⟨rfl, hp1⟩, hp2⟩ := hp
          obtain ⟨⟨rfl, hp1'⟩, hp2'⟩ := hp'
          simp only [List.flatMap_cons, List.append_assoc, encEntry] at he
          obtain ⟨h0, h1⟩ := encStr_inj (hk (k, x) (by simp)) (hk' (k', y) (by simp)) he
          obtain ⟨h2, h3⟩ := hinj (k, x) (by simp) (k', y) (by simp) p p' _ _ hp1 hp1' h1
          obtain ⟨h4, h5⟩ := ih hp2 hp2' (by simpa using hlen)
            (fun e he => hk e (by simp [he])) (fun e he => hk' e (by simp [he]))
            (fun a ha b hb => hinj a (by simp [ha]) b (by simp [hb])) h3
          simp only at h0 h2
          exact ⟨by rw [h0, h2, h4], h5⟩

/-- Nothing is a proper prefix of anything else. -/
theorem enc_prefix (d : Ipld) : ∀ (d' : Ipld) (bs bs' r r' : Bytes), d.WF → d'.WF → Real d → Real d' →
    enc d = some bs → enc d' = some bs' → bs ++ r = bs' ++ r' → d = d' ∧ r = r' := by
  have kinds : ∀ {d d' : Ipld} {bs bs' r r' : Bytes}, Real d → Real d' → enc d = some bs →
      enc d' = some bs' → bs ++ r = bs' ++ r' → kindOf d = kindOf d' := by
    intro d d' bs bs' r r' hr hr' h h' he
    obtain ⟨b, t, rfl, h1⟩ := enc_first hr h
    obtain ⟨b', t', rfl, h1'⟩ := enc_first hr' h'
    simp only [List.cons_append, List.cons.injEq] at he
    rw [← h1, ← h1', he.1]
  induction d using Ipld.ind with
  | hnull =>
    intro d' bs bs' r r' hw hw' hr hr' h h' he
    have hk := kinds hr hr' h h' he
    cases d' <;> simp only [kindOf] at hk <;> try (first | omega | (split at hk <;> omega))
    simp only [enc, Option.some.injEq] at h h'
    subst h; subst h'
    exact ⟨rfl, by simpa using he⟩
  | hbool b =>
    intro d' bs bs' r r' hw hw' hr hr' h h' he
    have hk := kinds hr hr' h h' he
    cases d' <;> simp only [kindOf] at hk <;>
      try (first | (split at hk <;> omega) | (split at hk <;> split at hk <;> omega))
    rename_i b'
    have hb : b = b' := by cases b <;> cases b' <;> simp at hk <;> rfl
    subst hb
    rw [h] at h'
    simp only [Option.some.injEq] at h'
    subst h'
    exact ⟨rfl, (append_inj_len he rfl).2⟩
  | hint i =>
    intro d' bs bs' r r' hw hw' hr hr' h h' he
    have hk := kinds hr hr' h h' he
    cases d' <;> simp only [kindOf] at hk <;>
      try (first | (split at hk <;> omega) | (split at hk <;> split at hk <;> omega))
    rename_i i'
    simp only [enc, encInt] at h h'
    by_cases hi : i < 0 <;> by_cases hi' : i' < 0
    · rw [if_pos hi] at h
      rw [if_pos hi'] at h'
      split at h
      · rename_i h1
        split at h'
        · rename_i h2
          simp only [Option.some.injEq] at h h'
          subst h; subst h'
          obtain ⟨h3, h4⟩ := head_inj (by decide) h1 h2 he
          exact ⟨by rw [show i = i' by omega], h4⟩
        · cases h'
      · cases h
    · simp [hi, hi'] at hk
    · simp [hi, hi'] at hk
    · rw [if_neg hi] at h
      rw [if_neg hi'] at h'
      split at h
      · rename_i h1
        split at h'
        · rename_i h2
          simp only [Option.some.injEq] at h h'
          subst h; subst h'
          obtain ⟨h3, h4⟩ := head_inj (by decide) h1 h2 he
          exact ⟨by rw [show i = i' by omega], h4⟩
        · cases h'
      · cases h
  | hfloat x =>
    intro d' bs bs' r r' hw hw' hr hr' h h' he
    have hk := kinds hr hr' h h' he
    cases d' <;> simp only [kindOf] at hk <;> try (first | omega | (split at hk <;> omega))
    simp only [enc, Option.some.injEq] at h h'
    subst h; subst h'
    obtain ⟨h1, h2⟩ := encFloat_inj hr hr' he
    exact ⟨by rw [h1], h2⟩
  | hstr s =>
    intro d' bs bs' r r' hw hw' hr hr' h h' he
    have hk := kinds hr hr' h h' he
    cases d' <;> simp only [kindOf] at hk <;> try (first | omega | (split at hk <;> omega))
    simp only [enc, Option.some.injEq] at h h'
    subst h; subst h'
    simp only [Real] at hr hr'
    obtain ⟨h1, h2⟩ := encStr_inj hr hr' he
    exact ⟨by rw [h1], h2⟩
  | hbytes s =>
    intro d' bs bs' r r' hw hw' hr hr' h h' he
    have hk := kinds hr hr' h h' he
    cases d' <;> simp only [kindOf] at hk <;> try (first | omega | (split at hk <;> omega))
    simp only [enc, Option.some.injEq] at h h'
    subst h; subst h'
    simp only [Real] at hr hr'
    rw [List.append_assoc, List.append_assoc] at he
    obtain ⟨h1, h2⟩ := head_inj (by decide) hr hr' he
    obtain ⟨h3, h4⟩ := append_inj_len h2 h1
    exact ⟨by rw [h3], h4⟩
  | hlink c =>
    intro d' bs bs' r r' hw hw' hr hr' h h' he
    have hk := kinds hr hr' h h' he
    cases d' <;> simp only [kindOf] at hk <;> try (first | omega | (split at hk <;> omega))
    rename_i c'
    simp only [enc, Option.some.injEq] at h h'
    subst h; subst h'
    simp only [Real] at hr hr'
    simp only [encLink, List.append_assoc] at he
    have h0 := (append_inj_len he rfl).2
    obtain ⟨h1, h2⟩ := head_inj (by decide) hr.2 hr'.2 h0
    simp only [List.cons_append, List.cons.injEq, true_and] at h2
    obtain ⟨h3, h4⟩ := append_inj_len h2 (by omega)
    exact ⟨by rw [Cid.toBytes_injective hr.1 hr'.1 h3], h4⟩
  | hlist l ih =>
    intro d' bs bs' r r' hw hw' hr hr' h h' he
    have hk := kinds hr hr' h h' he
    cases d' <;> simp only [kindOf] at hk <;> try (first | omega | (split at hk <;> omega))
    rename_i l'
    simp only [enc] at h h'
    obtain ⟨b, hb, rfl⟩ := Option.map_eq_some_iff.mp h
    obtain ⟨b', hb', rfl⟩ := Option.map_eq_some_iff.mp h'
    obtain ⟨ps, hp, rfl⟩ := encList_spec hb
    obtain ⟨ps', hp', rfl⟩ := encList_spec hb'
    simp only [Real, RealList_iff] at hr hr'
    simp only [Ipld.WF, WFList_iff] at hw hw'
    rw [List.append_assoc, List.append_assoc] at he
    obtain ⟨h1, h2⟩ := head_inj (by decide) hr.1 hr'.1 he
    obtain ⟨h3, h4⟩ := parts_inj hp hp' h1 (fun x hx y hy bs bs' r r' e1 e2 e3 =>
      ih x hx y bs bs' r r' (hw x hx) (hw' y hy) (hr.2 x hx) (hr'.2 y hy) e1 e2 e3) h2
    exact ⟨by rw [h3], h4⟩
  | hmap m ih =>
    intro d' bs bs' r r' hw hw' hr hr' h h' he
    have hk := kinds hr hr' h h' he
    cases d' <;> simp only [kindOf] at hk <;> try (first | omega | (split at hk <;> omega))
    rename_i m'
    simp only [enc] at h h'
    obtain ⟨es, hes, rfl⟩ := Option.map_eq_some_iff.mp h
    obtain ⟨es', hes', rfl⟩ := Option.map_eq_some_iff.mp h'
    simp only [Real, RealMap_iff] at hr hr'
    simp only [Ipld.WF, WFMap_iff] at hw hw'
    rw [List.append_assoc, List.append_assoc] at he
    obtain ⟨h1, h2⟩ := head_inj (by decide) hr.1 hr'.1 he
    have pm := sortKeys_perm m
    have pm' := sortKeys_perm m'
    obtain ⟨h3, h4⟩ := entries_inj (encMap_sorted hes) (encMap_sorted hes')
      (by rw [pm.length_eq, pm'.length_eq, h1])
      (fun e he => (hr.2 e (pm.mem_iff.mp he)).1) (fun e he => (hr'.2 e (pm'.mem_iff.mp he)).1)
      (fun x hx y hy bs bs' r r' e1 e2 e3 =>
        ih x (pm.mem_iff.mp hx) y.2 bs bs' r r' (hw.2 x (pm.mem_iff.mp hx)).2
          (hw'.2 y (pm'.mem_iff.mp hy)).2 (hr.2 x (pm.mem_iff.mp hx)).2 (hr'.2 y (pm'.mem_iff.mp hy)).2
          e1 e2 e3) h2
    refine ⟨?_, h4⟩
    rw [← BMap.foldl_insert hw.1 pm, ← BMap.foldl_insert hw'.1 pm', h3]

/-- **C22, partial**: different documents have different encodings, whatever their size. The full
statement has no hypothesis on floats; it is false for them, see `C22_nan`. -/
theorem C22_injective_partial (d d' : Ipld) (hw : d.WF) (hw' : d'.WF) (hr : Real d) (hr' : Real d') (bs : Bytes)
    (h : enc d = some bs) (h' : enc d' = some bs) : d = d' :=
  (enc_prefix d d' bs bs [] [] hw hw' hr hr' h h' rfl).1

/-- **C22 fails for NaN**: all of them have one encoding. -/
theorem C22_nan : enc (.float 0x7FF8000000000000) = enc (.float 0x7FF8000000000001) := by
  decide +kernel

/-- **C22 fails for zeroes**: `0.0` and `-0.0` are equal for Rust (`Ipld` derives `PartialEq`), and so
are the documents, but their encodings differ. The model tells them apart by their bits. -/
theorem C22_zeroes : enc (.float 0) = some [0xFA, 0, 0, 0, 0] ∧
    enc (.float 0x8000000000000000) = some [0xFA, 0x80, 0, 0, 0] := by
  decide +kernel

/-! ### Examples -/

/-- A document with every kind of value. -/
def exDoc : Ipld := .map
  [("a".toUTF8.toList, .list [.null, .bool true, .int (-5), .int 300, .float 0x3FF8000000000000]),
   ("bb".toUTF8.toList, .bytes [1, 2, 3]),
   ("c".toUTF8.toList, .str "hi".toUTF8.toList),
   ("d".toUTF8.toList, .link ⟨.v0, codecDagPb, mhSha256, List.replicate 32 7⟩),
   ("e".toUTF8.toList, .float 0x3FB999999999999A)]

/-- It is read back, and "bb" is written last. -/
example : (enc exDoc).bind (dec 32) = some exDoc ∧
    ((enc exDoc).map (fun b => b.drop (b.length - 7))) = some (0x62 :: "bb".toUTF8.toList ++ [0x43, 1, 2, 3]) := by
  decide +kernel

/-- It meets the hypotheses of `C22_injective_partial`. -/
example : Real exDoc ∧ exDoc.WF := by
  constructor
  · simp only [exDoc, Real, RealMap, RealList, and_true, true_and]
    decide +kernel
  · simp only [exDoc, Ipld.WF, WFMap, WFList, and_true, true_and, BMap.Sorted]
    decide +kernel

/-- 1.5 takes four bytes, 0.1 eight. -/
example : enc (.float 0x3FF8000000000000) = some [0xFA, 0x3F, 0xC0, 0, 0] ∧
    enc (.float 0x3FB999999999999A) = some [0xFB, 0x3F, 0xB9, 0x99, 0x99, 0x99, 0x99, 0x99, 0x9A] := by
  decide +kernel

/-- A subnormal `f32`. -/
example : widen 1 = 0x36A0000000000000 ∧ narrow 0x36A0000000000000 = 1 := by decide +kernel

/-- Trailing bytes and repeated keys are accepted by the reader: the last value wins. -/
example : dec 32 [0xA2, 0x61, 0x61, 1, 0x61, 0x61, 2, 99] = some (.map [([0x61], .int 2)]) := by
  decide +kernel

end Verif.Props
