import Verif.Ipfs.ListenLemmas

/-!
# C50: requests to listen
-/

namespace Verif.Props

open Verif Verif.Ipfs

/-! ## The specification -/

/-- A component that carries a port. -/
def IsPort (c : Comp) : Prop := ∃ n, c = .tcp n ∨ c = .udp n ∨ c = .sctp n ∨ c = .memory n

/-- The bound component `b` for the requested component `r`: the same, or a port other than 0 of the same
protocol for port 0. -/
def PortBinds (r b : Comp) : Prop :=
  r = b ∨ ∃ n, n ≠ 0 ∧ ((r = .tcp 0 ∧ b = .tcp n) ∨ (r = .udp 0 ∧ b = .udp n) ∨ (r = .sctp 0 ∧ b = .sctp n) ∨
    (r = .memory 0 ∧ b = .memory n))

/-- As many components, each binding its own. -/
inductive PortsBind : Maddr → Maddr → Prop where
  | nil : PortsBind [] []
  | cons (r b rs bs) : PortBinds r b → PortsBind rs bs → PortsBind (r :: rs) (b :: bs)

/-- An ip of the other's family. -/
def SameFamily (r b : Comp) : Prop :=
  (∃ a1 a2 a3 a4 b1 b2 b3 b4, r = .ip4 a1 a2 a3 a4 ∧ b = .ip4 b1 b2 b3 b4) ∨
    ∃ x y, r = .ip6 x ∧ b = .ip6 y

/-- 0.0.0.0 or ::. -/
def AnyIp (c : Comp) : Prop := c = .ip4 0 0 0 0 ∨ ∃ o, c = .ip6 o ∧ ∀ x ∈ o, x = 0

/-- The address `b` is one the request for `r` may be bound to. -/
def Binds (r b : Maddr) : Prop :=
  PortsBind r b ∨
    ∃ i i' r' b', r = i :: r' ∧ b = i' :: b' ∧ AnyIp i ∧ SameFamily i i' ∧ PortsBind r' b'

/-- No port is 0. -/
def Real0 (a : Maddr) : Prop :=
  ∀ c ∈ a, c ≠ .tcp 0 ∧ c ≠ .udp 0 ∧ c ≠ .sctp 0 ∧ c ≠ .memory 0

/-- At most one component carries a port. -/
def OnePort (a : Maddr) : Prop :=
  ∀ (i j : Nat) c d, a[i]? = some c → a[j]? = some d → IsPort c → IsPort d → i = j

/-- Addresses requested in a history, and reported in it. -/
def Requested (es : List ListenEv) (a : Maddr) : Prop := ∃ ret res, ListenEv.add a ret res ∈ es
def Noticed (es : List ListenEv) (a : Maddr) : Prop := ∃ by' order, ListenEv.bound a by' order ∈ es

/-- The orders are orders of iteration of the map they are applied to. -/
def Iterates (es : List ListenEv) : Prop :=
  ∀ a by' order, ListenEv.bound a by' order ∈ es → ∀ m, (order m).Perm m

/-- The channel of a request. -/
def chanOf : ListenEv → List Nat
  | .add _ (some ch) _ => [ch]
  | _ => []

/-- The listener the swarm created for a request. -/
def idOf : ListenEv → List Nat
  | .add _ _ (some id) => [id]
  | _ => []

/-- The channels an answer was sent on. -/
def answeredOn : ListenOut → List Nat
  | .answer ch _ => [ch]
  | _ => []

/-- Every request has its own channel; the swarm does not use a `ListenerId` twice. -/
def Chans (es : List ListenEv) : Prop := (es.flatMap chanOf).Nodup
def Ids (es : List ListenEv) : Prop := (es.flatMap idOf).Nodup

/-! ## Comparing addresses -/

theorem boundComp_true {r b : Comp} (h : boundComp r b = some true) : PortBinds r b := by
  unfold boundComp at h
  unfold PortBinds
  split at h <;> (try split at h) <;> simp_all

theorem boundComp_of {r b : Comp} (h : PortBinds r b) (hr : Real0 [b]) : boundComp r b = some true := by
  simp only [Real0, List.mem_singleton, forall_eq] at hr
  unfold PortBinds at h
  rcases h with rfl | ⟨n, hn, h | h | h | h⟩
  · unfold boundComp
    split <;> simp_all
  all_goals (obtain ⟨rfl, rfl⟩ := h; simp [boundComp, hn])

theorem boundComp_ne_none {r b : Comp} (hr : Real0 [b]) : boundComp r b ≠ none := by
  simp only [Real0, List.mem_singleton, forall_eq] at hr
  unfold boundComp
  split <;> simp_all

theorem portBinds_size {r b : Comp} (h : PortBinds r b) : r.size = b.size := by
  rcases h with rfl | ⟨n, hn, h | h | h | h⟩
  · rfl
  all_goals (obtain ⟨rfl, rfl⟩ := h; rfl)

theorem real0_cons {c : Comp} {a : Maddr} : Real0 (c :: a) ↔ Real0 [c] ∧ Real0 a := by
  simp [Real0]

theorem writeVarint_pos (n : Nat) : 0 < (writeVarint n).length := by
  unfold writeVarint; split <;> simp

theorem size_pos (c : Comp) : 0 < c.size := by
  have := writeVarint_pos
  cases c <;> simp only [Comp.size] <;> try omega
  rename_i code d
  have := this code
  omega

theorem boundAll_true {bound may : Maddr} (h : boundAll bound may = some true)
    (hl : bound.length = may.length) : PortsBind may bound := by
  induction bound generalizing may with
  | nil => cases may with
    | nil => exact .nil
    | cons r may => simp at hl
  | cons b bound ih => cases may with
    | nil => simp at hl
    | cons r may =>
      simp only [boundAll] at h
      split at h
      · simp at h
      · simp at h
      · rename_i h1
        exact .cons _ _ _ _ (boundComp_true h1) (ih h (by simpa using hl))

/-- Equal numbers of bytes suffice for equal numbers of components, if all are compared. -/
theorem boundAll_len {bound may : Maddr} (h : boundAll bound may = some true)
    (hl : Maddr.byteLen bound = Maddr.byteLen may) : bound.length = may.length := by
  induction bound generalizing may with
  | nil => cases may with
    | nil => rfl
    | cons r may =>
      have := size_pos r
      simp [Maddr.byteLen] at hl; omega
  | cons b bound ih => cases may with
    | nil =>
      have := size_pos b
      simp [Maddr.byteLen] at hl; omega
    | cons r may =>
      simp only [boundAll] at h
      split at h
      · simp at h
      · simp at h
      · rename_i h1
        have hs := portBinds_size (boundComp_true h1)
        simp only [Maddr.byteLen, List.map_cons, List.sum_cons] at hl
        simp only [List.length_cons, Nat.add_right_cancel_iff]
        exact ih h (by simp only [Maddr.byteLen]; omega)

theorem couldBeBound_zero {bound may : Maddr} (h : couldBeBound 0 bound may = some true) :
    PortsBind may bound := by
  unfold couldBeBound at h
  split at h
  · simp at h
  · rename_i hl
    simp only [List.drop_zero] at h
    exact boundAll_true h (boundAll_len h (by simpa using hl))

theorem boundAll_of {bound may : Maddr} (h : PortsBind may bound) (hr : Real0 bound) :
    boundAll bound may = some true ∧ Maddr.byteLen bound = Maddr.byteLen may := by
  induction h with
  | nil => exact ⟨rfl, rfl⟩
  | cons r b rs bs h1 _ ih =>
    rw [real0_cons] at hr
    obtain ⟨i1, i2⟩ := ih hr.2
    constructor
    · simp only [boundAll, boundComp_of h1 hr.1, i1]
    · simp only [Maddr.byteLen, List.map_cons, List.sum_cons] at i2 ⊢
      rw [i2, portBinds_size h1]

theorem couldBeBound_of {bound may : Maddr} (h : PortsBind may bound) (hr : Real0 bound) :
    couldBeBound 0 bound may = some true := by
  obtain ⟨h1, h2⟩ := boundAll_of h hr
  simp [couldBeBound, h1, h2]

theorem boundAll_ne_none {bound may : Maddr} (hr : Real0 bound) : boundAll bound may ≠ none := by
  induction bound generalizing may with
  | nil => simp [boundAll]
  | cons b bound ih => cases may with
    | nil => simp [boundAll]
    | cons r may =>
      rw [real0_cons] at hr
      simp only [boundAll]
      split
      · rename_i h; exact absurd h (boundComp_ne_none hr.1)
      · simp
      · exact ih hr.2

theorem couldBeBound_ne_none {skip : Nat} {bound may : Maddr} (hr : Real0 bound) :
    couldBeBound skip bound may ≠ none := by
  unfold couldBeBound
  split
  · simp
  · refine boundAll_ne_none ?_
    intro c hc
    exact hr c (List.mem_of_mem_drop hc)

theorem portsBind_refl (a : Maddr) : PortsBind a a := by
  induction a with
  | nil => exact .nil
  | cons c a ih => exact .cons _ _ _ _ (.inl rfl) ih

theorem portsBind_get {r b : Maddr} (h : PortsBind r b) :
    r.length = b.length ∧ ∀ (i : Nat) c d, r[i]? = some c → b[i]? = some d → PortBinds c d := by
  induction h with
  | nil => simp
  | cons x y rs bs h1 _ ih =>
    refine ⟨by simp [ih.1], ?_⟩
    intro i c d hc hd
    cases i with
    | zero =>
      simp only [List.getElem?_cons_zero, Option.some.injEq] at hc hd
      subst hc hd; exact h1
    | succ i =>
      simp only [List.getElem?_cons_succ] at hc hd
      exact ih.2 i c d hc hd

theorem portBinds_port {r b : Comp} (h : PortBinds r b) (hn : r ≠ b) : IsPort r ∧ IsPort b := by
  rcases h with rfl | ⟨n, -, h | h | h | h⟩
  · exact absurd rfl hn
  all_goals (obtain ⟨rfl, rfl⟩ := h; simp [IsPort])

theorem portBinds_same {r r' b : Comp} (h : PortBinds r b) (h' : PortBinds r' b) (hn : r ≠ b) (hn' : r' ≠ b) :
    r = r' := by
  rcases h with rfl | ⟨n, -, h | h | h | h⟩
  · exact absurd rfl hn
  all_goals
    obtain ⟨rfl, rfl⟩ := h
    rcases h' with rfl | ⟨n', -, h' | h' | h' | h'⟩
    · exact absurd rfl hn'
    all_goals simp_all

theorem portBinds_isPort {r b : Comp} (h : PortBinds r b) (hp : IsPort b) : IsPort r := by
  rcases h with rfl | ⟨n, -, h | h | h | h⟩
  · exact hp
  all_goals (obtain ⟨rfl, rfl⟩ := h; simp [IsPort])

theorem real0_binds_eq {r b : Maddr} (h : PortsBind r b) (hr : Real0 r) : r = b := by
  induction h with
  | nil => rfl
  | cons x y rs bs h1 _ ih =>
    rw [real0_cons] at hr
    rw [ih hr.2]
    rcases h1 with rfl | ⟨n, -, h | h | h | h⟩
    · rfl
    all_goals (obtain ⟨rfl, rfl⟩ := h; simp [Real0] at hr)

/-- Two different requests with one port each cannot both be bound to the same third address. -/
theorem onePort_unique {r r' b : Maddr} (h : PortsBind r b) (h' : PortsBind r' b) (ho : OnePort r)
    (hn : r ≠ b) (hn' : r' ≠ b) : r = r' := by
  obtain ⟨hl, hg⟩ := portsBind_get h
  obtain ⟨hl', hg'⟩ := portsBind_get h'
  -- the places where they differ from `b`
  have diff : ∀ {x : Maddr}, x.length = b.length → x ≠ b → ∃ (i : Nat) (c d : Comp), x[i]? = some c ∧ b[i]? = some d ∧ c ≠ d := by
    intro x hx hne
    apply Classical.byContradiction
    intro hno
    apply hne
    apply List.ext_getElem? 
    intro i
    cases hxi : x[i]? with
    | none =>
      rw [List.getElem?_eq_none_iff] at hxi
      rw [eq_comm, List.getElem?_eq_none_iff]; omega
    | some c =>
      have hi : i < b.length := by
        have := (List.getElem?_eq_some_iff.mp hxi).1; omega
      have hbi : b[i]? = some b[i] := List.getElem?_eq_getElem hi
      rw [hbi]
      apply Classical.byContradiction
      intro hcd
      exact hno ⟨i, c, b[i], hxi, hbi, fun e => hcd (by rw [e])⟩
  obtain ⟨i, c, d, hc, hd, hcd⟩ := diff hl hn
  obtain ⟨j, c', d', hc', hd', hcd'⟩ := diff hl' hn'
  have hcb := hg i c d hc hd
  have hcb' := hg' j c' d' hc' hd'
  -- position `j` is a port of `r` too
  have hjr : ∃ cj, r[j]? = some cj := by
    have := (List.getElem?_eq_some_iff.mp hd').1
    exact ⟨r[j]'(by omega), List.getElem?_eq_getElem (by omega)⟩
  obtain ⟨cj, hcj⟩ := hjr
  have hij : i = j :=
    ho i j c cj hc hcj (portBinds_port hcb hcd).1
      (portBinds_isPort (hg j cj d' hcj hd') (portBinds_port hcb' hcd').2)
  subst hij
  rw [hd] at hd'
  simp only [Option.some.injEq] at hd'
  subst hd'
  apply List.ext_getElem?
  intro k
  by_cases hk : k = i
  · subst hk
    rw [hc, hc', portBinds_same hcb hcb' hcd hcd']
  · -- elsewhere `r` is `b`, and so is `r'`
    cases hrk : r[k]? with
    | none =>
      rw [List.getElem?_eq_none_iff] at hrk
      rw [eq_comm, List.getElem?_eq_none_iff]; omega
    | some x =>
      have hlen := (List.getElem?_eq_some_iff.mp hrk).1
      have hbk : b[k]? = some (b[k]'(by omega)) := List.getElem?_eq_getElem (by omega)
      have hrk' : r'[k]? = some (r'[k]'(by omega)) := List.getElem?_eq_getElem (by omega)
      have e1 : x = b[k]'(by omega) := by
        apply Classical.byContradiction
        intro hne
        exact hk (ho k i x c hrk hc (portBinds_port (hg k _ _ hrk hbk) hne).1 (portBinds_port hcb hcd).1)
      have e2 : r'[k]'(by omega) = b[k]'(by omega) := by
        apply Classical.byContradiction
        intro hne
        have hp := (portBinds_port (hg' k _ _ hrk' hbk) hne).2
        exact hk (ho k i x c hrk hc (portBinds_isPort (hg k _ _ hrk hbk) hp) (portBinds_port hcb hcd).1)
      rw [hrk', e1, e2]

/-! ## Invariants of histories -/

/-- Weights of an entry: waiting for the channel, of the listener. -/
def fCh (ch : Nat) (e : LEntry) : Nat := if e.pending = some ch then 1 else 0
def fId (i : Nat) (e : LEntry) : Nat := if e.id = i then 1 else 0

structure LInv (es : List ListenEv) (s : ListenState) (outs : List ListenOut) : Prop where
  uniq : AMap.Uniq s.map
  chans : ∀ ch, AMap.wsum (fCh ch) s.map + (outs.flatMap answeredOn).count ch ≤ (es.flatMap chanOf).count ch
  ids : ∀ i, AMap.wsum (fId i) s.map ≤ (es.flatMap idOf).count i
  waits : ∀ k e, AMap.get s.map k = some e → e.pending.isSome = true →
    ListenEv.add k e.pending (some e.id) ∈ es
  keys : ∀ k e, AMap.get s.map k = some e → Requested es k ∨ Noticed es k
  alive : Ids es → ∀ k e, AMap.get s.map k = some e → e.id ∈ s.alive ∨ ListenEv.closed e.id ∈ es

theorem requested_snoc {es : List ListenEv} {a : Maddr} (e : ListenEv) (h : Requested es a) :
    Requested (es ++ [e]) a := by
  obtain ⟨r, q, h⟩ := h
  exact ⟨r, q, by simp [h]⟩

theorem noticed_snoc {es : List ListenEv} {a : Maddr} (e : ListenEv) (h : Noticed es a) :
    Noticed (es ++ [e]) a := by
  obtain ⟨r, q, h⟩ := h
  exact ⟨r, q, by simp [h]⟩

theorem keys_snoc {es : List ListenEv} {a : Maddr} (e : ListenEv) (h : Requested es a ∨ Noticed es a) :
    Requested (es ++ [e]) a ∨ Noticed (es ++ [e]) a :=
  h.elim (fun h => .inl (requested_snoc e h)) (fun h => .inr (noticed_snoc e h))

theorem answered_tell (ret : Option Nat) (a : ListenAns) (ch : Nat) :
    ((tell ret a).flatMap answeredOn).count ch = if ret = some ch then 1 else 0 := by
  cases ret with
  | none => rfl
  | some c =>
    simp only [tell, List.flatMap_cons, List.flatMap_nil, List.append_nil, answeredOn,
      List.count_singleton, Option.some.injEq]
    by_cases h : c = ch <;> simp [h]

theorem count_snoc {α : Type} (f : α → List Nat) (es : List α) (e : α) (i : Nat) :
    ((es ++ [e]).flatMap f).count i = (es.flatMap f).count i + (f e).count i := by
  simp [List.count_append]

theorem chanOf_add (a : Maddr) (ret res : Option Nat) (ch : Nat) :
    (chanOf (.add a ret res)).count ch = if ret = some ch then 1 else 0 := by
  cases ret with
  | none => rfl
  | some c =>
    simp only [chanOf, List.count_singleton, Option.some.injEq]
    by_cases h : c = ch <;> simp [h]

theorem linv_init : LInv [] .init [] :=
  ⟨AMap.uniq_nil, by simp [ListenState.init, AMap.wsum], by simp [ListenState.init, AMap.wsum],
    by simp [ListenState.init, AMap.get], by simp [ListenState.init, AMap.get], by simp [ListenState.init, AMap.get]⟩

theorem ids_snoc {es : List ListenEv} {e : ListenEv} (h : Ids (es ++ [e])) : Ids es := by
  unfold Ids at *
  rw [List.flatMap_append] at h
  exact (List.nodup_append.mp h).1

theorem count_le_one {l : List Nat} (h : l.Nodup) (i : Nat) : l.count i ≤ 1 := List.nodup_iff_count.mp h i

/-- An event that leaves the map as it is. -/
theorem linv_same {es : List ListenEv} {s : ListenState} {outs : List ListenOut} (h : LInv es s outs)
    (e : ListenEv) (o : List ListenOut)
    (hc : ∀ ch, (o.flatMap answeredOn).count ch ≤ (chanOf e).count ch) : LInv (es ++ [e]) s (outs ++ o) where
  uniq := h.uniq
  chans ch := by
    rw [count_snoc, List.flatMap_append, List.count_append]
    have := h.chans ch; have := hc ch; omega
  ids i := by rw [count_snoc]; have := h.ids i; omega
  waits k x hk hp := by simp [h.waits k x hk hp]
  keys k x hk := keys_snoc e (h.keys k x hk)
  alive hi k x hk := (h.alive (ids_snoc hi) k x hk).imp id (by intro h; simp [h])

theorem linv_rebind {es : List ListenEv} {s : ListenState} {outs : List ListenOut} (h : LInv es s outs)
    (addr : Maddr) (by' : Nat) (order : AMap Maddr LEntry → AMap Maddr LEntry) (k : Maddr) (e : LEntry)
    (hn : AMap.get s.map addr = none) (hk : AMap.get s.map k = some e) :
    LInv (es ++ [.bound addr by' order])
      { s with map := AMap.set (AMap.erase s.map k) addr ⟨e.id, none⟩ } (outs ++ tell e.pending (.ok addr)) := by
  have hne : k ≠ addr := by rintro rfl; rw [hn] at hk; simp at hk
  have hn2 : AMap.get (AMap.erase s.map k) addr = none := by rw [AMap.get_erase_ne _ (Ne.symm hne)]; exact hn
  have hget : ∀ k' x, AMap.get (AMap.set (AMap.erase s.map k) addr ⟨e.id, none⟩) k' = some x →
      (k' = addr ∧ x = ⟨e.id, none⟩) ∨ (k' ≠ addr ∧ AMap.get s.map k' = some x) := by
    intro k' x hx
    rw [AMap.get_set] at hx
    split at hx
    · rename_i hk'; simp only [Option.some.injEq] at hx; exact .inl ⟨hk', hx.symm⟩
    · rename_i hk'
      rw [AMap.get_erase] at hx
      split at hx
      · simp at hx
      · exact .inr ⟨hk', hx⟩
  refine ⟨(h.uniq.erase k).set _ _, ?_, ?_, ?_, ?_, ?_⟩
  · intro ch
    simp only []
    rw [count_snoc, List.flatMap_append, List.count_append, AMap.wsum_set_absent _ _ hn2, answered_tell]
    have h1 := h.chans ch
    have h2 := AMap.wsum_erase (f := fCh ch) h.uniq hk
    have h3 : fCh ch ⟨e.id, none⟩ = 0 := by simp [fCh]
    have h4 : fCh ch e = if e.pending = some ch then 1 else 0 := rfl
    omega
  · intro i
    simp only []
    rw [count_snoc, AMap.wsum_set_absent _ _ hn2]
    have h1 := h.ids i
    have h2 := AMap.wsum_erase (f := fId i) h.uniq hk
    have h3 : fId i ⟨e.id, none⟩ = fId i e := rfl
    omega
  · intro k' x hx hp
    rcases hget k' x hx with ⟨-, rfl⟩ | ⟨-, hx⟩
    · simp at hp
    · simp [h.waits k' x hx hp]
  · intro k' x hx
    rcases hget k' x hx with ⟨rfl, -⟩ | ⟨-, hx⟩
    · exact .inr ⟨by', order, by simp⟩
    · exact keys_snoc _ (h.keys k' x hx)
  · intro hi k' x hx
    rcases hget k' x hx with ⟨-, rfl⟩ | ⟨-, hx⟩
    · exact (h.alive (ids_snoc hi) k e hk).imp id (by intro h; simp [h])
    · exact (h.alive (ids_snoc hi) k' x hx).imp id (by intro h; simp [h])

theorem linv_step {es : List ListenEv} {s s' : ListenState} {outs o : List ListenOut} (h : LInv es s outs)
    (e : ListenEv) (hs : s.step e = .ok (s', o)) : LInv (es ++ [e]) s' (outs ++ o) := by
  cases e with
  | add addr ret res =>
    simp only [ListenState.step, Except.ok.injEq] at hs
    unfold startAdd at hs
    have refuse : ∀ a : ListenAns, LInv (es ++ [.add addr ret res]) s (outs ++ tell ret a) := by
      intro a
      apply linv_same h
      intro ch
      rw [answered_tell, chanOf_add]
      exact Nat.le_refl _
    split at hs
    · simp only [Prod.mk.injEq] at hs; rw [← hs.1, ← hs.2]; exact refuse _
    · split at hs
      · simp only [Prod.mk.injEq] at hs; rw [← hs.1, ← hs.2]; exact refuse _
      · rename_i hn
        split at hs
        · rename_i id
          simp only [Prod.mk.injEq] at hs
          rw [← hs.1, ← hs.2]
          refine ⟨h.uniq.set _ _, ?_, ?_, ?_, ?_, ?_⟩
          · intro ch
            simp only []
            rw [count_snoc, AMap.wsum_set_absent _ _ hn, chanOf_add, List.append_nil]
            have h1 := h.chans ch
            have h3 : fCh ch ⟨id, ret⟩ = if ret = some ch then 1 else 0 := rfl
            omega
          · intro i
            simp only []
            rw [count_snoc, AMap.wsum_set_absent _ _ hn]
            have h1 := h.ids i
            have h3 : (idOf (.add addr ret (some id))).count i = fId i ⟨id, ret⟩ := by
              simp only [idOf, List.count_singleton, fId]
              by_cases hi : id = i <;> simp [hi]
            omega
          · intro k x hx hp
            simp only [AMap.get_set] at hx
            split at hx
            · rename_i hk; simp only [Option.some.injEq] at hx; subst hx hk; simp
            · simp [h.waits k x hx hp]
          · intro k x hx
            simp only [AMap.get_set] at hx
            split at hx
            · rename_i hk; subst hk; exact .inl ⟨ret, some id, by simp⟩
            · exact keys_snoc _ (h.keys k x hx)
          · intro hi k x hx
            simp only [AMap.get_set] at hx
            split at hx
            · simp only [Option.some.injEq] at hx; subst hx; simp
            · exact (h.alive (ids_snoc hi) k x hx).imp (by intro h; simp [h]) (by intro h; simp [h])
        · simp only [Prod.mk.injEq] at hs; rw [← hs.1, ← hs.2]; exact refuse _
  | bound addr by' order =>
    simp only [ListenState.step] at hs
    cases hc : complete s.map addr order with
    | error p => rw [hc] at hs; simp at hs
    | ok r =>
      obtain ⟨m, ret⟩ := r
      rw [hc] at hs
      simp only [Except.ok.injEq, Prod.mk.injEq] at hs
      rw [← hs.1, ← hs.2]
      cases complete_cases hc with
      | ignored hn =>
        exact linv_same h _ _ (by simp [tell])
      | port k e hn hk hb hg => exact linv_rebind h addr by' order k e hn hg
      | anyIp k e hn hu hb hp hg => exact linv_rebind h addr by' order k e hn hg
      | exact e hg =>
        have hget : ∀ k' x, AMap.get (AMap.set s.map addr ⟨e.id, none⟩) k' = some x →
            (k' = addr ∧ x = ⟨e.id, none⟩) ∨ (k' ≠ addr ∧ AMap.get s.map k' = some x) := by
          intro k' x hx
          rw [AMap.get_set] at hx
          split at hx
          · rename_i hk'; simp only [Option.some.injEq] at hx; exact .inl ⟨hk', hx.symm⟩
          · rename_i hk'; exact .inr ⟨hk', hx⟩
        refine ⟨h.uniq.set _ _, ?_, ?_, ?_, ?_, ?_⟩
        · intro ch
          simp only []
          rw [count_snoc, List.flatMap_append, List.count_append, answered_tell]
          have h1 := h.chans ch
          have h2 := AMap.wsum_set_present (fCh ch) (⟨e.id, none⟩ : LEntry) hg
          have h3 : fCh ch ⟨e.id, none⟩ = 0 := by simp [fCh]
          have h4 : fCh ch e = if e.pending = some ch then 1 else 0 := rfl
          omega
        · intro i
          simp only []
          rw [count_snoc]
          have h1 := h.ids i
          have h2 := AMap.wsum_set_present (fId i) (⟨e.id, none⟩ : LEntry) hg
          have h3 : fId i ⟨e.id, none⟩ = fId i e := rfl
          omega
        · intro k' x hx hp
          rcases hget k' x hx with ⟨-, rfl⟩ | ⟨-, hx⟩
          · simp at hp
          · simp [h.waits k' x hx hp]
        · intro k' x hx
          rcases hget k' x hx with ⟨rfl, -⟩ | ⟨-, hx⟩
          · exact keys_snoc _ (h.keys _ e hg)
          · exact keys_snoc _ (h.keys k' x hx)
        · intro hi k' x hx
          rcases hget k' x hx with ⟨-, rfl⟩ | ⟨-, hx⟩
          · exact (h.alive (ids_snoc hi) _ e hg).imp id (by intro h; simp [h])
          · exact (h.alive (ids_snoc hi) k' x hx).imp id (by intro h; simp [h])
  | remove addr =>
    simp only [ListenState.step] at hs
    split at hs
    · rename_i e hg
      simp only [Except.ok.injEq, Prod.mk.injEq] at hs
      rw [← hs.1, ← hs.2]
      have hget : ∀ k' x, AMap.get (AMap.erase s.map addr) k' = some x →
          k' ≠ addr ∧ AMap.get s.map k' = some x := by
        intro k' x hx
        rw [AMap.get_erase] at hx
        split at hx
        · simp at hx
        · rename_i hk'; exact ⟨hk', hx⟩
      have same := linv_same h (.remove addr) [] (by simp)
      refine ⟨h.uniq.erase _, ?_, ?_, ?_, ?_, ?_⟩
      · intro ch
        have h1 := same.chans ch
        have h2 := AMap.wsum_erase (f := fCh ch) h.uniq hg
        rw [List.append_nil] at h1
        have h3 : ((outs ++ [if e.id ∈ s.alive then ListenOut.removed else .removeFailed]).flatMap answeredOn).count ch =
            (outs.flatMap answeredOn).count ch := by
          rw [count_snoc]
          split <;> simp [answeredOn]
        simp only [h3]
        omega
      · intro i
        have h1 := same.ids i
        have h2 := AMap.wsum_erase (f := fId i) h.uniq hg
        simp only []
        omega
      · intro k x hx hp
        exact same.waits k x (hget k x hx).2 hp
      · intro k x hx
        exact same.keys k x (hget k x hx).2
      · intro hi k x hx
        obtain ⟨hne, hx⟩ := hget k x hx
        rcases same.alive hi k x hx with ha | ha
        · by_cases hid : x.id = e.id
          · have h1 := AMap.wsum_two (fId e.id) h.uniq hg hx (Ne.symm hne)
            have h2 := h.ids e.id
            have h3 := count_le_one (ids_snoc hi) e.id
            have h4 : fId e.id e = 1 := by simp [fId]
            have h5 : fId e.id x = 1 := by simp [fId, hid]
            omega
          · exact .inl (by simp [ha, hid])
        · exact .inr ha
    · simp only [Except.ok.injEq, Prod.mk.injEq] at hs
      rw [← hs.1, ← hs.2]
      exact linv_same h _ _ (by simp [answeredOn])
  | closed id =>
    simp only [ListenState.step, Except.ok.injEq, Prod.mk.injEq] at hs
    rw [← hs.1, ← hs.2]
    have := linv_same h (.closed id) [] (by simp)
    refine ⟨this.uniq, this.chans, this.ids, this.waits, this.keys, ?_⟩
    intro hi k x hx
    rcases h.alive (ids_snoc hi) k x hx with ha | ha
    · by_cases hi : x.id = id
      · exact .inr (by simp [hi])
      · exact .inl (by simp [ha, hi])
    · exact .inr (by simp [ha])

theorem linv_run {es : List ListenEv} {s : ListenState} {outs : List ListenOut}
    (h : ListenState.init.run es = .ok (s, outs)) : LInv es s outs := by
  induction es using snocInd generalizing s outs with
  | nil =>
    simp only [ListenState.run, Except.ok.injEq, Prod.mk.injEq] at h
    rw [← h.1, ← h.2]; exact linv_init
  | snoc es e ih =>
    obtain ⟨s1, o1, o2, h1, h2, rfl⟩ := (listen_run_snoc _ _ _ _ _).mp h
    exact linv_step (ih h1) e h2

/-! ## The theorems -/

/-- **C50** However requests, notices and removals follow each other: every channel gets at most one answer,
and none that was not asked. -/
theorem C50_once (es : List ListenEv) (s : ListenState) (outs : List ListenOut)
    (h : ListenState.init.run es = .ok (s, outs)) (hc : Chans es) :
    (outs.flatMap answeredOn).Nodup ∧ ∀ ch ∈ outs.flatMap answeredOn, ∃ a res, ListenEv.add a (some ch) res ∈ es := by
  have inv := linv_run h
  constructor
  · rw [List.nodup_iff_count]
    intro ch
    have := inv.chans ch
    have := count_le_one hc ch
    omega
  · intro ch hch
    have h1 := List.count_pos_iff.mpr hch
    have h2 := inv.chans ch
    have h3 : ch ∈ es.flatMap chanOf := List.count_pos_iff.mp (by omega)
    obtain ⟨e, he, hm⟩ := List.mem_flatMap.mp h3
    cases e with
    | add a ret res =>
      cases ret with
      | none => simp [chanOf] at hm
      | some c =>
        simp only [chanOf, List.mem_singleton] at hm
        subst hm
        exact ⟨a, res, he⟩
    | _ => simp [chanOf] at hm

/-- How an answer comes about. -/
theorem answer_source (es : List ListenEv) (s : ListenState) (outs : List ListenOut)
    (h : ListenState.init.run es = .ok (s, outs)) (ch : Nat) (b : Maddr) (ha : ListenOut.answer ch (.ok b) ∈ outs) :
    ∃ r i, ListenEv.add r (some ch) (some i) ∈ es ∧ Noticed es b ∧
      (PortsBind r b ∨ (startsUnspecified r = true ∧ couldBeBound 1 b r = some true)) := by
  induction es using snocInd generalizing s outs with
  | nil =>
    simp only [ListenState.run, Except.ok.injEq, Prod.mk.injEq] at h
    rw [← h.2] at ha; simp at ha
  | snoc es e ih =>
    obtain ⟨s1, o1, o2, h1, h2, rfl⟩ := (listen_run_snoc _ _ _ _ _).mp h
    rcases List.mem_append.mp ha with ha | ha
    · obtain ⟨r, i, h3, h4, h5⟩ := ih s1 o1 h1 ha
      exact ⟨r, i, by simp [h3], noticed_snoc e h4, h5⟩
    · have inv := linv_run h1
      cases e with
      | add addr ret res =>
        simp only [ListenState.step, Except.ok.injEq] at h2
        unfold startAdd at h2
        have no : ∀ a, a ≠ .ok b → ListenOut.answer ch (.ok b) ∉ tell ret a := by
          intro a hne hm
          cases ret with
          | none => simp [tell] at hm
          | some c =>
            simp only [tell, List.mem_singleton, ListenOut.answer.injEq] at hm
            exact hne hm.2.symm
        exfalso
        split at h2
        · simp only [Prod.mk.injEq] at h2; rw [← h2.2] at ha; exact no _ (by simp) ha
        · split at h2
          · simp only [Prod.mk.injEq] at h2; rw [← h2.2] at ha; exact no _ (by simp) ha
          · split at h2
            · simp only [Prod.mk.injEq] at h2; rw [← h2.2] at ha; simp at ha
            · simp only [Prod.mk.injEq] at h2; rw [← h2.2] at ha; exact no _ (by simp) ha
      | bound addr by' order =>
        simp only [ListenState.step] at h2
        cases hc : complete s1.map addr order with
        | error p => rw [hc] at h2; simp at h2
        | ok r =>
          obtain ⟨m, ret⟩ := r
          rw [hc] at h2
          simp only [Except.ok.injEq, Prod.mk.injEq] at h2
          rw [← h2.2] at ha
          have hret : ret = some ch ∧ addr = b := by
            cases ret with
            | none => simp [tell] at ha
            | some c =>
              simp only [tell, List.mem_singleton, ListenOut.answer.injEq, ListenAns.ok.injEq] at ha
              exact ⟨by rw [ha.1], ha.2.symm⟩
          obtain ⟨hret, rfl⟩ := hret
          have hrep : Noticed (es ++ [.bound addr by' order]) addr := ⟨by', order, by simp⟩
          cases complete_cases hc with
          | ignored => simp at hret
          | exact e hg =>
            have hw := inv.waits _ e hg (by simp [hret])
            rw [hret] at hw
            exact ⟨addr, e.id, by simp [hw], hrep, .inl (portsBind_refl addr)⟩
          | port k e hn hk hb hg =>
            have hw := inv.waits _ e hg (by simp [hret])
            rw [hret] at hw
            exact ⟨k, e.id, by simp [hw], hrep, .inl (couldBeBound_zero hb)⟩
          | anyIp k e hn hu hb hp hg =>
            have hw := inv.waits _ e hg (by simp [hret])
            rw [hret] at hw
            exact ⟨k, e.id, by simp [hw], hrep, .inr ⟨hu, hb⟩⟩
      | remove addr =>
        simp only [ListenState.step] at h2
        split at h2
        · simp only [Except.ok.injEq, Prod.mk.injEq] at h2
          rw [← h2.2] at ha
          split at ha <;> simp at ha
        · simp only [Except.ok.injEq, Prod.mk.injEq] at h2
          rw [← h2.2] at ha
          simp at ha
      | closed id =>
        simp only [ListenState.step, Except.ok.injEq, Prod.mk.injEq] at h2
        rw [← h2.2] at ha
        simp at ha

/-- Requests for an unspecified ip cannot be mistaken by their length: a report with as many bytes has as
many components and starts with an ip. -/
def Distinct (es : List ListenEv) : Prop :=
  ∀ r b, Requested es r → Noticed es b → startsUnspecified r = true → Maddr.byteLen b = Maddr.byteLen r →
    r.length = b.length ∧ ∃ i b', b = i :: b' ∧ ((∃ a1 a2 a3 a4, i = .ip4 a1 a2 a3 a4) ∨ ∃ o, i = .ip6 o)

theorem startsUnspecified_iff (r : Maddr) :
    startsUnspecified r = true ↔ ∃ i r', r = i :: r' ∧ AnyIp i := by
  cases r with
  | nil => simp [startsUnspecified]
  | cons c r =>
    cases c <;> simp [startsUnspecified, AnyIp, and_assoc]

/-- **C50** Every positive answer is a reported address that the request of the channel, accepted by the
swarm, may be bound to. -/
theorem C50_bound_partial (es : List ListenEv) (s : ListenState) (outs : List ListenOut)
    (h : ListenState.init.run es = .ok (s, outs)) (hd : Distinct es) (ch : Nat) (b : Maddr)
    (ha : ListenOut.answer ch (.ok b) ∈ outs) :
    ∃ r i, ListenEv.add r (some ch) (some i) ∈ es ∧ Noticed es b ∧ Binds r b := by
  obtain ⟨r, i, h1, h2, h3⟩ := answer_source es s outs h ch b ha
  refine ⟨r, i, h1, h2, ?_⟩
  rcases h3 with h3 | ⟨hu, hb⟩
  · exact .inl h3
  · have hlen : Maddr.byteLen b = Maddr.byteLen r := by
      apply Classical.byContradiction
      intro hne
      simp [couldBeBound, hne] at hb
    obtain ⟨hl, i', b', rfl, hip⟩ := hd r b ⟨_, _, h1⟩ h2 hu hlen
    obtain ⟨i0, r', rfl, hany⟩ := (startsUnspecified_iff r).mp hu
    have hball : boundAll b' r' = some true := by
      simpa [couldBeBound, hlen] using hb
    have hpb := boundAll_true hball (by simpa using hl.symm)
    refine .inr ⟨i0, i', r', b', rfl, rfl, hany, ?_, hpb⟩
    have hsz : Maddr.byteLen r' = Maddr.byteLen b' := by
      clear hlen hball hl h1 h2 ha hb hu
      induction hpb with
      | nil => rfl
      | cons x y rs bs h1 _ ih =>
        simp only [Maddr.byteLen, List.map_cons, List.sum_cons] at ih ⊢
        rw [ih, portBinds_size h1]
    have hs : i0.size = i'.size := by
      simp only [Maddr.byteLen, List.map_cons, List.sum_cons] at hlen hsz
      omega
    unfold SameFamily
    rcases hany with rfl | ⟨o, rfl, -⟩ <;> rcases hip with ⟨a1, a2, a3, a4, rfl⟩ | ⟨o', rfl⟩ <;>
      simp [Comp.size] at hs ⊢

/-- Bound keys stay: an entry with ports other than 0 that nobody waits for is only removed by its removal. -/
theorem bound_stays {es : List ListenEv} {s s' : ListenState} {outs o : List ListenOut} (inv : LInv es s outs)
    (e : ListenEv) (hs : s.step e = .ok (s', o)) (hi : Ids es) (b : Maddr) (i : Nat) (hb : Real0 b)
    (hg : AMap.get s.map b = some ⟨i, none⟩) (ha : i ∈ s.alive) (hr : e ≠ .remove b) (hc : e ≠ .closed i)
    (hit : Iterates [e]) :
    AMap.get s'.map b = some ⟨i, none⟩ ∧ i ∈ s'.alive := by
  cases e with
  | add addr ret res =>
    simp only [ListenState.step, Except.ok.injEq] at hs
    unfold startAdd at hs
    split at hs
    · simp only [Prod.mk.injEq] at hs; rw [← hs.1]; exact ⟨hg, ha⟩
    · split at hs
      · simp only [Prod.mk.injEq] at hs; rw [← hs.1]; exact ⟨hg, ha⟩
      · rename_i hn
        split at hs
        · simp only [Prod.mk.injEq] at hs
          rw [← hs.1]
          refine ⟨?_, by simp [ha]⟩
          simp only []
          rw [AMap.get_set_ne _ _ (by rintro rfl; rw [hn] at hg; simp at hg)]
          exact hg
        · simp only [Prod.mk.injEq] at hs; rw [← hs.1]; exact ⟨hg, ha⟩
  | bound addr by' order =>
    simp only [ListenState.step] at hs
    cases hcp : complete s.map addr order with
    | error p => rw [hcp] at hs; simp at hs
    | ok r =>
      obtain ⟨m, ret⟩ := r
      rw [hcp] at hs
      simp only [Except.ok.injEq, Prod.mk.injEq] at hs
      rw [← hs.1]
      refine ⟨?_, ha⟩
      simp only []
      cases complete_cases hcp with
      | ignored => exact hg
      | exact e he =>
        rw [AMap.get_set]
        split
        · rename_i hba
          subst hba
          rw [hg] at he
          simp only [Option.some.injEq] at he
          rw [← he]
        · exact hg
      | port k e hn hk hbk he =>
        have h1 : b ≠ addr := by rintro rfl; rw [hn] at hg; simp at hg
        have h2 : b ≠ k := by
          rintro rfl
          exact h1 (real0_binds_eq (couldBeBound_zero hbk) hb)
        rw [AMap.get_set_ne _ _ h1, AMap.get_erase_ne _ h2]; exact hg
      | anyIp k e hn hu hbk hp he =>
        have h1 : b ≠ addr := by rintro rfl; rw [hn] at hg; simp at hg
        have h2 : b ≠ k := by
          rintro rfl
          obtain ⟨e', hm, hp⟩ := hp
          have hm' := ((hit addr by' order (by simp)) s.map).mem_iff.mp hm
          rw [AMap.mem_iff_get inv.uniq, hg] at hm'
          simp only [Option.some.injEq] at hm'
          rw [← hm'] at hp
          simp at hp
        rw [AMap.get_set_ne _ _ h1, AMap.get_erase_ne _ h2]; exact hg
  | remove addr =>
    have hne : b ≠ addr := by rintro rfl; exact hr rfl
    simp only [ListenState.step] at hs
    split at hs
    · rename_i e he
      simp only [Except.ok.injEq, Prod.mk.injEq] at hs
      rw [← hs.1]
      simp only []
      rw [AMap.get_erase_ne _ hne]
      refine ⟨hg, ?_⟩
      have : i ≠ e.id := by
        intro hie
        have h1 := AMap.wsum_two (fId i) inv.uniq hg he hne
        have h2 := inv.ids i
        have h3 := count_le_one hi i
        have h4 : fId i ⟨i, none⟩ = 1 := by simp [fId]
        have h5 : fId i e = 1 := by simp [fId, hie]
        omega
      simp [ha, this]
    · simp only [Except.ok.injEq, Prod.mk.injEq] at hs
      rw [← hs.1]; exact ⟨hg, ha⟩
  | closed id =>
    simp only [ListenState.step, Except.ok.injEq, Prod.mk.injEq] at hs
    rw [← hs.1]
    refine ⟨hg, ?_⟩
    have : i ≠ id := by rintro rfl; exact hc rfl
    simp [ha, this]

theorem iterates_append {es es' : List ListenEv} : Iterates (es ++ es') ↔ Iterates es ∧ Iterates es' := by
  unfold Iterates
  constructor
  · intro h
    exact ⟨fun a b o hm => h a b o (by simp [hm]), fun a b o hm => h a b o (by simp [hm])⟩
  · rintro ⟨h1, h2⟩ a b o hm
    rcases List.mem_append.mp hm with hm | hm
    · exact h1 a b o hm
    · exact h2 a b o hm

/-- **C50** An address given as an answer can be removed later: whatever happens after the notice `b` that was
answered to `ch`, as long as nobody removed `b` before and the listener `i` of the request did not end on its
own, removing `b` succeeds. -/
theorem C50_removable (es es' : List ListenEv) (b : Maddr) (by' : Nat)
    (order : AMap Maddr LEntry → AMap Maddr LEntry) (s1 s2 s3 : ListenState) (o1 o2 o3 : List ListenOut) (ch : Nat)
    (h1 : ListenState.init.run es = .ok (s1, o1)) (h2 : s1.step (.bound b by' order) = .ok (s2, o2))
    (ha : ListenOut.answer ch (.ok b) ∈ o2) (h3 : s2.run es' = .ok (s3, o3))
    (hi : Ids (es ++ .bound b by' order :: es')) (hit : Iterates es') (hb : Real0 b)
    (hr : ListenEv.remove b ∉ es') :
    ∃ r i, ListenEv.add r (some ch) (some i) ∈ es ∧
      (ListenEv.closed i ∉ es ++ es' → ∃ s4, s3.step (.remove b) = .ok (s4, [.removed])) := by
  have inv := linv_run h1
  have h12 : ListenState.init.run (es ++ [.bound b by' order]) = .ok (s2, o1 ++ o2) :=
    (listen_run_snoc _ _ _ _ _).mpr ⟨s1, o1, o2, h1, h2, rfl⟩
  have inv2 := linv_run h12
  -- the entry made by the notice
  obtain ⟨r, i, hadd, hget⟩ : ∃ r i, ListenEv.add r (some ch) (some i) ∈ es ∧ AMap.get s2.map b = some ⟨i, none⟩ := by
    simp only [ListenState.step] at h2
    cases hc : complete s1.map b order with
    | error p => rw [hc] at h2; simp at h2
    | ok m =>
      obtain ⟨m, ret⟩ := m
      rw [hc] at h2
      simp only [Except.ok.injEq, Prod.mk.injEq] at h2
      rw [← h2.2] at ha
      have hret : ret = some ch := by
        cases ret with
        | none => simp [tell] at ha
        | some c =>
          simp only [tell, List.mem_singleton, ListenOut.answer.injEq] at ha
          rw [ha.1]
      rw [← h2.1]
      cases complete_cases hc with
      | ignored => simp at hret
      | exact e hg =>
        have hw := inv.waits _ e hg (by simp [hret])
        rw [hret] at hw
        exact ⟨b, e.id, hw, AMap.get_set_eq _ _ _⟩
      | port k e hn hk hb hg =>
        have hw := inv.waits _ e hg (by simp [hret])
        rw [hret] at hw
        exact ⟨k, e.id, hw, AMap.get_set_eq _ _ _⟩
      | anyIp k e hn hu hb hp hg =>
        have hw := inv.waits _ e hg (by simp [hret])
        rw [hret] at hw
        exact ⟨k, e.id, hw, AMap.get_set_eq _ _ _⟩
  refine ⟨r, i, hadd, ?_⟩
  intro hcl
  have hids : ∀ x, Ids (es ++ [.bound b by' order] ++ x ++ es') → Ids (es ++ [.bound b by' order] ++ x) := by
    intro x hx
    unfold Ids at *
    rw [List.flatMap_append] at hx
    exact (List.nodup_append.mp hx).1
  have halive : i ∈ s2.alive := by
    have := inv2.alive (by
      have := hids []
      simp only [List.append_nil] at this
      exact this (by simpa using hi)) b _ hget
    rcases this with h | h
    · exact h
    · exfalso; apply hcl
      simp only [List.mem_append, List.mem_singleton, reduceCtorEq, or_false] at h
      simp [h]
  have stays : ∀ es' : List ListenEv, ∀ s3 o3, s2.run es' = .ok (s3, o3) →
      Ids (es ++ [.bound b by' order] ++ es') → Iterates es' → ListenEv.remove b ∉ es' → ListenEv.closed i ∉ es' →
      AMap.get s3.map b = some ⟨i, none⟩ ∧ i ∈ s3.alive := by
    intro es'
    induction es' using snocInd with
    | nil =>
      intro s3 o3 h _ _ _ _
      simp only [ListenState.run, Except.ok.injEq, Prod.mk.injEq] at h
      rw [← h.1]; exact ⟨hget, halive⟩
    | snoc es' e ih =>
      intro s3 o3 h hi hit hr hc
      obtain ⟨t, p1, p2, q1, q2, rfl⟩ := (listen_run_snoc _ _ _ _ _).mp h
      rw [← List.append_assoc] at hi
      obtain ⟨g1, g2⟩ := ih t p1 q1 (ids_snoc hi) (iterates_append.mp hit).1 (by simp_all) (by simp_all)
      have invt : LInv (es ++ [.bound b by' order] ++ es') t (o1 ++ o2 ++ p1) :=
        linv_run ((listen_run_append _ _ _ _ _).mpr ⟨s2, o1 ++ o2, p1, h12, q1, rfl⟩)
      exact bound_stays invt e q2 (ids_snoc hi) b i hb g1 g2 (by rintro rfl; simp at hr) (by rintro rfl; simp at hc)
        (iterates_append.mp hit).2
  obtain ⟨g1, g2⟩ := stays es' s3 o3 h3 (by simpa using hi) hit hr (by intro h; exact hcl (by simp [h]))
  exact ⟨_, by simp only [ListenState.step, g1, g2, if_true]; rfl⟩

/-- The conditions under which no assertion can fail: requested addresses have at most one port, reported ones
no port 0. -/
def Sane (es : List ListenEv) : Prop :=
  (∀ a, Requested es a → OnePort a) ∧ ∀ a, Noticed es a → Real0 a

theorem complete_ok {es : List ListenEv} {s : ListenState} {outs : List ListenOut} (inv : LInv es s outs)
    (hs : Sane es) (b : Maddr) (order : AMap Maddr LEntry → AMap Maddr LEntry) (hb : Real0 b)
    (hp : ∀ m, (order m).Perm m) : ∃ m ret, complete s.map b order = .ok (m, ret) ∧
      (∀ r e, AMap.get s.map r = some e → PortsBind r b → (r = b ∨ AMap.get s.map b = none) →
        ret = e.pending) := by
  unfold complete
  cases hg : AMap.get s.map b with
  | some e =>
    refine ⟨_, _, rfl, ?_⟩
    rintro r x hr - (rfl | h)
    · rw [hg] at hr
      simp only [Option.some.injEq] at hr
      rw [hr]
    · simp at h
  | none =>
    simp only []
    have hkeys : (AMap.keys (order s.map)).Perm (AMap.keys s.map) := (hp s.map).map _
    have hnd : (AMap.keys (order s.map)).Nodup := hkeys.nodup_iff.mpr inv.uniq
    -- any two matching keys are the same
    have same : ∀ k k', k ∈ AMap.keys (order s.map) → k' ∈ AMap.keys (order s.map) → PortsBind k b →
        PortsBind k' b → k = k' := by
      have one : ∀ k, k ∈ AMap.keys (order s.map) → PortsBind k b → k ≠ b ∧ OnePort k := by
        intro k hk hbk
        have hk' := hkeys.mem_iff.mp hk
        rw [AMap.mem_keys_iff, Option.isSome_iff_exists] at hk'
        obtain ⟨e, he⟩ := hk'
        have hne : k ≠ b := by rintro rfl; rw [hg] at he; simp at he
        refine ⟨hne, ?_⟩
        rcases inv.keys k e he with h | h
        · exact hs.1 k h
        · exact absurd (real0_binds_eq hbk (hs.2 k h)) hne
      intro k k' hk hk' hb1 hb2
      exact onePort_unique hb1 hb2 (one k hk hb1).2 (one k hk hb1).1 (one k' hk' hb2).1
    cases h1 : nextMatch b (AMap.keys (order s.map)) with
    | error p =>
      obtain ⟨-, k, -, h⟩ := nextMatch_error h1
      exact absurd h (couldBeBound_ne_none hb)
    | ok r1 =>
      cases r1 with
      | some fr =>
        obtain ⟨first, rest⟩ := fr
        obtain ⟨hbf, pre, hpre⟩ := nextMatch_some h1
        simp only []
        have hf : first ∈ AMap.keys (order s.map) := by rw [hpre]; simp
        cases h2 : nextMatch b rest with
        | error p =>
          obtain ⟨-, k, -, h⟩ := nextMatch_error h2
          exact absurd h (couldBeBound_ne_none hb)
        | ok r2 =>
          cases r2 with
          | some sr =>
            obtain ⟨second, rest2⟩ := sr
            obtain ⟨hbs, pre2, hpre2⟩ := nextMatch_some h2
            exfalso
            have hse : second ∈ AMap.keys (order s.map) := by rw [hpre, hpre2]; simp
            have heq := same first second hf hse (couldBeBound_zero hbf) (couldBeBound_zero hbs)
            rw [hpre, hpre2, List.nodup_append] at hnd
            have := (List.nodup_cons.mp hnd.2.1).1
            rw [heq] at this
            simp at this
          | none =>
            have hf' := hkeys.mem_iff.mp hf
            rw [AMap.mem_keys_iff, Option.isSome_iff_exists] at hf'
            obtain ⟨e, he⟩ := hf'
            refine ⟨AMap.set (AMap.erase s.map first) b ⟨e.id, none⟩, e.pending, by simp [rebind, he], ?_⟩
            intro r x hr hbr _
            have hrk : r ∈ AMap.keys (order s.map) :=
              hkeys.mem_iff.mpr ((AMap.mem_keys_iff _ _).mpr (by simp [hr]))
            have := same r first hrk hf hbr (couldBeBound_zero hbf)
            subst this
            rw [he] at hr
            simp only [Option.some.injEq] at hr
            rw [hr]
      | none =>
        simp only []
        have hno : ∀ r e, AMap.get s.map r = some e → ¬ PortsBind r b := by
          intro r e hr hbr
          have hrk : r ∈ AMap.keys (order s.map) :=
            hkeys.mem_iff.mpr ((AMap.mem_keys_iff _ _).mpr (by simp [hr]))
          have := nextMatch_none h1 r hrk
          rw [couldBeBound_of hbr hb] at this
          simp at this
        cases h2 : nextUnspecified b (order s.map) with
        | error p =>
          obtain ⟨-, x, -, h⟩ := nextUnspecified_error h2
          exact absurd h (couldBeBound_ne_none hb)
        | ok r2 =>
          cases r2 with
          | none => exact ⟨_, _, rfl, fun r e hr hbr _ => absurd hbr (hno r e hr)⟩
          | some first => exact ⟨_, _, rfl, fun r e hr hbr _ => absurd hbr (hno r e hr)⟩

theorem sane_snoc {es : List ListenEv} {e : ListenEv} (h : Sane (es ++ [e])) : Sane es :=
  ⟨fun a ha => h.1 a (requested_snoc e ha), fun a ha => h.2 a (noticed_snoc e ha)⟩

/-- **C50** No assertion fails, in particular the abort for more than one matching request is not reached,
whatever the order of events: if requested addresses have at most one port and reported addresses no port 0. -/
theorem C50_no_abort_partial (es : List ListenEv) (hs : Sane es) (hit : Iterates es) :
    ∃ s outs, ListenState.init.run es = .ok (s, outs) := by
  induction es using snocInd with
  | nil => exact ⟨_, _, rfl⟩
  | snoc es e ih =>
    obtain ⟨s, outs, h⟩ := ih (sane_snoc hs) (iterates_append.mp hit).1
    have inv := linv_run h
    have : ∃ s' o, s.step e = .ok (s', o) := by
      cases e with
      | add => exact ⟨_, _, rfl⟩
      | bound b by' order =>
        obtain ⟨m, ret, hc, -⟩ := complete_ok inv (sane_snoc hs) b order (hs.2 b ⟨by', order, by simp⟩)
          (hit b by' order (by simp))
        exact ⟨_, _, by simp only [ListenState.step, hc]; rfl⟩
      | remove => simp only [ListenState.step]; split <;> exact ⟨_, _, rfl⟩
      | closed => exact ⟨_, _, rfl⟩
    obtain ⟨s', o, h2⟩ := this
    exact ⟨s', outs ++ o, (listen_run_snoc _ _ _ _ _).mpr ⟨s, outs, o, h, h2, rfl⟩⟩

/-- A request that was neither refused nor answered nor removed is waiting. -/
theorem still_waiting (es es' : List ListenEv) (r : Maddr) (ch i : Nat) (s : ListenState) (outs : List ListenOut)
    (h : ListenState.init.run (es ++ .add r (some ch) (some i) :: es') = .ok (s, outs))
    (hn : ch ∉ outs.flatMap answeredOn) (hr : ListenEv.remove r ∉ es') :
    AMap.get s.map r = some ⟨i, some ch⟩ := by
  induction es' using snocInd generalizing s outs with
  | nil =>
    obtain ⟨s1, o1, o2, h1, h2, rfl⟩ := (listen_run_snoc _ _ _ _ _).mp h
    have ht : ∀ a, ch ∈ (tell (some ch) a).flatMap answeredOn := by simp [tell, answeredOn]
    simp only [ListenState.step, Except.ok.injEq] at h2
    unfold startAdd at h2
    split at h2
    · simp only [Prod.mk.injEq] at h2
      exact absurd (by rw [← h2.2, List.flatMap_append]; exact List.mem_append_right _ (ht _)) hn
    · split at h2
      · simp only [Prod.mk.injEq] at h2
        exact absurd (by rw [← h2.2, List.flatMap_append]; exact List.mem_append_right _ (ht _)) hn
      · simp only [Prod.mk.injEq] at h2
        rw [← h2.1]
        exact AMap.get_set_eq _ _ _
  | snoc es' e ih =>
    rw [show es ++ .add r (some ch) (some i) :: (es' ++ [e]) = (es ++ .add r (some ch) (some i) :: es') ++ [e] by simp] at h
    obtain ⟨s1, o1, o2, h1, h2, rfl⟩ := (listen_run_snoc _ _ _ _ _).mp h
    rw [List.flatMap_append, List.mem_append] at hn
    have hg := ih s1 o1 h1 (fun h => hn (.inl h)) (by intro h; exact hr (by simp [h]))
    have hn2 : ch ∉ o2.flatMap answeredOn := fun h => hn (.inr h)
    cases e with
    | add addr ret res =>
      simp only [ListenState.step, Except.ok.injEq] at h2
      unfold startAdd at h2
      split at h2
      · simp only [Prod.mk.injEq] at h2; rw [← h2.1]; exact hg
      · split at h2
        · simp only [Prod.mk.injEq] at h2; rw [← h2.1]; exact hg
        · rename_i hna
          split at h2
          · simp only [Prod.mk.injEq] at h2
            rw [← h2.1]
            simp only []
            rw [AMap.get_set_ne _ _ (by rintro rfl; rw [hna] at hg; simp at hg)]
            exact hg
          · simp only [Prod.mk.injEq] at h2; rw [← h2.1]; exact hg
    | bound addr by' order =>
      simp only [ListenState.step] at h2
      cases hcp : complete s1.map addr order with
      | error p => rw [hcp] at h2; simp at h2
      | ok q =>
        obtain ⟨m, ret⟩ := q
        rw [hcp] at h2
        simp only [Except.ok.injEq, Prod.mk.injEq] at h2
        rw [← h2.1]
        rw [← h2.2] at hn2
        have hret : ret ≠ some ch := by rintro rfl; simp [tell, answeredOn] at hn2
        simp only []
        cases complete_cases hcp with
        | ignored => exact hg
        | exact e he =>
          rw [AMap.get_set_ne]
          · exact hg
          · rintro rfl
            rw [hg] at he
            simp only [Option.some.injEq] at he
            rw [← he] at hret
            simp at hret
        | port k e hna hk hbk he =>
          rw [AMap.get_set_ne _ _ (by rintro rfl; rw [hna] at hg; simp at hg), AMap.get_erase_ne]
          · exact hg
          · rintro rfl
            rw [hg] at he
            simp only [Option.some.injEq] at he
            rw [← he] at hret
            simp at hret
        | anyIp k e hna hu hbk hp he =>
          rw [AMap.get_set_ne _ _ (by rintro rfl; rw [hna] at hg; simp at hg), AMap.get_erase_ne]
          · exact hg
          · rintro rfl
            rw [hg] at he
            simp only [Option.some.injEq] at he
            rw [← he] at hret
            simp at hret
    | remove addr =>
      have hne : r ≠ addr := by rintro rfl; exact hr (by simp)
      simp only [ListenState.step] at h2
      split at h2
      · simp only [Except.ok.injEq, Prod.mk.injEq] at h2
        rw [← h2.1]
        simp only []
        rw [AMap.get_erase_ne _ hne]; exact hg
      · simp only [Except.ok.injEq, Prod.mk.injEq] at h2
        rw [← h2.1]; exact hg
    | closed id =>
      simp only [ListenState.step, Except.ok.injEq, Prod.mk.injEq] at h2
      rw [← h2.1]; exact hg

/-- **C50** The answer comes: a request that the swarm accepted and that was neither refused, answered nor
removed is answered by the first report of the address itself, or of the same address with a port other than 0
for the port 0 (unless that very address is an entry of its own). -/
theorem C50_answered (es es' : List ListenEv) (r b : Maddr) (ch i by' : Nat)
    (order : AMap Maddr LEntry → AMap Maddr LEntry) (s : ListenState) (outs : List ListenOut)
    (h : ListenState.init.run (es ++ .add r (some ch) (some i) :: es') = .ok (s, outs))
    (hn : ch ∉ outs.flatMap answeredOn) (hr : ListenEv.remove r ∉ es')
    (hs : Sane (es ++ .add r (some ch) (some i) :: es')) (hb : Real0 b) (hp : ∀ m, (order m).Perm m)
    (hbind : PortsBind r b) (hfree : r = b ∨ AMap.get s.map b = none) :
    ∃ s', s.step (.bound b by' order) = .ok (s', [.answer ch (.ok b)]) := by
  have hg := still_waiting es es' r ch i s outs h hn hr
  obtain ⟨m, ret, hc, hall⟩ := complete_ok (linv_run h) hs b order hb hp
  have := hall r _ hg hbind hfree
  subst this
  exact ⟨_, by simp only [ListenState.step, hc, tell]; rfl⟩

/-! ## Examples -/

/-- 127.0.0.1, any ip, and a port of tcp on it. -/
def exLocal (port : Nat) : Maddr := [.ip4 127 0 0 1, .tcp port]
def exAny (port : Nat) : Maddr := [.ip4 0 0 0 0, .tcp port]

/-- Two requests, resolved and removed. -/
def exListen : List ListenEv :=
  [.add (exLocal 0) (some 1) (some 10), .bound (exLocal 4001) 10 id, .add (exLocal 0) (some 2) (some 11),
   .add (exLocal 0) (some 3) (some 12), .bound (exLocal 4002) 11 id, .add (exAny 0) (some 4) (some 13),
   .bound (exLocal 4003) 13 id, .remove (exLocal 4001)]

example : ListenState.init.run exListen = .ok
    (⟨[(exLocal 4002, ⟨11, none⟩), (exLocal 4003, ⟨13, none⟩)], [13, 11]⟩,
     [.answer 1 (.ok (exLocal 4001)), .answer 3 .alreadyAdding, .answer 2 (.ok (exLocal 4002)),
      .answer 4 (.ok (exLocal 4003)), .removed]) := by decide

example : Chans exListen ∧ Ids exListen := by
  constructor <;> simp [Chans, Ids, exListen, chanOf, idOf]

example : PortsBind (exLocal 0) (exLocal 4001) ∧ Binds (exAny 0) (exLocal 4003) :=
  ⟨.cons _ _ _ _ (.inl rfl) (.cons _ _ _ _ (.inr ⟨4001, by simp⟩) .nil),
   .inr ⟨_, _, _, _, rfl, rfl, .inl rfl, .inl ⟨_, _, _, _, _, _, _, _, rfl, rfl⟩,
     .cons _ _ _ _ (.inr ⟨4003, by simp⟩) .nil⟩⟩

/-- Addresses of the only transport in use, an ip and a port of tcp, are distinct and sane. -/
theorem tcp_distinct (es : List ListenEv)
    (hr : ∀ a, Requested es a → ∃ i p, a = [i, .tcp p] ∧ SameFamily i i)
    (hb : ∀ a, Noticed es a → ∃ i p, a = [i, .tcp p] ∧ SameFamily i i ∧ p ≠ 0) : Distinct es ∧ Sane es := by
  refine ⟨?_, ?_, ?_⟩
  · intro r b h1 h2 _ _
    obtain ⟨i, p, rfl, -⟩ := hr r h1
    obtain ⟨i', p', rfl, hf, -⟩ := hb b h2
    refine ⟨rfl, i', _, rfl, ?_⟩
    rcases hf with ⟨a1, a2, a3, a4, _, _, _, _, h, -⟩ | ⟨x, _, h, -⟩
    · exact .inl ⟨a1, a2, a3, a4, h⟩
    · exact .inr ⟨x, h⟩
  · intro a h
    obtain ⟨i, p, rfl, hf⟩ := hr a h
    have hi : ¬ IsPort i := by
      rintro ⟨n, hn⟩
      rcases hf with ⟨a1, a2, a3, a4, _, _, _, _, rfl, -⟩ | ⟨x, _, rfl, -⟩ <;> simp at hn
    intro j k c d hj hk hc hd
    match j, k with
    | 0, _ => simp only [List.getElem?_cons_zero, Option.some.injEq] at hj; subst hj; exact absurd hc hi
    | _, 0 => simp only [List.getElem?_cons_zero, Option.some.injEq] at hk; subst hk; exact absurd hd hi
    | 1, 1 => rfl
    | 1, k + 2 => simp at hk
    | j + 2, _ => simp at hj
  · intro a h
    obtain ⟨i, p, rfl, hf, hp⟩ := hb a h
    intro c hc
    simp only [List.mem_cons, List.not_mem_nil, or_false] at hc
    rcases hc with rfl | rfl
    · rcases hf with ⟨a1, a2, a3, a4, _, _, _, _, rfl, -⟩ | ⟨x, _, rfl, -⟩ <;> simp
    · simp [hp]

/-- **C50** Two requests with two ports each make the abort reachable, and a report of port 0 the other
assertion. -/
theorem C50_ambiguous :
    ListenState.init.run [.add [.udp 0, .tcp 5] (some 1) (some 10), .add [.udp 7, .tcp 0] (some 2) (some 11),
      .bound [.udp 7, .tcp 5] 10 id] = .error .ambiguous ∧
    ListenState.init.run [.add (exLocal 0) (some 1) (some 10), .add [.ip4 127 0 0 1, .other 478 []] (some 2) none,
      .bound (exLocal 0) 10 id, .add [.ip4 127 0 0 1, .tcp 0, .p2pCircuit] (some 3) (some 12),
      .bound [.ip4 127 0 0 1, .tcp 0, .other 478 []] 12 id] = .error .boundToZero := by
  constructor <;> decide +kernel

/-- **C50** Requests are matched by address, not by the listener named in the notice: a request for any ip is
waiting when one for 127.0.0.1 comes, and the notice of the first listener is taken as the answer to the
second request; removing that address then stops the wrong listener. -/
theorem C50_wrong_listener (order : AMap Maddr LEntry → AMap Maddr LEntry) (h : ∀ m, (order m).Perm m) :
    ∃ s, ListenState.init.run [.add (exAny 0) (some 1) (some 10), .add (exLocal 0) (some 2) (some 11),
      .bound (exLocal 4001) 10 order] = .ok (s, [.answer 2 (.ok (exLocal 4001))]) ∧
      AMap.get s.map (exLocal 4001) = some ⟨11, none⟩ := by
  have hs : Sane [.add (exAny 0) (some 1) (some 10), .add (exLocal 0) (some 2) (some 11)] :=
    (tcp_distinct _
      (by
        rintro a ⟨r, q, h⟩
        simp only [List.mem_cons, ListenEv.add.injEq, List.not_mem_nil, or_false] at h
        rcases h with ⟨rfl, -⟩ | ⟨rfl, -⟩
        · exact ⟨_, _, rfl, .inl ⟨_, _, _, _, _, _, _, _, rfl, rfl⟩⟩
        · exact ⟨_, _, rfl, .inl ⟨_, _, _, _, _, _, _, _, rfl, rfl⟩⟩)
      (by rintro a ⟨r, q, h⟩; simp at h)).2
  have h0 : ListenState.init.run [.add (exAny 0) (some 1) (some 10), .add (exLocal 0) (some 2) (some 11)] =
      .ok (⟨[(exAny 0, ⟨10, some 1⟩), (exLocal 0, ⟨11, some 2⟩)], [11, 10]⟩, []) := by decide
  have inv := linv_run h0
  have hreal : Real0 (exLocal 4001) := by simp [Real0, exLocal]
  have hb : PortsBind (exLocal 0) (exLocal 4001) :=
    .cons _ _ _ _ (.inl rfl) (.cons _ _ _ _ (.inr ⟨4001, by simp⟩) .nil)
  obtain ⟨m, ret, hc, hall⟩ := complete_ok inv hs (exLocal 4001) order hreal h
  have hret := hall (exLocal 0) ⟨11, some 2⟩ (by decide) hb (.inr (by decide))
  simp only [] at hret
  have hent : ∀ k e, AMap.get [(exAny 0, (⟨10, some 1⟩ : LEntry)), (exLocal 0, ⟨11, some 2⟩)] k = some e →
      e.pending = some 2 → e.id = 11 := by
    intro k e hg hp
    simp only [AMap.get] at hg
    split at hg
    · simp only [Option.some.injEq] at hg; rw [← hg] at hp; simp at hp
    · split at hg
      · simp only [Option.some.injEq] at hg; rw [← hg]
      · simp at hg
  refine ⟨⟨m, [11, 10]⟩, ?_, ?_⟩
  · refine (listen_run_snoc ListenState.init
      [.add (exAny 0) (some 1) (some 10), .add (exLocal 0) (some 2) (some 11)] (.bound (exLocal 4001) 10 order)
      ⟨m, [11, 10]⟩ [.answer 2 (.ok (exLocal 4001))]).mpr ⟨_, _, _, h0, ?_, rfl⟩
    simp only [ListenState.step, hc, tell, hret]
  · cases complete_cases hc with
    | exact e hg => simp [AMap.get, exAny, exLocal] at hg
    | port k e hn hk hbk hg => rw [AMap.get_set_eq, hent k e hg hret]
    | anyIp k e hn hu hbk hp hg => rw [AMap.get_set_eq, hent k e hg hret]
    | ignored => simp at hret

/-- **C50** Only as many components as the report has are compared: a report of an address of another kind but
of the same number of bytes answers a request for any ip. -/
theorem C50_prefix :
    ListenState.init.run [.add [.ip4 0 0 0 0, .tcp 0, .other 477 []] (some 1) (some 10),
      .bound [.memory 5] 99 id] =
      .ok (⟨[([.memory 5], ⟨10, none⟩)], [10]⟩, [.answer 1 (.ok [.memory 5])]) ∧
    ¬ Binds [.ip4 0 0 0 0, .tcp 0, .other 477 []] [.memory 5] := by
  refine ⟨by decide +kernel, ?_⟩
  rintro (h | ⟨i, i', r', b', h1, h2, -, h3, -⟩)
  · have := (portsBind_get h).1
    simp at this
  · simp only [List.cons.injEq] at h1 h2
    obtain ⟨rfl, -⟩ := h1
    obtain ⟨rfl, -⟩ := h2
    rcases h3 with ⟨_, _, _, _, _, _, _, _, -, h⟩ | ⟨_, _, -, h⟩ <;> simp at h

end Verif.Props
