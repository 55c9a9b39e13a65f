import Verif.Net.Bootstrap
import Verif.Props.Addr

/-!
# C74: the bootstrappers of a node
-/

namespace Verif.Props

open Verif Verif.Ipfs Verif.Net

/-! ### Specification -/

/-- The change puts the address on the list. -/
def BootPuts (defaults : List AddrPeer) (a : AddrPeer) : BootOp → Prop
  | .add b => b = a
  | .remove _ => False
  | .clear => False
  | .restore => a ∈ defaults

/-- The change takes the address off the list. -/
def BootDrops (a : AddrPeer) : BootOp → Prop
  | .add _ => False
  | .remove b => b = a
  | .clear => True
  | .restore => False

/-- The address was put on the list, or was on it before, and not taken off it since. -/
def BootListed (defaults : List AddrPeer) (before : Prop) (a : AddrPeer) (h : List BootOp) : Prop :=
  (before ∧ ∀ o ∈ h, ¬ BootDrops a o) ∨
  ∃ h1 o h2, h = h1 ++ o :: h2 ∧ BootPuts defaults a o ∧ ∀ o' ∈ h2, ¬ BootDrops a o'

/-- What the calls mean for a routing table. -/
def obey {K : Type} (R : Routing K) (k : K) : List KadTell → K
  | [] => k
  | .learn p a :: l => obey R (R.add k p a) l
  | .forget p a :: l => obey R (R.remove k p a).1 l

/-- The calls about one address, in order: `true` to learn it, `false` to forget it. -/
def callsAbout (x : AddrPeer) : List KadTell → List Bool
  | [] => []
  | .learn p a :: l => if p = x.peer ∧ a = x.multiaddr.addr then true :: callsAbout x l else callsAbout x l
  | .forget p a :: l => if p = x.peer ∧ a = x.multiaddr.addr then false :: callsAbout x l else callsAbout x l

/-- The calls follow an address going on and off the list: no call comes twice in a row. -/
inductive Swings : Prop → List Bool → Prop → Prop
  | stay {p q : Prop} : (p ↔ q) → Swings p [] q
  | on {p q : Prop} {l : List Bool} : ¬ p → Swings True l q → Swings p (true :: l) q
  | off {p q : Prop} {l : List Bool} : p → Swings False l q → Swings p (false :: l) q

/-- Which of the addresses a routing table says it knew when told to forget them one after the other. -/
inductive BootReported {K : Type} (R : Routing K) : K → List AddrPeer → List AddrPeer → Prop
  | nil (k) : BootReported R k [] []
  | known {k a l r} : (R.remove k a.peer a.multiaddr.addr).2 = true →
      BootReported R (R.remove k a.peer a.multiaddr.addr).1 l r → BootReported R k (a :: l) (a :: r)
  | unknown {k a l r} : (R.remove k a.peer a.multiaddr.addr).2 = false →
      BootReported R (R.remove k a.peer a.multiaddr.addr).1 l r → BootReported R k (a :: l) r

/-! ### Helpers -/

variable {K : Type}

theorem callsAbout_append (x : AddrPeer) (l m : List KadTell) : callsAbout x (l ++ m) = callsAbout x l ++ callsAbout x m := by
  induction l with
  | nil => rfl
  | cons t l ih => cases t <;> simp only [List.cons_append, callsAbout, ih] <;> split <;> simp

theorem obey_append (R : Routing K) (k : K) (l m : List KadTell) : obey R k (l ++ m) = obey R (obey R k l) m := by
  induction l generalizing k with
  | nil => rfl
  | cons t l ih => cases t <;> simp only [List.cons_append, obey, ih]

theorem Swings.congr {p p' q q' : Prop} {l : List Bool} (h : Swings p l q) (hp : p ↔ p') (hq : q ↔ q') : Swings p' l q' := by
  have e1 := propext hp
  have e2 := propext hq
  subst e1 e2
  exact h

theorem Swings.trans {p q r : Prop} {l m : List Bool} (h : Swings p l q) (h2 : Swings q m r) : Swings p (l ++ m) r := by
  induction h with
  | stay e => exact h2.congr e.symm Iff.rfl
  | on hp _ ih => exact .on hp (ih h2)
  | off hp _ ih => exact .off hp (ih h2)

theorem same_iff (a x : AddrPeer) : (a.peer = x.peer ∧ a.multiaddr.addr = x.multiaddr.addr) ↔ a = x := by
  obtain ⟨⟨m⟩, p⟩ := a
  obtain ⟨⟨m'⟩, p'⟩ := x
  simp [and_comm]

theorem callsAbout_learn (a x : AddrPeer) : callsAbout x [.learn a.peer a.multiaddr.addr] = if a = x then [true] else [] := by
  simp only [callsAbout, same_iff]

theorem callsAbout_forget (a x : AddrPeer) : callsAbout x [.forget a.peer a.multiaddr.addr] = if a = x then [false] else [] := by
  simp only [callsAbout, same_iff]

/-- What a change does, as one statement. -/
structure Moved (R : Routing K) (s s' : BootSt K) : Prop where
  nodup : s'.boots.Nodup
  calls : ∃ new, s'.told = new.reverse ++ s.told ∧ s'.kad = obey R s.kad new ∧
    ∀ x, Swings (x ∈ s.boots) (callsAbout x new) (x ∈ s'.boots)

theorem Moved.refl (R : Routing K) (s : BootSt K) (h : s.boots.Nodup) : Moved R s s :=
  ⟨h, [], rfl, rfl, fun _ => .stay Iff.rfl⟩

theorem Moved.trans {R : Routing K} {s s' s'' : BootSt K} (h : Moved R s s') (h2 : Moved R s' s'') : Moved R s s'' := by
  obtain ⟨-, n1, a1, b1, c1⟩ := h
  obtain ⟨hn, n2, a2, b2, c2⟩ := h2
  refine ⟨hn, n1 ++ n2, by simp [a2, a1], by rw [b2, b1, obey_append], fun x => ?_⟩
  rw [callsAbout_append]
  exact (c1 x).trans (c2 x)

theorem moved_add (R : Routing K) (s : BootSt K) (a : AddrPeer) (hn : s.boots.Nodup) :
    Moved R s (s.add R a).1 ∧ ∀ x, x ∈ (s.add R a).1.boots ↔ x = a ∨ x ∈ s.boots := by
  unfold BootSt.add
  by_cases h : a ∈ s.boots
  · rw [if_pos h]
    refine ⟨.refl R s hn, fun x => ⟨Or.inr, ?_⟩⟩
    rintro (rfl | h')
    · exact h
    · exact h'
  · rw [if_neg h]
    refine ⟨⟨?_, [.learn a.peer a.multiaddr.addr], rfl, rfl, fun x => ?_⟩, fun x => by simp [BootSt.learn]⟩
    · simp only [BootSt.learn]
      exact List.nodup_cons.mpr ⟨h, hn⟩
    · rw [callsAbout_learn]
      by_cases hx : a = x
      · subst hx
        rw [if_pos rfl]
        exact .on h (.stay (by simp [BootSt.learn]))
      · rw [if_neg hx]
        exact .stay (by simp [BootSt.learn, Ne.symm hx])

theorem moved_remove (R : Routing K) (s : BootSt K) (a : AddrPeer) (hn : s.boots.Nodup) :
    Moved R s (s.remove R a).1 ∧ ∀ x, x ∈ (s.remove R a).1.boots ↔ x ≠ a ∧ x ∈ s.boots := by
  unfold BootSt.remove
  by_cases h : a ∈ s.boots
  · rw [if_pos h]
    refine ⟨⟨?_, [.forget a.peer a.multiaddr.addr], rfl, rfl, fun x => ?_⟩, fun x => by simp [BootSt.forget, and_comm]⟩
    · simp only [BootSt.forget]
      exact hn.filter _
    · rw [callsAbout_forget]
      by_cases hx : a = x
      · subst hx
        rw [if_pos rfl]
        exact .off h (.stay (by simp [BootSt.forget]))
      · rw [if_neg hx]
        exact .stay (by simp [BootSt.forget, Ne.symm hx])
  · rw [if_neg h]
    refine ⟨.refl R s hn, fun x => ⟨fun hx => ⟨?_, hx⟩, fun hx => hx.2⟩⟩
    rintro rfl
    exact h hx

theorem forgetAll_spec (R : Routing K) (l : List AddrPeer) (s : BootSt K) :
    (s.forgetAll R l).1.boots = s.boots ∧
    (s.forgetAll R l).1.told = (l.map (fun a => KadTell.forget a.peer a.multiaddr.addr)).reverse ++ s.told ∧
    (s.forgetAll R l).1.kad = obey R s.kad (l.map (fun a => KadTell.forget a.peer a.multiaddr.addr)) ∧
    ∃ r, BootReported R s.kad l r ∧ (s.forgetAll R l).2 = r.map AddrPeer.toAddr := by
  induction l generalizing s with
  | nil => exact ⟨rfl, rfl, rfl, [], .nil _, rfl⟩
  | cons a l ih =>
    obtain ⟨h1, h2, h3, r, h4, h5⟩ := ih (s.forget R a.peer a.multiaddr.addr).1
    simp only [BootSt.forgetAll]
    refine ⟨h1, ?_, h3, ?_⟩
    · rw [h2]; simp [BootSt.forget]
    · rw [h5]
      cases hk : (R.remove s.kad a.peer a.multiaddr.addr).2 with
      | true => exact ⟨a :: r, .known hk h4, by simp [BootSt.forget, hk]⟩
      | false => exact ⟨r, .unknown hk h4, by simp [BootSt.forget, hk]⟩

theorem callsAbout_forgets (x : AddrPeer) (l : List AddrPeer) (hn : l.Nodup) :
    callsAbout x (l.map (fun a => KadTell.forget a.peer a.multiaddr.addr)) = if x ∈ l then [false] else [] := by
  induction l with
  | nil => rfl
  | cons a l ih =>
    obtain ⟨h1, h2⟩ := List.nodup_cons.mp hn
    rw [List.map_cons, ← List.singleton_append, callsAbout_append, callsAbout_forget, ih h2]
    by_cases hx : a = x
    · subst hx; simp [h1]
    · simp [hx, Ne.symm hx]

theorem moved_clear (R : Routing K) (order : List AddrPeer → List AddrPeer) (ho : ∀ l, (order l).Perm l) (s : BootSt K)
    (hn : s.boots.Nodup) : Moved R s (s.clear R order).1 ∧ (s.clear R order).1.boots = [] := by
  obtain ⟨h1, h2, h3, -⟩ := forgetAll_spec R (order s.boots) { s with boots := [] }
  have hb : (s.clear R order).1.boots = [] := h1
  refine ⟨⟨by rw [hb]; exact List.nodup_nil, _, h2, h3, fun x => ?_⟩, hb⟩
  rw [callsAbout_forgets x _ ((ho _).nodup_iff.mpr hn), hb]
  by_cases hx : x ∈ s.boots
  · rw [if_pos ((ho _).mem_iff.mpr hx)]
    exact .off hx (.stay (by simp))
  · rw [if_neg (fun h => hx ((ho _).mem_iff.mp h))]
    exact .stay (by simp [hx])

theorem moved_restore (R : Routing K) (ds : List AddrPeer) (s : BootSt K) (hn : s.boots.Nodup) :
    Moved R s (s.restore R ds).1 ∧ (∀ x, x ∈ (s.restore R ds).1.boots ↔ x ∈ ds ∨ x ∈ s.boots) ∧
    ∃ r : List AddrPeer, (s.restore R ds).2 = r.map AddrPeer.toAddr ∧ r.Nodup ∧ ∀ x, x ∈ r ↔ x ∈ ds ∧ x ∉ s.boots := by
  induction ds generalizing s with
  | nil => exact ⟨.refl R s hn, by simp [BootSt.restore], [], rfl, List.nodup_nil, by simp⟩
  | cons a ds ih =>
    have hadd := moved_add R s a hn
    rw [BootSt.add] at hadd
    rw [BootSt.restore]
    by_cases h : a ∈ s.boots
    · rw [if_pos h]
      obtain ⟨h1, h2, r, h3, h4, h5⟩ := ih s hn
      refine ⟨h1, fun x => ?_, r, h3, h4, fun x => ?_⟩
      · rw [h2]
        constructor
        · rintro (hx | hx)
          · exact .inl (List.mem_cons_of_mem _ hx)
          · exact .inr hx
        · rintro (hx | hx)
          · rcases List.mem_cons.mp hx with rfl | hx
            · exact .inr h
            · exact .inl hx
          · exact .inr hx
      · rw [h5]
        constructor
        · rintro ⟨hx, hy⟩; exact ⟨List.mem_cons_of_mem _ hx, hy⟩
        · rintro ⟨hx, hy⟩
          rcases List.mem_cons.mp hx with rfl | hx
          · exact absurd h hy
          · exact ⟨hx, hy⟩
    · rw [if_neg h] at hadd ⊢
      obtain ⟨m1, m2⟩ := hadd
      dsimp only at m1 m2
      obtain ⟨h1, h2, r, h3, h4, h5⟩ := ih (({ s with boots := a :: s.boots } : BootSt K).learn R a.peer a.multiaddr.addr) m1.nodup
      dsimp only
      refine ⟨m1.trans h1, fun x => ?_, a :: r, by rw [h3, List.map_cons], ?_, fun x => ?_⟩
      · rw [h2, m2, List.mem_cons]
        constructor
        · rintro (hx | hx | hx)
          · exact .inl (.inr hx)
          · exact .inl (.inl hx)
          · exact .inr hx
        · rintro ((hx | hx) | hx)
          · exact .inr (.inl hx)
          · exact .inl hx
          · exact .inr (.inr hx)
      · refine List.nodup_cons.mpr ⟨fun ha => ?_, h4⟩
        exact ((h5 a).mp ha).2 ((m2 a).mpr (.inl rfl))
      · rw [List.mem_cons, h5, m2, List.mem_cons]
        constructor
        · rintro (rfl | ⟨hx, hy⟩)
          · exact ⟨.inl rfl, h⟩
          · exact ⟨.inr hx, fun hb => hy (.inr hb)⟩
        · rintro ⟨rfl | hx, hy⟩
          · exact .inl rfl
          · by_cases e : x = a
            · exact .inl e
            · exact .inr ⟨hx, fun hb => hb.elim e hy⟩

theorem moved_op (R : Routing K) (order : List AddrPeer → List AddrPeer) (ho : ∀ l, (order l).Perm l) (ds : List AddrPeer)
    (s : BootSt K) (hn : s.boots.Nodup) (o : BootOp) :
    Moved R s (s.op R order ds o).1 ∧
    ∀ x, x ∈ (s.op R order ds o).1.boots ↔ BootPuts ds x o ∨ (x ∈ s.boots ∧ ¬ BootDrops x o) := by
  cases o with
  | add a =>
    obtain ⟨h1, h2⟩ := moved_add R s a hn
    exact ⟨h1, fun x => by simp only [BootSt.op, BootPuts, BootDrops, not_false_eq_true, and_true, h2, eq_comm]⟩
  | remove a =>
    obtain ⟨h1, h2⟩ := moved_remove R s a hn
    exact ⟨h1, fun x => by simp only [BootSt.op, BootPuts, BootDrops, false_or, h2, eq_comm, and_comm, ne_eq]⟩
  | clear =>
    obtain ⟨h1, h2⟩ := moved_clear R order ho s hn
    exact ⟨h1, fun x => by simp only [BootSt.op, BootPuts, BootDrops, h2]; simp⟩
  | restore =>
    obtain ⟨h1, h2, -⟩ := moved_restore R ds s hn
    exact ⟨h1, fun x => by simp only [BootSt.op, BootPuts, BootDrops, not_false_eq_true, and_true, h2]⟩

theorem bootListed_cons (ds : List AddrPeer) (before : Prop) (x : AddrPeer) (o : BootOp) (h : List BootOp) :
    BootListed ds before x (o :: h) ↔ BootListed ds (BootPuts ds x o ∨ (before ∧ ¬ BootDrops x o)) x h := by
  constructor
  · rintro (⟨hb, hd⟩ | ⟨h1, o', h2, he, hp, hd⟩)
    · exact .inl ⟨.inr ⟨hb, hd o (by simp)⟩, fun o' ho' => hd o' (by simp [ho'])⟩
    · cases h1 with
      | nil =>
        simp only [List.nil_append, List.cons.injEq] at he
        obtain ⟨rfl, rfl⟩ := he
        exact .inl ⟨.inl hp, hd⟩
      | cons c h1 =>
        simp only [List.cons_append, List.cons.injEq] at he
        obtain ⟨rfl, rfl⟩ := he
        exact .inr ⟨h1, o', h2, rfl, hp, hd⟩
  · rintro (⟨hp | ⟨hb, hd'⟩, hd⟩ | ⟨h1, o', h2, rfl, hp, hd⟩)
    · exact .inr ⟨[], o, h, rfl, hp, hd⟩
    · refine .inl ⟨hb, fun o' ho' => ?_⟩
      rcases List.mem_cons.mp ho' with rfl | ho'
      · exact hd'
      · exact hd o' ho'
    · exact .inr ⟨o :: h1, o', h2, rfl, hp, hd⟩

/-! ### The list -/

/-- **C74**: after any history an address is on the list just if it was put on it, or was on it before, and was not
taken off it since, in whatever order the set is iterated. It is on the list once. The routing table was told of
exactly the changes: to learn an address whenever it came on the list, to forget it whenever it went off it, and
nothing else. -/
theorem C74_listed (R : Routing K) (ds : List AddrPeer) (h : List (BootOp × (List AddrPeer → List AddrPeer)))
    (ho : ∀ e ∈ h, ∀ l, (e.2 l).Perm l) (s : BootSt K) (hn : s.boots.Nodup) :
    (∀ x, x ∈ (s.run R ds h).boots ↔ BootListed ds (x ∈ s.boots) x (h.map Prod.fst)) ∧
    (s.run R ds h).boots.Nodup ∧
    ∃ new, (s.run R ds h).told = new.reverse ++ s.told ∧ (s.run R ds h).kad = obey R s.kad new ∧
      ∀ x, Swings (x ∈ s.boots) (callsAbout x new) (x ∈ (s.run R ds h).boots) := by
  have key : Moved R s (s.run R ds h) ∧ ∀ x, x ∈ (s.run R ds h).boots ↔ BootListed ds (x ∈ s.boots) x (h.map Prod.fst) := by
    induction h generalizing s with
    | nil =>
      refine ⟨.refl R s hn, fun x => ?_⟩
      simp only [BootSt.run, List.map_nil, BootListed, List.not_mem_nil, false_implies, implies_true, and_true]
      constructor
      · exact .inl
      · rintro (hx | ⟨h1, o, h2, he, -⟩)
        · exact hx
        · simp at he
    | cons e h ih =>
      obtain ⟨o, order⟩ := e
      obtain ⟨m1, m2⟩ := moved_op R order (ho (o, order) (by simp)) ds s hn o
      obtain ⟨i1, i2⟩ := ih (fun e he => ho e (by simp [he])) _ m1.nodup
      refine ⟨m1.trans i1, fun x => ?_⟩
      rw [BootSt.run, i2, List.map_cons, bootListed_cons]
      rw [propext (m2 x)]
  exact ⟨key.2, key.1.nodup, key.1.calls⟩

/-- **C74**: what the events answer. The list is told in full; adding and removing answer the address, whether it
was on the list or not; restoring answers what was not on it; clearing answers, of the addresses that were on it,
those that the routing table says it knew. -/
theorem C74_answers (R : Routing K) (ds : List AddrPeer) (order : List AddrPeer → List AddrPeer)
    (ho : ∀ l, (order l).Perm l) (s : BootSt K) (hn : s.boots.Nodup) :
    (s.list order).Perm (s.boots.map AddrPeer.toAddr) ∧
    (∀ a, (s.op R order ds (.add a)).2 = [a.toAddr]) ∧
    (∀ a, (s.op R order ds (.remove a)).2 = [a.toAddr]) ∧
    (∃ r : List AddrPeer, (s.op R order ds .restore).2 = r.map AddrPeer.toAddr ∧ r.Nodup ∧ ∀ x, x ∈ r ↔ x ∈ ds ∧ x ∉ s.boots) ∧
    (∃ r, (s.op R order ds .clear).2 = r.map AddrPeer.toAddr ∧ BootReported R s.kad (order s.boots) r) := by
  refine ⟨(ho s.boots).map _, fun a => ?_, fun a => ?_, (moved_restore R ds s hn).2.2, ?_⟩
  · simp only [BootSt.op, BootSt.add]; split <;> rfl
  · simp only [BootSt.op, BootSt.remove]; split <;> rfl
  · obtain ⟨-, -, -, r, h1, h2⟩ := forgetAll_spec R (order s.boots) { s with boots := [] }
    exact ⟨r, h2, h1⟩

/-- **C74**: clearing answers nothing that was not on the list, and all of it if the routing table knows every
address it is told to forget. -/
theorem C74_reported (R : Routing K) (k : K) (l r : List AddrPeer) (h : BootReported R k l r) :
    r.Sublist l ∧ ((∀ k p a, (R.remove k p a).2 = true) → r = l) ∧ ((∀ k p a, (R.remove k p a).2 = false) → r = []) := by
  induction h with
  | nil => exact ⟨.slnil, fun _ => rfl, fun _ => rfl⟩
  | known hk _ ih =>
    exact ⟨ih.1.cons_cons _, fun h => by rw [ih.2.1 h], fun h => absurd hk (by simp [h])⟩
  | unknown hk _ ih =>
    exact ⟨ih.1.cons _, fun h => absurd hk (by simp [h]), fun h => ih.2.2 h⟩

/-! ### The addresses a node is started with -/

theorem learnAll_spec (R : Routing K) (o : List (Maddr × PeerId)) (s : BootSt K) :
    (s.learnAll R o).boots = s.boots ∧ (s.learnAll R o).told = (o.map (fun e => KadTell.learn e.2 e.1)).reverse ++ s.told ∧
    (s.learnAll R o).kad = obey R s.kad (o.map (fun e => KadTell.learn e.2 e.1)) := by
  induction o generalizing s with
  | nil => exact ⟨rfl, rfl, rfl⟩
  | cons e o ih =>
    obtain ⟨a, p⟩ := e
    obtain ⟨h1, h2, h3⟩ := ih (s.learn R p a)
    refine ⟨h1, ?_, h3⟩
    rw [BootSt.learnAll, h2]; simp [BootSt.learn]

theorem insertAll_spec (debug : Bool) (o : List (Maddr × PeerId)) (s : BootSt K) (hn : s.boots.Nodup) :
    (s.insertAll debug o = none ↔ ∃ e ∈ o, AddrPeer.ofAddr debug e.1 = .error .debugAssert) ∧
    ∀ s', s.insertAll debug o = some s' → s'.kad = s.kad ∧ s'.told = s.told ∧ s'.boots.Nodup ∧
      ∀ x, x ∈ s'.boots ↔ x ∈ s.boots ∨ ∃ e ∈ o, AddrPeer.ofAddr debug e.1 = .ok x := by
  induction o generalizing s with
  | nil =>
    refine ⟨by simp [BootSt.insertAll], fun s' h => ?_⟩
    rw [BootSt.insertAll, Option.some.injEq] at h
    subst h
    exact ⟨rfl, rfl, hn, by simp⟩
  | cons e o ih =>
    obtain ⟨a, p⟩ := e
    rw [BootSt.insertAll]
    cases ha : AddrPeer.ofAddr debug a with
    | ok y =>
      dsimp only
      have hn' : (if y ∈ s.boots then s.boots else y :: s.boots).Nodup := by
        split
        · exact hn
        · rename_i h; exact List.nodup_cons.mpr ⟨h, hn⟩
      have hm : ∀ x, x ∈ (if y ∈ s.boots then s.boots else y :: s.boots) ↔ x = y ∨ x ∈ s.boots := by
        intro x
        split
        · rename_i h
          exact ⟨.inr, fun hx => hx.elim (fun e => e ▸ h) id⟩
        · simp
      obtain ⟨h1, h2⟩ := ih { s with boots := if y ∈ s.boots then s.boots else y :: s.boots } hn'
      refine ⟨by rw [h1]; simp [ha], fun s' hs => ?_⟩
      obtain ⟨g1, g2, g3, g4⟩ := h2 s' hs
      refine ⟨g1, g2, g3, fun x => ?_⟩
      rw [g4]
      dsimp only
      rw [hm]
      simp only [List.mem_cons, exists_eq_or_imp, ha, Except.ok.injEq]
      constructor
      · rintro ((rfl | hx) | hx)
        · exact .inr (.inl rfl)
        · exact .inl hx
        · exact .inr (.inr hx)
      · rintro (hx | rfl | hx)
        · exact .inl (.inr hx)
        · exact .inl (.inl rfl)
        · exact .inr hx
    | error er =>
      cases er with
      | debugAssert => exact ⟨by simp [ha], fun s' h => by simp at h⟩
      | containsP2p | invalidPeerId | missingP2p =>
        dsimp only
        obtain ⟨h1, h2⟩ := ih s hn
        refine ⟨by rw [h1]; simp [ha], fun s' hs => ?_⟩
        obtain ⟨g1, g2, g3, g4⟩ := h2 s' hs
        exact ⟨g1, g2, g3, fun x => by rw [g4]; simp [ha]⟩

/-- **C74**: a node starts with those of the configured addresses on the list that name a peer, without what names
it, and has told the routing table all of them as they were configured. Only a debug build can panic, and only for
an address that names a peer but ends in something else. -/
theorem C74_new (debug : Bool) (R : Routing K) (kad : K) (options : List (Maddr × PeerId)) :
    (BootSt.new debug R kad options = none ↔ ∃ e ∈ options, AddrPeer.ofAddr debug e.1 = .error .debugAssert) ∧
    ∀ s, BootSt.new debug R kad options = some s →
      s.boots.Nodup ∧
      (∀ x, x ∈ s.boots ↔ ∃ e ∈ options, FirstPeer e.1 x.peer.mhCode x.peer.digest ∧ GoodPeer x.peer.mhCode x.peer.digest ∧
        Stripped e.1 x.multiaddr.addr ∧ (debug = true → EndsInPeer e.1)) ∧
      s.told = (options.map (fun e => KadTell.learn e.2 e.1)).reverse ∧
      s.kad = obey R kad (options.map (fun e => KadTell.learn e.2 e.1)) := by
  obtain ⟨h1, h2, h3⟩ := learnAll_spec R options (⟨[], kad, []⟩ : BootSt K)
  obtain ⟨g1, g2⟩ := insertAll_spec debug options ((⟨[], kad, []⟩ : BootSt K).learnAll R options) (by rw [h1]; exact List.nodup_nil)
  refine ⟨g1, fun s hs => ?_⟩
  obtain ⟨f1, f2, f3, f4⟩ := g2 s hs
  refine ⟨f3, fun x => ?_, by rw [f2, h2]; simp, by rw [f1, h3]⟩
  rw [f4, h1]
  simp only [List.not_mem_nil, false_or, C49_parse]

/-! ### What goes wrong -/

/-- A routing table that keeps what it was told: it knows an address it was told to learn and not to forget. -/
def setTable : Routing (List (PeerId × Maddr)) :=
  ⟨fun k p a => (p, a) :: k, fun k p a => (k.filter (fun e => e ≠ (p, a)), decide ((p, a) ∈ k))⟩

/-- A routing table that removes peers with their last address, and reports only that (`remove_address` of libp2p). -/
def peerTable : Routing (List (PeerId × Maddr)) :=
  ⟨fun k p a => if (p, a) ∈ k then k else (p, a) :: k,
   fun k p a =>
    if k.any (fun e => e.1 = p ∧ e.2 ≠ a) then (k.filter (fun e => e ≠ (p, a)), false)
    else (k.filter (fun e => e.1 ≠ p), k.any (fun e => e.1 = p))⟩

/-- **C74** The routing table is not told to forget a configured address when it is taken off the list: it learned
it with the part that names the peer and is told to forget it without. Clearing the list then answers nothing,
though the list was not empty, and the table still has the address. -/
theorem C74_configured :
    ∃ s, BootSt.new true setTable [] [(exHost ++ [.p2p exPeerA.mhCode exPeerA.digest], exPeerA)] = some s ∧
      s.boots = [⟨⟨exHost⟩, exPeerA⟩] ∧
      ((s.op setTable id [] .clear).2 = []) ∧ (s.op setTable id [] .clear).1.boots = [] ∧
      (s.op setTable id [] .clear).1.kad = s.kad ∧ s.kad = [(exPeerA, exHost ++ [.p2p exPeerA.mhCode exPeerA.digest])] ∧
      (s.op setTable id [] (.remove ⟨⟨exHost⟩, exPeerA⟩)).1.kad = s.kad := by
  refine ⟨_, rfl, ?_, ?_, ?_, ?_, ?_, ?_⟩ <;> decide +kernel

/-- **C74** A configured address without a peer id is never on the list, though the routing table is told it. -/
theorem C74_unlisted (debug : Bool) (R : Routing K) (kad : K) (a : Maddr) (p : PeerId) (h : ¬ NamesPeer a) :
    BootSt.new debug R kad [(a, p)] = some ⟨[], R.add kad p a, [.learn p a]⟩ := by
  simp [BootSt.new, BootSt.learnAll, BootSt.insertAll, (C49_missing debug a).mpr h, BootSt.learn]

/-- **C74** Of two addresses of a peer clearing answers only one, though both are taken off the list. -/
theorem C74_clear_silent :
    let s := ((⟨[], [], []⟩ : BootSt _).run peerTable [] [(.add ⟨⟨exHost⟩, exPeerA⟩, id), (.add ⟨⟨[.tcp 1]⟩, exPeerA⟩, id)])
    s.boots = [⟨⟨[.tcp 1]⟩, exPeerA⟩, ⟨⟨exHost⟩, exPeerA⟩] ∧
    (s.op peerTable id [] .clear).2 = [AddrPeer.toAddr ⟨⟨exHost⟩, exPeerA⟩] ∧ (s.op peerTable id [] .clear).1.boots = [] ∧
    (s.op peerTable id [] .clear).1.kad = [] := by
  refine ⟨?_, ?_, ?_, ?_⟩ <;> decide +kernel

/-! ### Examples -/

/-- A history with all changes: the address that was added twice and removed is gone, the default is there. -/
def exBootHistory : List (BootOp × (List AddrPeer → List AddrPeer)) :=
  [(.add ⟨⟨exHost⟩, exPeerA⟩, id), (.restore, id), (.clear, List.reverse), (.add ⟨⟨exHost⟩, exPeerA⟩, id),
   (.add ⟨⟨exHost⟩, exPeerA⟩, id), (.restore, id), (.remove ⟨⟨exHost⟩, exPeerA⟩, id)]

example : (∀ e ∈ exBootHistory, ∀ l, (e.2 l).Perm l) ∧ (⟨[], [], []⟩ : BootSt (List (PeerId × Maddr))).boots.Nodup := by
  refine ⟨?_, List.nodup_nil⟩
  intro e he l
  simp only [exBootHistory, List.mem_cons, List.not_mem_nil, or_false] at he
  rcases he with rfl | rfl | rfl | rfl | rfl | rfl | rfl
  all_goals first | exact .refl _ | exact List.reverse_perm _

example : ((⟨[], [], []⟩ : BootSt _).run setTable [⟨⟨[.tcp 1]⟩, exPeerB⟩] exBootHistory).boots = [⟨⟨[.tcp 1]⟩, exPeerB⟩] := by
  decide +kernel

example : callsAbout ⟨⟨exHost⟩, exPeerA⟩
    ((⟨[], [], []⟩ : BootSt _).run setTable [⟨⟨[.tcp 1]⟩, exPeerB⟩] exBootHistory).told.reverse = [true, false, true, false] := by
  decide +kernel

end Verif.Props
