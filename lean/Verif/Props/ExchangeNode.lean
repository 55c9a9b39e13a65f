import Verif.Props.ExchangeBase

/-!
# Helpers for C73: what one event does to a node and to what is on its way
-/

namespace Verif.Props

open Verif Verif.Repo Verif.Repo.Subs Verif.Bitswap Verif.Net
open Verif.Bitswap.Bitswap

variable {P : Type} [DecidableEq P]

/-! ### An event as something that happens to one node -/

/-- What happens to a node. -/
inductive Lab (P : Type) where
  | get (c : Cid)
  | put (b : Block)
  | remove (c : Cid)
  | await (i : Nat)
  | drop (i : Nat)
  | event
  | swarm (order : List P)
  | look (k : Nat)
  | save (k : Nat)
  | established (y : P)
  | closed (y : P)
  | arrive (y : P) (bs : Bytes)

/-- The outcome of a poll for the node, and the message that goes out. -/
def pollOutcome (r : Option (Action P) × Peer P) : Option (P × Message) × Peer P :=
  match r.1 with
  | some (.notify y m) => (some (y, m), r.2)
  | some (.generate (.want y c _)) => (none, { r.2 with lookups := r.2.lookups ++ [(y, c)] })
  | _ => (none, r.2)

/-- The node afterwards, and the message that goes out. -/
def peerMove (H : Hashes) (debug : Bool) (n : Peer P) : Lab P → Option (Option (P × Message) × Peer P)
  | .get c => some (none, (n.get c).2)
  | .put b => (n.put debug b).map (fun r => (none, r.2))
  | .remove c => some (none, { n with store := (n.store.remove c).1 })
  | .await i => some (none, { n with reg := ((n.reg.poll i).map Prod.fst).getD n.reg })
  | .drop i => some (none, n.drop i)
  | .event => n.event.map (fun x => (none, x))
  | .swarm order => (n.bitswap (.poll order)).map pollOutcome
  | .look k => (n.look k).map (fun x => (none, x))
  | .save k => (n.save debug k).map (fun x => (none, x))
  | .established y => (n.bitswap (.established y)).map (fun r => (none, r.2))
  | .closed y => (n.bitswap (.closed y)).map (fun r => (none, r.2))
  | .arrive y bs => (n.arrive H y bs).map (fun x => (none, x))

/-- To whom what happens. -/
def evLab (s : NetSt P) : NetEv P → Option (P × Lab P)
  | .get x c => some (x, .get c)
  | .put x b => some (x, .put b)
  | .remove x c => some (x, .remove c)
  | .await x i => some (x, .await i)
  | .drop x i => some (x, .drop i)
  | .event x => some (x, .event)
  | .swarm x order => some (x, .swarm order)
  | .look x k => some (x, .look k)
  | .save x k => some (x, .save k)
  | .established x y => some (x, .established y)
  | .closed x y => some (x, .closed y)
  | .deliver k => (s.flight[k]?).map (fun f => (f.receiver, .arrive f.sender f.bytes))
  | .lose _ => none
  | .bytes x y bs => some (x, .arrive y bs)

/-- What stays on its way. -/
def restFlight (s : NetSt P) : NetEv P → List (Parcel P)
  | .deliver k => s.flight.eraseIdx k
  | .lose k => s.flight.eraseIdx k
  | _ => s.flight

/-- What goes out. -/
def parcels (x : P) (a : Option (P × Message)) : List (Parcel P) := a.toList.map (fun e => ⟨x, e.1, e.2.frame⟩)

theorem upd_self (s : NetSt P) (x : P) (n : Peer P) : (s.upd x n).node x = n := by simp [NetSt.upd]

theorem upd_other (s : NetSt P) {x y : P} (n : Peer P) (h : y ≠ x) : (s.upd x n).node y = s.node y := by simp [NetSt.upd, h]

theorem act_eq (s : NetSt P) (x : P) (r : Option (Action P) × Peer P) : s.act x r.2 r.1 =
    { s.upd x (pollOutcome r).2 with flight := s.flight ++ parcels x (pollOutcome r).1 } := by
  obtain ⟨a, n⟩ := r
  cases a with
  | none => simp [NetSt.act, pollOutcome, parcels, NetSt.upd]
  | some a =>
    cases a with
    | dial p => simp [NetSt.act, pollOutcome, parcels, NetSt.upd]
    | notify p m => simp [NetSt.act, pollOutcome, parcels, NetSt.upd]
    | generate e => cases e <;> simp [NetSt.act, pollOutcome, parcels, NetSt.upd]

/-- Every event is something that happens to one node, or to a frame. -/
theorem net_step {H : Hashes} {debug : Bool} {s s' : NetSt P} {ev : NetEv P} (h : s.step H debug ev = some s') :
    (evLab s ev = none ∧ s'.node = s.node ∧ s'.flight = restFlight s ev) ∨
    ∃ x lab a n', evLab s ev = some (x, lab) ∧ peerMove H debug (s.node x) lab = some (a, n') ∧ s'.node x = n' ∧
      (∀ y, y ≠ x → s'.node y = s.node y) ∧ s'.flight = restFlight s ev ++ parcels x a := by
  have fin : ∀ (x : P) (lab : Lab P) (n' : Peer P), evLab s ev = some (x, lab) → peerMove H debug (s.node x) lab = some (none, n') →
      s' = s.upd x n' → restFlight s ev = s.flight →
      ∃ x lab a n', evLab s ev = some (x, lab) ∧ peerMove H debug (s.node x) lab = some (a, n') ∧ s'.node x = n' ∧
        (∀ y, y ≠ x → s'.node y = s.node y) ∧ s'.flight = restFlight s ev ++ parcels x a := by
    intro x lab n' h1 h2 h3 h4
    subst h3
    exact ⟨x, lab, none, n', h1, h2, upd_self _ _ _, fun y hy => upd_other _ _ hy, by rw [h4]; simp [parcels, NetSt.upd]⟩
  cases ev with
  | get x c => simp only [NetSt.step, Option.some.injEq] at h; exact Or.inr (fin x (.get c) _ rfl rfl h.symm rfl)
  | put x b =>
    simp only [NetSt.step, Option.map_eq_some_iff] at h
    obtain ⟨r, hr, h⟩ := h
    exact Or.inr (fin x (.put b) _ rfl (by simp only [peerMove, hr, Option.map_some]) h.symm rfl)
  | remove x c => simp only [NetSt.step, Option.some.injEq] at h; exact Or.inr (fin x (.remove c) _ rfl rfl h.symm rfl)
  | await x i => simp only [NetSt.step, Option.some.injEq] at h; exact Or.inr (fin x (.await i) _ rfl rfl h.symm rfl)
  | drop x i => simp only [NetSt.step, Option.some.injEq] at h; exact Or.inr (fin x (.drop i) _ rfl rfl h.symm rfl)
  | event x =>
    simp only [NetSt.step, Option.map_eq_some_iff] at h
    obtain ⟨r, hr, h⟩ := h
    exact Or.inr (fin x .event _ rfl (by simp only [peerMove, hr, Option.map_some]) h.symm rfl)
  | swarm x order =>
    simp only [NetSt.step, Option.map_eq_some_iff] at h
    obtain ⟨r, hr, h⟩ := h
    rw [act_eq] at h
    subst h
    exact Or.inr ⟨x, .swarm order, (pollOutcome r).1, (pollOutcome r).2, rfl, by simp only [peerMove, hr, Option.map_some],
      upd_self _ _ _, fun y hy => upd_other _ _ hy, rfl⟩
  | look x k =>
    simp only [NetSt.step, Option.map_eq_some_iff] at h
    obtain ⟨r, hr, h⟩ := h
    exact Or.inr (fin x (.look k) _ rfl (by simp only [peerMove, hr, Option.map_some]) h.symm rfl)
  | save x k =>
    simp only [NetSt.step, Option.map_eq_some_iff] at h
    obtain ⟨r, hr, h⟩ := h
    exact Or.inr (fin x (.save k) _ rfl (by simp only [peerMove, hr, Option.map_some]) h.symm rfl)
  | established x y =>
    simp only [NetSt.step, Option.map_eq_some_iff] at h
    obtain ⟨r, hr, h⟩ := h
    exact Or.inr (fin x (.established y) _ rfl (by simp only [peerMove, hr, Option.map_some]) h.symm rfl)
  | closed x y =>
    simp only [NetSt.step, Option.map_eq_some_iff] at h
    obtain ⟨r, hr, h⟩ := h
    exact Or.inr (fin x (.closed y) _ rfl (by simp only [peerMove, hr, Option.map_some]) h.symm rfl)
  | deliver k =>
    simp only [NetSt.step] at h
    cases hg : s.flight[k]? with
    | none =>
      simp only [hg, Option.some.injEq] at h
      subst h
      refine Or.inl ⟨by simp [evLab, hg], rfl, ?_⟩
      simp only [restFlight]
      rw [List.eraseIdx_of_length_le]
      exact List.getElem?_eq_none_iff.mp hg
    | some f =>
      simp only [hg, Option.map_eq_some_iff] at h
      obtain ⟨r, hr, h⟩ := h
      subst h
      exact Or.inr ⟨f.receiver, .arrive f.sender f.bytes, none, r, by simp [evLab, hg],
        by simp only [peerMove, hr, Option.map_some], upd_self _ _ _, fun y hy => upd_other _ _ hy,
        by simp [parcels, restFlight]⟩
  | lose k =>
    simp only [NetSt.step, Option.some.injEq] at h
    subst h
    exact Or.inl ⟨rfl, rfl, rfl⟩
  | bytes x y bs =>
    simp only [NetSt.step, Option.map_eq_some_iff] at h
    obtain ⟨r, hr, h⟩ := h
    exact Or.inr (fin x (.arrive y bs) _ rfl (by simp only [peerMove, hr, Option.map_some]) h.symm rfl)

/-! ### What of it is for the behaviour -/

/-- The operation of the behaviour. -/
def OpOf (H : Hashes) (n : Peer P) : Lab P → Bitswap.Op P → Prop
  | .event, op => ∃ e es, n.chan = e :: es ∧ op = (match e with | .want c => .want c 1 | .unwant c => .cancel c | .new c => .cancel c)
  | .swarm order, op => op = .poll order
  | .look k, op => ∃ p c b, n.lookups[k]? = some (p, c) ∧ n.store.getBlock c = some b ∧ op = .queue p b
  | .save k, op => ∃ e r, n.bits.tasks[k]? = some e ∧ op = .stored k (some r)
  | .established y, op => op = .established y
  | .closed y, op => op = .closed y
  | .arrive y bs, op => ∃ m, Message.unframe H bs = some m ∧ op = .received y m
  | _, _ => False

/-- Nothing for the behaviour. -/
def NoOp (H : Hashes) (n : Peer P) : Lab P → Prop
  | .event => n.chan = []
  | .swarm _ => False
  | .look k => ∀ p c, n.lookups[k]? = some (p, c) → n.store.getBlock c = none
  | .save k => n.bits.tasks[k]? = none
  | .established _ => False
  | .closed _ => False
  | .arrive _ bs => Message.unframe H bs = none
  | _ => True

theorem bitswap_some {n n' : Peer P} {op : Bitswap.Op P} {a : Option (Action P)} (h : n.bitswap op = some (a, n')) :
    n.bits.step op = some (a, n'.bits) ∧ n'.store = n.store ∧ n'.reg = n.reg ∧ n'.chan = n.chan ∧ n'.lookups = n.lookups := by
  unfold Peer.bitswap at h
  obtain ⟨r, hr, h⟩ := Option.map_eq_some_iff.mp h
  cases h
  exact ⟨hr, rfl, rfl, rfl, rfl⟩

omit [DecidableEq P] in
theorem put_bits {debug : Bool} {n n' : Peer P} {b : Block} {r : BlockPut} (h : n.put debug b = some (r, n')) :
    n'.bits = n.bits ∧ n'.lookups = n.lookups := by
  unfold Peer.put at h
  split at h
  · cases h; exact ⟨rfl, rfl⟩
  · split at h
    · cases h
    · cases h; exact ⟨rfl, rfl⟩

omit [DecidableEq P] in
theorem pollOutcome_bits (r : Option (Action P) × Peer P) : (pollOutcome r).2.bits = r.2.bits ∧ (pollOutcome r).2.store = r.2.store ∧
    (pollOutcome r).2.reg = r.2.reg ∧ (pollOutcome r).2.chan = r.2.chan ∧
    (∀ y m, (pollOutcome r).1 = some (y, m) ↔ r.1 = some (.notify y m)) ∧
    (∀ e ∈ r.2.lookups, e ∈ (pollOutcome r).2.lookups) ∧
    (∀ y c pr, r.1 = some (.generate (.want y c pr)) → (y, c) ∈ (pollOutcome r).2.lookups) := by
  obtain ⟨a, n⟩ := r
  cases a with
  | none => simp [pollOutcome]
  | some a =>
    cases a with
    | dial p => simp [pollOutcome]
    | notify p m => simp [pollOutcome]
    | generate e => cases e <;> simp +contextual [pollOutcome]

/-- Only a poll hands something out. -/
theorem only_poll {n n' : Bitswap.Node P} {op : Bitswap.Op P} {a : Option (Action P)} (h : n.step op = some (a, n')) :
    a = none ∨ ∃ order, op = .poll order := by
  cases op with
  | poll order => exact Or.inr ⟨order, rfl⟩
  | received p m =>
    simp only [Node.step, Option.map_eq_some_iff] at h
    obtain ⟨_, _, h⟩ := h
    cases h; exact Or.inl rfl
  | _ => cases h; exact Or.inl rfl

theorem no_message {n n' : Bitswap.Node P} {op : Bitswap.Op P} {a : Option (Action P)} (h : n.step op = some (a, n'))
    (ho : ∀ order, op ≠ .poll order) (y : P) (m : Message) : (none : Option (P × Message)) = some (y, m) ↔ a = some (.notify y m) := by
  rcases only_poll h with rfl | ⟨order, rfl⟩
  · simp
  · exact absurd rfl (ho order)

theorem move_bits {H : Hashes} {debug : Bool} {n n' : Peer P} {lab : Lab P} {a : Option (P × Message)}
    (h : peerMove H debug n lab = some (a, n')) :
    (a = none ∧ n'.bits = n.bits ∧ NoOp H n lab) ∨
    ∃ op act, OpOf H n lab op ∧ n.bits.step op = some (act, n'.bits) ∧
      (∀ y m, a = some (y, m) ↔ act = some (.notify y m)) := by
  cases lab with
  | get c =>
    simp only [peerMove, Option.some.injEq, Prod.mk.injEq] at h
    obtain ⟨rfl, rfl⟩ := h
    refine Or.inl ⟨rfl, ?_, trivial⟩
    unfold Peer.get; split <;> rfl
  | put b =>
    simp only [peerMove, Option.map_eq_some_iff] at h
    obtain ⟨⟨r, x⟩, hr, h⟩ := h
    cases h
    exact Or.inl ⟨rfl, (put_bits hr).1, trivial⟩
  | remove c =>
    simp only [peerMove, Option.some.injEq, Prod.mk.injEq] at h
    obtain ⟨rfl, rfl⟩ := h
    exact Or.inl ⟨rfl, rfl, trivial⟩
  | await c =>
    simp only [peerMove, Option.some.injEq, Prod.mk.injEq] at h
    obtain ⟨rfl, rfl⟩ := h
    exact Or.inl ⟨rfl, rfl, trivial⟩
  | drop c =>
    simp only [peerMove, Option.some.injEq, Prod.mk.injEq] at h
    obtain ⟨rfl, rfl⟩ := h
    refine Or.inl ⟨rfl, ?_, trivial⟩
    unfold Peer.drop
    split
    · rfl
    · split <;> rfl
  | event =>
    simp only [peerMove, Option.map_eq_some_iff] at h
    obtain ⟨x, hx, h⟩ := h
    cases h
    cases hc : n.chan with
    | nil =>
      simp only [Peer.event, hc, Option.some.injEq] at hx
      subst hx; exact Or.inl ⟨rfl, rfl, hc⟩
    | cons e es =>
      right
      have hx' : ∃ r, Peer.bitswap { n with chan := es } (match e with | .want c => .want c 1 | .unwant c => .cancel c | .new c => .cancel c) = some r ∧ r.2 = n' := by
        cases e <;> simpa only [Peer.event, hc, Option.map_eq_some_iff] using hx
      obtain ⟨⟨act, r⟩, hr, rfl⟩ := hx'
      exact ⟨_, act, ⟨e, es, hc, rfl⟩, (bitswap_some hr).1, no_message (bitswap_some hr).1 (by cases e <;> simp)⟩
  | swarm order =>
    simp only [peerMove, Option.map_eq_some_iff] at h
    obtain ⟨r, hr, h⟩ := h
    right
    have hp := pollOutcome_bits r
    rw [h] at hp
    refine ⟨_, r.1, rfl, ?_, hp.2.2.2.2.1⟩
    rw [hp.1]
    exact (bitswap_some (n' := r.2) hr).1
  | look k =>
    simp only [peerMove, Option.map_eq_some_iff] at h
    obtain ⟨x, hx, h⟩ := h
    cases h
    cases hk : n.lookups[k]? with
    | none =>
      simp only [Peer.look, hk, Option.some.injEq] at hx
      subst hx
      exact Or.inl ⟨rfl, rfl, (by intro p c h; rw [hk] at h; cases h)⟩
    | some e =>
      obtain ⟨p, c⟩ := e
      cases hg : n.store.getBlock c with
      | none =>
        simp only [Peer.look, hk, hg, Option.some.injEq] at hx
        subst hx
        refine Or.inl ⟨rfl, rfl, ?_⟩
        intro p' c' h; rw [hk] at h; cases h; exact hg
      | some b =>
        simp only [Peer.look, hk, hg, Option.map_eq_some_iff] at hx
        obtain ⟨⟨act, r⟩, hr, rfl⟩ := hx
        exact Or.inr ⟨_, act, ⟨p, c, b, hk, hg, rfl⟩, (bitswap_some hr).1, no_message (bitswap_some hr).1 (by simp)⟩
  | save k =>
    simp only [peerMove, Option.map_eq_some_iff] at h
    obtain ⟨x, hx, h⟩ := h
    cases h
    cases hk : n.bits.tasks[k]? with
    | none =>
      simp only [Peer.save, hk, Option.some.injEq] at hx
      subst hx
      exact Or.inl ⟨rfl, rfl, hk⟩
    | some e =>
      obtain ⟨p, b⟩ := e
      cases hg : n.put debug b with
      | none => simp only [Peer.save, hk, hg] at hx; cases hx
      | some r0 =>
        obtain ⟨r0, n0⟩ := r0
        simp only [Peer.save, hk, hg, Option.map_eq_some_iff] at hx
        obtain ⟨⟨act, r⟩, hr, rfl⟩ := hx
        have hb := (bitswap_some hr).1
        rw [(put_bits hg).1] at hb
        exact Or.inr ⟨_, act, ⟨(p, b), r0, hk, rfl⟩, hb, no_message hb (by simp)⟩
  | established y =>
    simp only [peerMove, Option.map_eq_some_iff] at h
    obtain ⟨⟨act, r⟩, hr, h⟩ := h
    cases h
    have hb := (bitswap_some hr).1
    exact Or.inr ⟨_, act, rfl, hb, no_message hb (by simp)⟩
  | closed y =>
    simp only [peerMove, Option.map_eq_some_iff] at h
    obtain ⟨⟨act, r⟩, hr, h⟩ := h
    cases h
    have hb := (bitswap_some hr).1
    exact Or.inr ⟨_, act, rfl, hb, no_message hb (by simp)⟩
  | arrive y bs =>
    simp only [peerMove, Option.map_eq_some_iff] at h
    obtain ⟨x, hx, h⟩ := h
    cases h
    cases hm : Message.unframe H bs with
    | none =>
      simp only [Peer.arrive, hm, Option.some.injEq] at hx
      subst hx
      exact Or.inl ⟨rfl, rfl, hm⟩
    | some m =>
      simp only [Peer.arrive, hm, Option.map_eq_some_iff] at hx
      obtain ⟨⟨act, r⟩, hr, rfl⟩ := hx
      have hb := (bitswap_some hr).1
      exact Or.inr ⟨_, act, ⟨m, hm, rfl⟩, hb, no_message hb (by simp)⟩

/-! ### The repo -/

/-- Somebody waits for the block. -/
def Awaits (c : Cid) (n : Peer P) : Prop := ∃ i w, Waits n.reg c i w

/-- The registry of the repo changes by one of these. -/
theorem insert_true {reg : Reg Cid Block} (hi : SubsInv reg) (hs : reg.shut = false) (c : Cid) :
    ∃ reg', ((reg.create c true).insert reg.nextId).getD (reg.create c true) = reg' ∧ SubsInv reg' ∧ reg'.shut = false ∧
      reg'.subs = AMap.set reg.subs (c, reg.nextId) (.pending false true) ∧
      (∀ i, reg'.futs i = if i = reg.nextId then some ⟨c, .live false⟩ else reg.futs i) := by
  have hc : reg.create c true = { reg with nextId := reg.nextId + 1 }.setFut reg.nextId
      ⟨c, .creating (.pending false true)⟩ := by
    simp [Reg.create, hs]
  have h1 : SubsInv (reg.create c true) := hi.step (debug := false) (op := .create c true) rfl
  have h2 : (reg.create c true).insert reg.nextId = some ({ (reg.create c true) with
      subs := AMap.set (reg.create c true).subs (c, reg.nextId) (.pending false true) }.setFut reg.nextId
        ⟨c, .live false⟩) := by
    simp [Reg.insert, hc, Reg.setFut]
  refine ⟨_, rfl, ?_⟩
  rw [h2]
  simp only [Option.getD_some]
  refine ⟨h1.step (debug := false) (op := .insert reg.nextId) (out := .nothing) (by simp only [Reg.step, h2, Option.map_some]), ?_, ?_, ?_⟩
  · simp [hc, Reg.setFut, hs]
  · simp [hc, Reg.setFut]
  · intro i; simp only [hc, Reg.setFut]; split <;> simp_all

omit [DecidableEq P] in
/-- What a `put_block` that stores the block does. -/
theorem put_new {debug : Bool} {n n' : Peer P} {b : Block} {r : BlockPut} (h : n.put debug b = some (r, n')) :
    (n' = n ∧ (n.store.get b.cid.mh).isSome) ∨
    (n.store.get b.cid.mh = none ∧ n'.store = n.store.set b.cid.mh (b.cid, b) ∧ n'.reg = (n.reg.finish debug b.cid b).1 ∧
      (n.reg.finish debug b.cid b).2 ≠ .panic ∧ n'.chan = n.chan ++ [.new b.cid]) := by
  unfold Peer.put MemBlocks.put at h
  cases hg : AMap.get n.store b.cid.mh with
  | some x =>
    simp only [hg] at h
    cases h
    exact Or.inl ⟨rfl, rfl⟩
  | none =>
    simp only [hg] at h
    right
    cases hf : n.reg.finish debug b.cid b with
    | mk reg out =>
      rw [hf] at h
      cases out <;> simp only [reduceCtorEq, Option.some.injEq, Prod.mk.injEq] at h <;>
        (obtain ⟨-, rfl⟩ := h; exact ⟨rfl, rfl, rfl, by simp, rfl⟩)

/-- After `finish` nobody waits for the kind, and the others wait as before. -/
theorem finish_waits {debug : Bool} {reg : Reg Cid Block} {k c : Cid} {b : Block} {i : Nat} {w : Bool}
    (hp : (reg.finish debug k b).2 ≠ .panic) (h : Waits (reg.finish debug k b).1 c i w) : c ≠ k ∧ Waits reg c i w := by
  obtain ⟨n, h⟩ := h
  unfold Reg.finish at h hp
  split at h
  · rename_i hk
    rw [if_pos hk] at hp
    dsimp only at h hp
    split at h
    · rename_i hd; rw [if_pos hd] at hp; exact absurd rfl hp
    · dsimp only at h
      rw [get_wakeAll] at h
      split at h
      · rename_i w0 n0 h0
        split at h
        · cases h
        · rename_i hne; cases h; exact ⟨hne, n, h0⟩
      · rename_i x hx; exact absurd h (hx w n)
  · rename_i hk
    refine ⟨?_, n, h⟩
    rintro rfl
    exact hk (hasKind_iff.mpr ⟨i, by rw [h]; rfl⟩)

omit [DecidableEq P] in
/-- What dropping the future does. -/
theorem drop_shape (n : Peer P) (i : Nat) : (n.drop i).store = n.store ∧ (n.drop i).bits = n.bits ∧ (n.drop i).lookups = n.lookups ∧
    ((n.drop i).reg = n.reg ∧ (n.drop i).chan = n.chan ∨
      ∃ reg, n.reg.dropLocked i = some reg ∧
        ((n.drop i).reg = reg ∧ (n.drop i).chan = n.chan ∨
          reg.dropNotify i = some (n.drop i).reg ∧ ∃ us : List Cid, (n.drop i).chan = n.chan ++ us.map .unwant ∧
            (∀ k ∈ us, (∃ st, n.reg.futs i = some ⟨k, st⟩) ∧ hasKind reg.subs k = false))) := by
  unfold Peer.drop
  cases h1 : n.reg.dropLocked i with
  | none => exact ⟨rfl, rfl, rfl, Or.inl ⟨rfl, rfl⟩⟩
  | some reg =>
    dsimp only
    cases h2 : reg.dropNotify i with
    | none => exact ⟨rfl, rfl, rfl, Or.inr ⟨reg, rfl, Or.inl ⟨rfl, rfl⟩⟩⟩
    | some reg' =>
      refine ⟨rfl, rfl, rfl, Or.inr ⟨reg, rfl, Or.inr ⟨h2, _, rfl, ?_⟩⟩⟩
      intro k hk
      unfold Reg.dropLocked at h1
      split at h1
      · rename_i k0 cl hf
        split at h1
        · cases h1
          simp [Reg.dropNotify, Reg.setFut] at h2
        · split at h1
          · cases h1
            simp only [Reg.dropNotify, Reg.setFut, if_true, Option.some.injEq] at h2
            subst h2
            dsimp only [Reg.setFut] at hk
            rw [List.drop_left] at hk
            dsimp only [Reg.setFut]
            split at hk
            · rename_i sub hsub
              unfold Sub.cancelEffect at hk
              split at hk
              · dsimp only at hk
                split at hk
                · rename_i hl
                  simp only [List.mem_singleton] at hk
                  subst hk
                  refine ⟨⟨_, hf⟩, ?_⟩
                  simp only [Bool.and_eq_true, Bool.not_eq_true'] at hl
                  exact hl.1
                · cases hk
              · cases hk
            · cases hk
          · cases h1
            simp only [Reg.dropNotify, Reg.setFut, if_true, Option.some.injEq] at h2
            subst h2
            simp [Reg.setFut] at hk
      · cases h1

/-! ### Everything in order -/

def evCid : RepoEv → Cid
  | .want c => c
  | .unwant c => c
  | .new c => c

/-- Everything in the node is in order. -/
structure PeerFine (H : Hashes) (n : Peer P) : Prop where
  bits : BitsFine H n.bits
  chan : ∀ e ∈ n.chan, (evCid e).Valid
  store : ∀ c b, n.store.getBlock c = some b → BlockFine H b
  futs : ∀ i f, n.reg.futs i = some f → f.kind.Valid
  subs : SubsInv n.reg
  shut : n.reg.shut = false

/-- What comes from outside is in order. -/
def LabFine (H : Hashes) : Lab P → Prop
  | .get c => c.Valid
  | .put b => BlockFine H b
  | .arrive _ bs => ∀ m, Message.unframe H bs = some m → ∀ b ∈ m.blocks, b.cid.Valid
  | _ => True

theorem PeerFine.init (H : Hashes) : PeerFine H (Peer.init : Peer P) :=
  ⟨BitsFine.init H, (by intro _ h; cases h), (by intro _ _ h; cases h), (by intro _ _ h; cases h),
    ⟨AMap.uniq_nil, (by intro _ _ _ h; cases h), fun _ _ => rfl⟩, rfl⟩

theorem fine_put {H : Hashes} {debug : Bool} {n n' : Peer P} {b : Block} {r : BlockPut} (hn : PeerFine H n) (hb : BlockFine H b)
    (h : n.put debug b = some (r, n')) : PeerFine H n' := by
  have hbits := (put_bits h).1
  rcases put_new h with ⟨rfl, -⟩ | ⟨-, hst, hreg, hp, hch⟩
  · exact hn
  · have hfr := finish_frame (debug := debug) n.reg b.cid b
    refine ⟨by rw [hbits]; exact hn.bits, ?_, ?_, ?_, ?_, ?_⟩
    · rw [hch]; intro e he
      rcases List.mem_append.mp he with he | he
      · exact hn.chan e he
      · simp only [List.mem_singleton] at he; rw [he]; exact hb.1
    · intro c x hx
      rw [hst, MemBlocks.getBlock, AMap.get_set] at hx
      split at hx
      · cases hx; exact hb
      · exact hn.store c x hx
    · rw [hreg, hfr.1]; exact hn.futs
    · rw [hreg]; exact hn.subs.step (debug := debug) (op := .finish b.cid b) (out := (n.reg.finish debug b.cid b).2) rfl
    · rw [hreg, hfr.2.1]; exact hn.shut

theorem poll_kind {reg reg' : Reg Cid Block} {j : Nat} {out : Out Block} (h : reg.poll j = some (reg', out)) (i : Nat) :
    (reg'.futs i).map Fut.kind = (reg.futs i).map Fut.kind := by
  unfold Reg.poll at h
  split at h
  · rename_i k cl hf
    split at h <;> (simp only [Option.some.injEq, Prod.mk.injEq] at h; obtain ⟨rfl, rfl⟩ := h)
    · rfl
    · rfl
    · simp only [Reg.setFut]; split
      · rename_i hi; rw [hi, hf]; rfl
      · rfl
    · simp only [Reg.setFut]; split
      · rename_i hi; rw [hi, hf]; rfl
      · rfl
  · cases h

theorem dropLocked_kind {reg reg' : Reg Cid Block} {j : Nat} (h : reg.dropLocked j = some reg') (i : Nat) :
    (reg'.futs i).map Fut.kind = (reg.futs i).map Fut.kind := by
  unfold Reg.dropLocked at h
  split at h
  · rename_i k cl hf
    split at h
    · cases h
      simp only [Reg.setFut]; split
      · rename_i hi; rw [hi, hf]; rfl
      · rfl
    · split at h
      · cases h
        simp only [Reg.setFut]; split
        · rename_i hi; rw [hi, hf]; rfl
        · rfl
      · cases h
        simp only [Reg.setFut]; split
        · rename_i hi; rw [hi, hf]; rfl
        · rfl
  · cases h

theorem dropNotify_kind {reg reg' : Reg Cid Block} {j : Nat} (h : reg.dropNotify j = some reg') (i : Nat) :
    (reg'.futs i).map Fut.kind = (reg.futs i).map Fut.kind := by
  unfold Reg.dropNotify at h
  split at h
  · rename_i k sub l hf
    cases h
    simp only [Reg.setFut]; split
    · rename_i hi; rw [hi, hf]; rfl
    · rfl
  · cases h

theorem kinds_valid {reg reg' : Reg Cid Block} (h : ∀ i f, reg.futs i = some f → f.kind.Valid)
    (hk : ∀ i, (reg'.futs i).map Fut.kind = (reg.futs i).map Fut.kind) : ∀ i f, reg'.futs i = some f → f.kind.Valid := by
  intro i f hf
  have := hk i
  rw [hf] at this
  obtain ⟨f0, h0, h1⟩ := Option.map_eq_some_iff.mp this.symm
  rw [← h1]; exact h i f0 h0

omit [DecidableEq P] in
/-- Polling the future of a `get_block`. -/
theorem await_reg (n : Peer P) (i : Nat) : ((n.reg.poll i).map Prod.fst).getD n.reg = n.reg ∨
    ∃ reg' out, n.reg.poll i = some (reg', out) ∧ ((n.reg.poll i).map Prod.fst).getD n.reg = reg' := by
  cases h : n.reg.poll i with
  | none => exact Or.inl rfl
  | some r => exact Or.inr ⟨r.1, r.2, rfl, rfl⟩

theorem PeerFine.move {H : Hashes} {debug : Bool} {n n' : Peer P} {lab : Lab P} {a : Option (P × Message)} (hn : PeerFine H n)
    (hl : LabFine H lab) (h : peerMove H debug n lab = some (a, n')) :
    PeerFine H n' ∧ ∀ y m, a = some (y, m) → MsgOk H m := by
  have hbits : BitsFine H n'.bits ∧ ∀ y m, a = some (y, m) → MsgOk H m := by
    rcases move_bits h with ⟨rfl, hb, -⟩ | ⟨op, act, ho, hst, hact⟩
    · rw [hb]; exact ⟨hn.bits, by intro _ _ h; cases h⟩
    · have hop : OpFine H op := by
        cases lab with
        | event =>
          obtain ⟨e, es, hc, rfl⟩ := ho
          have hv := hn.chan e (by rw [hc]; exact List.mem_cons_self)
          cases e with
          | want c => exact ⟨hv, by decide, by decide⟩
          | unwant c => exact hv
          | new c => exact hv
        | swarm order => rw [show op = _ from ho]; trivial
        | look k =>
          obtain ⟨p, c, b, -, hb, rfl⟩ := ho
          exact hn.store c b hb
        | save k => obtain ⟨e, r, -, rfl⟩ := ho; trivial
        | established y => rw [show op = _ from ho]; trivial
        | closed y => rw [show op = _ from ho]; trivial
        | arrive y bs =>
          obtain ⟨m, hm, rfl⟩ := ho
          exact fun b hb => ⟨hl m hm b hb, C42_frame H bs m hm b hb⟩
        | _ => exact ho.elim
      obtain ⟨h1, h2⟩ := hn.bits.step hop hst
      exact ⟨h1, fun y m hy => h2 y m ((hact y m).mp hy)⟩
  refine ⟨?_, hbits.2⟩
  cases lab with
  | get c =>
    simp only [peerMove, Option.some.injEq, Prod.mk.injEq] at h
    obtain ⟨rfl, rfl⟩ := h
    unfold Peer.get
    split
    · exact hn
    · obtain ⟨reg', h1, h2, h3, h4, h5⟩ := insert_true hn.subs hn.shut c
      dsimp only
      rw [h1]
      refine ⟨hn.bits, ?_, hn.store, ?_, h2, h3⟩
      · intro e he
        rcases List.mem_append.mp he with he | he
        · exact hn.chan e he
        · simp only [List.mem_singleton] at he; rw [he]; exact hl
      · intro i f hf
        dsimp only at hf
        rw [h5] at hf
        split at hf
        · cases hf; exact hl
        · exact hn.futs i f hf
  | put b =>
    simp only [peerMove, Option.map_eq_some_iff] at h
    obtain ⟨⟨r, x⟩, hr, h⟩ := h
    cases h
    exact fine_put hn hl hr
  | remove c =>
    simp only [peerMove, Option.some.injEq, Prod.mk.injEq] at h
    obtain ⟨rfl, rfl⟩ := h
    refine ⟨hn.bits, hn.chan, ?_, hn.futs, hn.subs, hn.shut⟩
    intro x b hx
    simp only [MemBlocks.remove, MemBlocks.getBlock, AMap.get_erase] at hx
    split at hx
    · cases hx
    · exact hn.store x b hx
  | await i =>
    simp only [peerMove, Option.some.injEq, Prod.mk.injEq] at h
    obtain ⟨rfl, rfl⟩ := h
    rcases await_reg n i with h1 | ⟨reg', out, hp, h1⟩
    · rw [h1]; exact hn
    · rw [h1]
      exact ⟨hn.bits, hn.chan, hn.store, kinds_valid hn.futs (poll_kind hp), hn.subs.step (debug := debug) (op := .poll i) hp,
        (poll_shut hp).trans hn.shut⟩
  | drop i =>
    simp only [peerMove, Option.some.injEq, Prod.mk.injEq] at h
    obtain ⟨rfl, rfl⟩ := h
    obtain ⟨h1, h2, -, h3⟩ := drop_shape n i
    rcases h3 with ⟨h3, h4⟩ | ⟨reg, h5, ⟨h3, h4⟩ | ⟨h3, us, h4, h6⟩⟩
    · exact ⟨by rw [h2]; exact hn.bits, by rw [h4]; exact hn.chan, by rw [h1]; exact hn.store, by rw [h3]; exact hn.futs,
        by rw [h3]; exact hn.subs, by rw [h3]; exact hn.shut⟩
    · have hs1 : SubsInv reg := hn.subs.step (debug := debug) (op := .dropLocked i) (out := .nothing) (by simp only [Reg.step, h5, Option.map_some])
      exact ⟨by rw [h2]; exact hn.bits, by rw [h4]; exact hn.chan, by rw [h1]; exact hn.store,
        by rw [h3]; exact kinds_valid hn.futs (dropLocked_kind h5), by rw [h3]; exact hs1, by rw [h3]; exact (drop_shut h5).trans hn.shut⟩
    · have hs1 : SubsInv reg := hn.subs.step (debug := debug) (op := .dropLocked i) (out := .nothing) (by simp only [Reg.step, h5, Option.map_some])
      have hs2 : SubsInv (n.drop i).reg := hs1.step (debug := debug) (op := .dropNotify i) (out := .nothing) (by simp only [Reg.step, h3, Option.map_some])
      refine ⟨by rw [h2]; exact hn.bits, ?_, by rw [h1]; exact hn.store,
        kinds_valid hn.futs (fun j => (dropNotify_kind h3 j).trans (dropLocked_kind h5 j)), hs2,
        (notify_subs h3).2.trans ((drop_shut h5).trans hn.shut)⟩
      rw [h4]; intro e he
      rcases List.mem_append.mp he with he | he
      · exact hn.chan e he
      · obtain ⟨k, hk, rfl⟩ := List.mem_map.mp he
        obtain ⟨⟨st, hst⟩, -⟩ := h6 k hk
        exact hn.futs i _ hst
  | event =>
    simp only [peerMove, Option.map_eq_some_iff] at h
    obtain ⟨x, hx, h⟩ := h
    cases h
    cases hc : n.chan with
    | nil =>
      simp only [Peer.event, hc, Option.some.injEq] at hx
      subst hx; exact hn
    | cons e es =>
      have hx' : ∃ r, Peer.bitswap { n with chan := es } (match e with | .want c => .want c 1 | .unwant c => .cancel c | .new c => .cancel c) = some r ∧ r.2 = n' := by
        cases e <;> simpa only [Peer.event, hc, Option.map_eq_some_iff] using hx
      obtain ⟨⟨act, r⟩, hr, rfl⟩ := hx'
      obtain ⟨-, h2, h3, h4, h5⟩ := bitswap_some hr
      dsimp only at h2 h3 h4 hbits ⊢
      refine ⟨hbits.1, ?_, by rw [h2]; exact hn.store, by rw [h3]; exact hn.futs, by rw [h3]; exact hn.subs, by rw [h3]; exact hn.shut⟩
      rw [h4]; intro e' he; exact hn.chan e' (by rw [hc]; exact List.mem_cons_of_mem _ he)
  | swarm order =>
    simp only [peerMove, Option.map_eq_some_iff] at h
    obtain ⟨⟨act, r⟩, hr, h⟩ := h
    have hp := pollOutcome_bits (act, r)
    rw [h] at hp
    obtain ⟨-, h2, h3, h4, h5⟩ := bitswap_some hr
    obtain ⟨-, g2, g3, g4, -⟩ := hp
    dsimp only at g2 g3 g4
    refine ⟨hbits.1, by rw [g4, h4]; exact hn.chan, by rw [g2, h2]; exact hn.store, by rw [g3, h3]; exact hn.futs,
      by rw [g3, h3]; exact hn.subs, by rw [g3, h3]; exact hn.shut⟩
  | look k =>
    simp only [peerMove, Option.map_eq_some_iff] at h
    obtain ⟨x, hx, h⟩ := h
    cases h
    unfold Peer.look at hx
    split at hx
    · cases hx; exact hn
    · dsimp only at hx
      split at hx
      · cases hx; exact ⟨hn.bits, hn.chan, hn.store, hn.futs, hn.subs, hn.shut⟩
      · obtain ⟨⟨act, r⟩, hr, rfl⟩ := Option.map_eq_some_iff.mp hx
        obtain ⟨-, h2, h3, h4, h5⟩ := bitswap_some hr
        dsimp only at h2 h3 h4 hbits ⊢
        exact ⟨hbits.1, by rw [h4]; exact hn.chan, by rw [h2]; exact hn.store, by rw [h3]; exact hn.futs, by rw [h3]; exact hn.subs,
          by rw [h3]; exact hn.shut⟩
  | save k =>
    simp only [peerMove, Option.map_eq_some_iff] at h
    obtain ⟨x, hx, h⟩ := h
    cases h
    unfold Peer.save at hx
    split at hx
    · cases hx; exact hn
    · rename_i p b hk
      split at hx
      · cases hx
      · rename_i r0 n0 hput
        obtain ⟨⟨act, r⟩, hr, rfl⟩ := Option.map_eq_some_iff.mp hx
        obtain ⟨-, h2, h3, h4, h5⟩ := bitswap_some hr
        have hn0 := fine_put hn (hn.bits.tasks (p, b) (List.mem_of_getElem? hk)) hput
        dsimp only at h2 h3 h4 hbits ⊢
        exact ⟨hbits.1, by rw [h4]; exact hn0.chan, by rw [h2]; exact hn0.store, by rw [h3]; exact hn0.futs, by rw [h3]; exact hn0.subs,
          by rw [h3]; exact hn0.shut⟩
  | established y =>
    simp only [peerMove, Option.map_eq_some_iff] at h
    obtain ⟨⟨act, r⟩, hr, h⟩ := h
    cases h
    obtain ⟨-, h2, h3, h4, h5⟩ := bitswap_some hr
    exact ⟨hbits.1, by rw [h4]; exact hn.chan, by rw [h2]; exact hn.store, by rw [h3]; exact hn.futs, by rw [h3]; exact hn.subs,
      by rw [h3]; exact hn.shut⟩
  | closed y =>
    simp only [peerMove, Option.map_eq_some_iff] at h
    obtain ⟨⟨act, r⟩, hr, h⟩ := h
    cases h
    obtain ⟨-, h2, h3, h4, h5⟩ := bitswap_some hr
    exact ⟨hbits.1, by rw [h4]; exact hn.chan, by rw [h2]; exact hn.store, by rw [h3]; exact hn.futs, by rw [h3]; exact hn.subs,
      by rw [h3]; exact hn.shut⟩
  | arrive y bs =>
    simp only [peerMove, Option.map_eq_some_iff] at h
    obtain ⟨x, hx, h⟩ := h
    cases h
    unfold Peer.arrive at hx
    split at hx
    · cases hx; exact hn
    · obtain ⟨⟨act, r⟩, hr, rfl⟩ := Option.map_eq_some_iff.mp hx
      obtain ⟨-, h2, h3, h4, h5⟩ := bitswap_some hr
      dsimp only at h2 h3 h4 hbits ⊢
      exact ⟨hbits.1, by rw [h4]; exact hn.chan, by rw [h2]; exact hn.store, by rw [h3]; exact hn.futs, by rw [h3]; exact hn.subs,
        by rw [h3]; exact hn.shut⟩

/-! ### Waiting -/

/-- Nothing that ends the wanting of the block. -/
def NoStop (c : Cid) (l : List RepoEv) : Prop := RepoEv.unwant c ∉ l ∧ RepoEv.new c ∉ l

/-- The block will be on the want list, is on it, or has come. -/
def Pending (c : Cid) (n : Peer P) : Prop :=
  (∃ l1 l2, n.chan = l1 ++ .want c :: l2 ∧ NoStop c l2) ∨ (NoStop c n.chan ∧ (Wanting c n.bits ∨ Came c n.bits))

/-- While somebody waits for the block, it is not there, and something is under way. -/
structure WaitInv (c : Cid) (n : Peer P) : Prop where
  lacks : Awaits c n → n.store.get c.mh = none
  pending : Awaits c n → Pending c n

/-- No block with the same multihash and another cid is put. -/
def NoAliasLab (c : Cid) (n : Peer P) : Lab P → Prop
  | .put b => b.cid.mh = c.mh → b.cid = c
  | .save k => ∀ e, n.bits.tasks[k]? = some e → e.2.cid.mh = c.mh → e.2.cid = c
  | _ => True

omit [DecidableEq P] in
theorem WaitInv.init (c : Cid) : WaitInv c (Peer.init : Peer P) :=
  ⟨fun ⟨_, _, _, h⟩ => (by cases h), fun ⟨_, _, _, h⟩ => (by cases h)⟩

theorem noStop_append {c : Cid} {l m : List RepoEv} (h1 : NoStop c l) (h2 : NoStop c m) : NoStop c (l ++ m) :=
  ⟨fun h => (List.mem_append.mp h).elim h1.1 h2.1, fun h => (List.mem_append.mp h).elim h1.2 h2.2⟩

omit [DecidableEq P] in
theorem pending_append {c : Cid} {n n' : Peer P} {es : List RepoEv} (h : Pending c n) (hc : n'.chan = n.chan ++ es)
    (he : NoStop c es) (hb : n'.bits = n.bits) : Pending c n' := by
  rcases h with ⟨l1, l2, h1, h2⟩ | ⟨h1, h2⟩
  · exact Or.inl ⟨l1, l2 ++ es, by rw [hc, h1]; simp, noStop_append h2 he⟩
  · exact Or.inr ⟨by rw [hc]; exact noStop_append h1 he, by rw [hb]; exact h2⟩

theorem pending_bits {c : Cid} {n n' : Peer P} {op : Bitswap.Op P} {act : Option (Action P)} (h : Pending c n) (hc : n'.chan = n.chan)
    (hs : n.bits.step op = some (act, n'.bits)) (h1 : op ≠ .cancel c) (h2 : ∀ k r, op ≠ .stored k r) : Pending c n' := by
  rcases h with h | ⟨h, hw⟩
  · left; rw [hc]; exact h
  · right
    refine ⟨by rw [hc]; exact h, ?_⟩
    rcases hw with hw | hw
    · rcases wanting_step hs hw with h | h | h
      · exact Or.inl h
      · exact absurd h h1
      · exact Or.inr h
    · rcases came_step hs hw with h | ⟨k, r, e, h, -⟩
      · exact Or.inr h
      · exact absurd h (h2 k r)

omit [DecidableEq P] in
theorem wait_put {debug : Bool} {c : Cid} {n n' : Peer P} {b : Block} {r : BlockPut} (hn : WaitInv c n)
    (ha : b.cid.mh = c.mh → b.cid = c) (h : n.put debug b = some (r, n')) :
    WaitInv c n' ∧ (Awaits c n' → Awaits c n ∧ b.cid ≠ c) := by
  have hbits := (put_bits h).1
  rcases put_new h with ⟨rfl, he⟩ | ⟨hst0, hst, hreg, hp, hch⟩
  · refine ⟨hn, fun hw => ⟨hw, ?_⟩⟩
    rintro rfl
    rw [hn.lacks hw] at he; cases he
  · have hw : Awaits c n' → Awaits c n ∧ b.cid ≠ c := by
      rintro ⟨i, w, hw⟩
      rw [hreg] at hw
      obtain ⟨h1, h2⟩ := finish_waits hp hw
      exact ⟨⟨i, w, h2⟩, Ne.symm h1⟩
    refine ⟨⟨?_, ?_⟩, hw⟩
    · intro h
      obtain ⟨h1, h2⟩ := hw h
      rw [hst, AMap.get_set, if_neg]
      · exact hn.lacks h1
      · intro he; exact h2 (ha he.symm)
    · intro h
      obtain ⟨h1, h2⟩ := hw h
      refine pending_append (hn.pending h1) hch ⟨by simp, ?_⟩ hbits
      simpa using fun he : c = b.cid => h2 he.symm

theorem WaitInv.move {H : Hashes} {debug : Bool} {c : Cid} {n n' : Peer P} {lab : Lab P} {a : Option (P × Message)} (hn : WaitInv c n)
    (hf : PeerFine H n) (hl : NoAliasLab c n lab) (h : peerMove H debug n lab = some (a, n')) : WaitInv c n' := by
  cases lab with
  | get x =>
    simp only [peerMove, Option.some.injEq, Prod.mk.injEq] at h
    obtain ⟨rfl, rfl⟩ := h
    unfold Peer.get
    split
    · exact hn
    · rename_i hx
      obtain ⟨reg', h1, h2, h3, h4, h5⟩ := insert_true hf.subs hf.shut x
      dsimp only
      rw [h1]
      have hw : ∀ i w, Waits reg' c i w → c = x ∨ Waits n.reg c i w := by
        rintro i w ⟨k, hk⟩
        rw [h4, AMap.get_set] at hk
        split at hk
        · rename_i heq; simp only [Prod.mk.injEq] at heq; exact Or.inl heq.1
        · exact Or.inr ⟨k, hk⟩
      constructor
      · rintro ⟨i, w, hiw⟩
        rcases hw i w hiw with rfl | h
        · simpa [MemBlocks.getBlock] using hx
        · exact hn.lacks ⟨i, w, h⟩
      · rintro ⟨i, w, hiw⟩
        rcases hw i w hiw with rfl | h
        · exact Or.inl ⟨n.chan, [], rfl, by simp, by simp⟩
        · exact pending_append (hn.pending ⟨i, w, h⟩) rfl ⟨by simp, by simp⟩ rfl
  | put b =>
    simp only [peerMove, Option.map_eq_some_iff] at h
    obtain ⟨⟨r, x⟩, hr, h⟩ := h
    cases h
    exact (wait_put hn hl hr).1
  | remove x =>
    simp only [peerMove, Option.some.injEq, Prod.mk.injEq] at h
    obtain ⟨rfl, rfl⟩ := h
    refine ⟨?_, hn.pending⟩
    intro hw
    simp only [MemBlocks.remove, AMap.get_erase]
    split
    · rfl
    · exact hn.lacks hw
  | await i =>
    simp only [peerMove, Option.some.injEq, Prod.mk.injEq] at h
    obtain ⟨rfl, rfl⟩ := h
    rcases await_reg n i with h1 | ⟨reg', out, hp, h1⟩
    · rw [h1]; exact hn
    · rw [h1]
      have hw : ∀ j w, Waits reg' c j w → Awaits c n := by
        intro j w hw
        obtain ⟨w', h⟩ := poll_waits hp hw
        exact ⟨j, w', h⟩
      exact ⟨fun ⟨j, w, h⟩ => hn.lacks (hw j w h), fun ⟨j, w, h⟩ => hn.pending (hw j w h)⟩
  | drop i =>
    simp only [peerMove, Option.some.injEq, Prod.mk.injEq] at h
    obtain ⟨rfl, rfl⟩ := h
    obtain ⟨h1, h2, -, h3⟩ := drop_shape n i
    rcases h3 with ⟨h3, h4⟩ | ⟨reg, h5, ⟨h3, h4⟩ | ⟨h3, us, h4, h6⟩⟩
    · refine ⟨?_, ?_⟩
      · rintro ⟨j, w, hw⟩; rw [h3] at hw; rw [h1]; exact hn.lacks ⟨j, w, hw⟩
      · rintro ⟨j, w, hw⟩; rw [h3] at hw
        exact pending_append (es := []) (hn.pending ⟨j, w, hw⟩) (by rw [h4]; simp) ⟨by simp, by simp⟩ h2
    · refine ⟨?_, ?_⟩
      · rintro ⟨j, w, hw⟩; rw [h3] at hw; rw [h1]; exact hn.lacks ⟨j, w, drop_waits h5 hw⟩
      · rintro ⟨j, w, hw⟩; rw [h3] at hw
        exact pending_append (es := []) (hn.pending ⟨j, w, drop_waits h5 hw⟩) (by rw [h4]; simp) ⟨by simp, by simp⟩ h2
    · have hw : ∀ j w, Waits (n.drop i).reg c j w → Waits reg c j w := by
        rintro j w ⟨k, hk⟩
        rw [(notify_subs h3).1] at hk
        exact ⟨k, hk⟩
      refine ⟨?_, ?_⟩
      · rintro ⟨j, w, hjw⟩; rw [h1]; exact hn.lacks ⟨j, w, drop_waits h5 (hw j w hjw)⟩
      · rintro ⟨j, w, hjw⟩
        refine pending_append (hn.pending ⟨j, w, drop_waits h5 (hw j w hjw)⟩) h4 ⟨?_, by simp⟩ h2
        intro hm
        obtain ⟨k, hk, he⟩ := List.mem_map.mp hm
        cases he
        obtain ⟨m, hg⟩ := hw j w hjw
        have := (h6 c hk).2
        rw [hasKind_iff.mpr ⟨j, by rw [hg]; rfl⟩] at this
        cases this
  | event =>
    simp only [peerMove, Option.map_eq_some_iff] at h
    obtain ⟨x, hx, h⟩ := h
    cases h
    cases hc : n.chan with
    | nil =>
      simp only [Peer.event, hc, Option.some.injEq] at hx
      subst hx; exact hn
    | cons e es =>
      have hx' : ∃ r, Peer.bitswap { n with chan := es } (match e with | .want c => .want c 1 | .unwant c => .cancel c | .new c => .cancel c) = some r ∧ r.2 = n' := by
        cases e <;> simpa only [Peer.event, hc, Option.map_eq_some_iff] using hx
      obtain ⟨⟨act, r⟩, hr, rfl⟩ := hx'
      obtain ⟨hst, h2, h3, h4, h5⟩ := bitswap_some hr
      dsimp only at hst h2 h3 h4 ⊢
      refine ⟨?_, ?_⟩
      · rintro ⟨j, w, hw⟩; rw [h3] at hw; rw [h2]; exact hn.lacks ⟨j, w, hw⟩
      · rintro ⟨j, w, hw⟩; rw [h3] at hw
        rcases hn.pending ⟨j, w, hw⟩ with ⟨l1, l2, g1, g2⟩ | ⟨g1, g2⟩
        · rw [hc] at g1
          cases l1 with
          | nil =>
            simp only [List.nil_append, List.cons.injEq] at g1
            obtain ⟨rfl, rfl⟩ := g1
            right
            refine ⟨by rw [h4]; exact g2, Or.inl ⟨1, ?_⟩⟩
            simp only [Node.step, Option.some.injEq, Prod.mk.injEq] at hst
            rw [← hst.2]
            simp only [wantBlock, AMap.get_set, if_true]
          | cons y l1 =>
            simp only [List.cons_append, List.cons.injEq] at g1
            exact Or.inl ⟨l1, l2, by rw [h4, g1.2], g2⟩
        · rw [hc] at g1
          have hne : (match e with | .want c => (.want c 1 : Bitswap.Op P) | .unwant c => .cancel c | .new c => .cancel c) ≠ .cancel c := by
            cases e with
            | want y => simp
            | unwant y => intro he; simp only [Bitswap.Op.cancel.injEq] at he; rw [he] at g1; exact g1.1 List.mem_cons_self
            | new y => intro he; simp only [Bitswap.Op.cancel.injEq] at he; rw [he] at g1; exact g1.2 List.mem_cons_self
          refine pending_bits (n := { n with chan := es }) (Or.inr ⟨⟨fun h => g1.1 (List.mem_cons_of_mem _ h), fun h => g1.2 (List.mem_cons_of_mem _ h)⟩, g2⟩) h4 hst hne ?_
          cases e <;> simp
  | swarm order =>
    simp only [peerMove, Option.map_eq_some_iff] at h
    obtain ⟨⟨act, r⟩, hr, h⟩ := h
    have hp := pollOutcome_bits (act, r)
    rw [h] at hp
    obtain ⟨hst, h2, h3, h4, h5⟩ := bitswap_some hr
    obtain ⟨g1, g2, g3, g4, -⟩ := hp
    dsimp only at g1 g2 g3 g4
    refine ⟨?_, ?_⟩
    · rintro ⟨j, w, hw⟩; rw [g3, h3] at hw; rw [g2, h2]; exact hn.lacks ⟨j, w, hw⟩
    · rintro ⟨j, w, hw⟩; rw [g3, h3] at hw
      exact pending_bits (hn.pending ⟨j, w, hw⟩) (by rw [g4, h4]) (by rw [g1]; exact hst) (by simp) (by simp)
  | look k =>
    simp only [peerMove, Option.map_eq_some_iff] at h
    obtain ⟨x, hx, h⟩ := h
    cases h
    unfold Peer.look at hx
    split at hx
    · cases hx; exact hn
    · dsimp only at hx
      split at hx
      · cases hx; exact ⟨hn.lacks, hn.pending⟩
      · obtain ⟨⟨act, r⟩, hr, rfl⟩ := Option.map_eq_some_iff.mp hx
        obtain ⟨hst, h2, h3, h4, h5⟩ := bitswap_some hr
        dsimp only at hst h2 h3 h4 ⊢
        refine ⟨?_, ?_⟩
        · rintro ⟨j, w, hw⟩; rw [h3] at hw; rw [h2]; exact hn.lacks ⟨j, w, hw⟩
        · rintro ⟨j, w, hw⟩; rw [h3] at hw
          exact pending_bits (hn.pending ⟨j, w, hw⟩) h4 hst (by simp) (by simp)
  | save k =>
    simp only [peerMove, Option.map_eq_some_iff] at h
    obtain ⟨x, hx, h⟩ := h
    cases h
    unfold Peer.save at hx
    split at hx
    · cases hx; exact hn
    · rename_i p b hk
      split at hx
      · cases hx
      · rename_i r0 n0 hput
        obtain ⟨⟨act, r⟩, hr, rfl⟩ := Option.map_eq_some_iff.mp hx
        obtain ⟨hst, h2, h3, h4, h5⟩ := bitswap_some hr
        obtain ⟨hn0, hw0⟩ := wait_put hn (hl (p, b) hk) hput
        dsimp only at hst h2 h3 h4 ⊢
        refine ⟨?_, ?_⟩
        · rintro ⟨j, w, hw⟩; rw [h3] at hw; rw [h2]; exact hn0.lacks ⟨j, w, hw⟩
        · rintro ⟨j, w, hw⟩; rw [h3] at hw
          have hne := (hw0 ⟨j, w, hw⟩).2
          rcases hn0.pending ⟨j, w, hw⟩ with g | ⟨g, hwc⟩
          · left; rw [h4]; exact g
          · right
            refine ⟨by rw [h4]; exact g, ?_⟩
            rcases hwc with hwc | hwc
            · rcases wanting_step hst hwc with h | h | h
              · exact Or.inl h
              · cases h
              · exact Or.inr h
            · rcases came_step hst hwc with h | ⟨k', r', e, h, he, hec⟩
              · exact Or.inr h
              · cases h
                rw [(put_bits hput).1, hk] at he
                cases he
                exact absurd hec hne
  | established y =>
    simp only [peerMove, Option.map_eq_some_iff] at h
    obtain ⟨⟨act, r⟩, hr, h⟩ := h
    cases h
    obtain ⟨hst, h2, h3, h4, h5⟩ := bitswap_some hr
    refine ⟨?_, ?_⟩
    · rintro ⟨j, w, hw⟩; rw [h3] at hw; rw [h2]; exact hn.lacks ⟨j, w, hw⟩
    · rintro ⟨j, w, hw⟩; rw [h3] at hw
      exact pending_bits (hn.pending ⟨j, w, hw⟩) h4 hst (by simp) (by simp)
  | closed y =>
    simp only [peerMove, Option.map_eq_some_iff] at h
    obtain ⟨⟨act, r⟩, hr, h⟩ := h
    cases h
    obtain ⟨hst, h2, h3, h4, h5⟩ := bitswap_some hr
    refine ⟨?_, ?_⟩
    · rintro ⟨j, w, hw⟩; rw [h3] at hw; rw [h2]; exact hn.lacks ⟨j, w, hw⟩
    · rintro ⟨j, w, hw⟩; rw [h3] at hw
      exact pending_bits (hn.pending ⟨j, w, hw⟩) h4 hst (by simp) (by simp)
  | arrive y bs =>
    simp only [peerMove, Option.map_eq_some_iff] at h
    obtain ⟨x, hx, h⟩ := h
    cases h
    unfold Peer.arrive at hx
    split at hx
    · cases hx; exact hn
    · obtain ⟨⟨act, r⟩, hr, rfl⟩ := Option.map_eq_some_iff.mp hx
      obtain ⟨hst, h2, h3, h4, h5⟩ := bitswap_some hr
      dsimp only at hst h2 h3 h4 ⊢
      refine ⟨?_, ?_⟩
      · rintro ⟨j, w, hw⟩; rw [h3] at hw; rw [h2]; exact hn.lacks ⟨j, w, hw⟩
      · rintro ⟨j, w, hw⟩; rw [h3] at hw
        exact pending_bits (hn.pending ⟨j, w, hw⟩) h4 hst (by simp) (by simp)

/-! ### Having the block -/

/-- The block is there and not wanted. -/
structure HasInv (c : Cid) (n : Peer P) : Prop where
  block : ∃ b, n.store.getBlock c = some b ∧ b.cid = c
  wanted : ¬ Wanting c n.bits
  chan : RepoEv.want c ∉ n.chan

omit [DecidableEq P] in
theorem put_keeps {debug : Bool} {c : Cid} {n n' : Peer P} {b b0 : Block} {r : BlockPut} (h : n.put debug b = some (r, n'))
    (hb : n.store.getBlock c = some b0) (hw : RepoEv.want c ∉ n.chan) :
    n'.store.getBlock c = some b0 ∧ RepoEv.want c ∉ n'.chan := by
  rcases put_new h with ⟨rfl, -⟩ | ⟨hst0, hst, -, -, hch⟩
  · exact ⟨hb, hw⟩
  · refine ⟨?_, by rw [hch]; simpa using hw⟩
    rw [hst, MemBlocks.getBlock, AMap.get_set, if_neg]
    · exact hb
    · intro he
      rw [MemBlocks.getBlock, he, hst0] at hb; cases hb

/-- What else a move does to a node. -/
theorem move_rest {H : Hashes} {debug : Bool} {c : Cid} {n n' : Peer P} {lab : Lab P} {a : Option (P × Message)} {b : Block}
    (h : peerMove H debug n lab = some (a, n')) (hb : n.store.getBlock c = some b) (hw : RepoEv.want c ∉ n.chan)
    (hl : ∀ x, lab = .remove x → x.mh ≠ c.mh) :
    n'.store.getBlock c = some b ∧ RepoEv.want c ∉ n'.chan := by
  cases lab with
  | get x =>
    simp only [peerMove, Option.some.injEq, Prod.mk.injEq] at h
    obtain ⟨rfl, rfl⟩ := h
    unfold Peer.get
    split
    · exact ⟨hb, hw⟩
    · rename_i hx
      refine ⟨hb, ?_⟩
      dsimp only
      intro hm
      rcases List.mem_append.mp hm with hm | hm
      · exact hw hm
      · simp only [List.mem_singleton, RepoEv.want.injEq] at hm
        subst hm; rw [hx] at hb; cases hb
  | put x =>
    simp only [peerMove, Option.map_eq_some_iff] at h
    obtain ⟨⟨r, y⟩, hr, h⟩ := h
    cases h
    exact put_keeps hr hb hw
  | remove x =>
    simp only [peerMove, Option.some.injEq, Prod.mk.injEq] at h
    obtain ⟨rfl, rfl⟩ := h
    refine ⟨?_, hw⟩
    simp only [MemBlocks.remove, MemBlocks.getBlock, AMap.get_erase, if_neg (fun h => hl x rfl (Eq.symm h) : ¬ c.mh = x.mh)]
    exact hb
  | await i =>
    simp only [peerMove, Option.some.injEq, Prod.mk.injEq] at h
    obtain ⟨rfl, rfl⟩ := h
    exact ⟨hb, hw⟩
  | drop i =>
    simp only [peerMove, Option.some.injEq, Prod.mk.injEq] at h
    obtain ⟨rfl, rfl⟩ := h
    obtain ⟨h1, h2, -, h3⟩ := drop_shape n i
    refine ⟨by rw [h1]; exact hb, ?_⟩
    rcases h3 with ⟨h3, h4⟩ | ⟨reg, h5, ⟨h3, h4⟩ | ⟨h3, us, h4, h6⟩⟩
    · rw [h4]; exact hw
    · rw [h4]; exact hw
    · rw [h4]; simpa using hw
  | event =>
    simp only [peerMove, Option.map_eq_some_iff] at h
    obtain ⟨x, hx, h⟩ := h
    cases h
    cases hc : n.chan with
    | nil =>
      simp only [Peer.event, hc, Option.some.injEq] at hx
      subst hx; exact ⟨hb, hw⟩
    | cons e es =>
      have hx' : ∃ r, Peer.bitswap { n with chan := es } (match e with | .want c => .want c 1 | .unwant c => .cancel c | .new c => .cancel c) = some r ∧ r.2 = n' := by
        cases e <;> simpa only [Peer.event, hc, Option.map_eq_some_iff] using hx
      obtain ⟨⟨act, r⟩, hr, rfl⟩ := hx'
      obtain ⟨hst, h2, h3, h4, h5⟩ := bitswap_some hr
      dsimp only at hst h2 h3 h4 ⊢
      refine ⟨by rw [h2]; exact hb, ?_⟩
      rw [h4]; intro hm; rw [hc] at hw; exact hw (List.mem_cons_of_mem _ hm)
  | swarm order =>
    simp only [peerMove, Option.map_eq_some_iff] at h
    obtain ⟨⟨act, r⟩, hr, h⟩ := h
    have hp := pollOutcome_bits (act, r)
    rw [h] at hp
    obtain ⟨hst, h2, h3, h4, h5⟩ := bitswap_some hr
    obtain ⟨g1, g2, g3, g4, -⟩ := hp
    dsimp only at g1 g2 g3 g4
    exact ⟨by rw [g2, h2]; exact hb, by rw [g4, h4]; exact hw⟩
  | look k =>
    simp only [peerMove, Option.map_eq_some_iff] at h
    obtain ⟨x, hx, h⟩ := h
    cases h
    unfold Peer.look at hx
    split at hx
    · cases hx; exact ⟨hb, hw⟩
    · dsimp only at hx
      split at hx
      · cases hx; exact ⟨hb, hw⟩
      · obtain ⟨⟨act, r⟩, hr, rfl⟩ := Option.map_eq_some_iff.mp hx
        obtain ⟨hst, h2, h3, h4, h5⟩ := bitswap_some hr
        dsimp only at hst h2 h3 h4 ⊢
        exact ⟨by rw [h2]; exact hb, by rw [h4]; exact hw⟩
  | save k =>
    simp only [peerMove, Option.map_eq_some_iff] at h
    obtain ⟨x, hx, h⟩ := h
    cases h
    unfold Peer.save at hx
    split at hx
    · cases hx; exact ⟨hb, hw⟩
    · rename_i p b' hk
      split at hx
      · cases hx
      · rename_i r0 n0 hput
        obtain ⟨⟨act, r⟩, hr, rfl⟩ := Option.map_eq_some_iff.mp hx
        obtain ⟨hst, h2, h3, h4, h5⟩ := bitswap_some hr
        have := put_keeps hput hb hw
        exact ⟨by rw [h2]; exact this.1, by rw [h4]; exact this.2⟩
  | established y =>
    simp only [peerMove, Option.map_eq_some_iff] at h
    obtain ⟨⟨act, r⟩, hr, h⟩ := h
    cases h
    obtain ⟨hst, h2, h3, h4, h5⟩ := bitswap_some hr
    exact ⟨by rw [h2]; exact hb, by rw [h4]; exact hw⟩
  | closed y =>
    simp only [peerMove, Option.map_eq_some_iff] at h
    obtain ⟨⟨act, r⟩, hr, h⟩ := h
    cases h
    obtain ⟨hst, h2, h3, h4, h5⟩ := bitswap_some hr
    exact ⟨by rw [h2]; exact hb, by rw [h4]; exact hw⟩
  | arrive y bs =>
    simp only [peerMove, Option.map_eq_some_iff] at h
    obtain ⟨x, hx, h⟩ := h
    cases h
    unfold Peer.arrive at hx
    split at hx
    · cases hx; exact ⟨hb, hw⟩
    · obtain ⟨⟨act, r⟩, hr, rfl⟩ := Option.map_eq_some_iff.mp hx
      obtain ⟨hst, h2, h3, h4, h5⟩ := bitswap_some hr
      exact ⟨by rw [h2]; exact hb, by rw [h4]; exact hw⟩

theorem HasInv.move {H : Hashes} {debug : Bool} {c : Cid} {n n' : Peer P} {lab : Lab P} {a : Option (P × Message)}
    (hn : HasInv c n) (h : peerMove H debug n lab = some (a, n')) (hl : ∀ x, lab = .remove x → x.mh ≠ c.mh) : HasInv c n' := by
  obtain ⟨b, hb, hbc⟩ := hn.block
  obtain ⟨h1, h2⟩ := move_rest h hb hn.chan hl
  refine ⟨⟨b, h1, hbc⟩, ?_, h2⟩
  rcases move_bits h with ⟨-, hbits, -⟩ | ⟨op, act, ho, hst, -⟩
  · rw [hbits]; exact hn.wanted
  · intro hw
    rcases wanting_back hst hw with hw | ⟨pr, rfl⟩
    · exact hn.wanted hw
    · cases lab with
      | event =>
        obtain ⟨e, es, hc, he⟩ := ho
        cases e with
        | want x =>
          simp only [Bitswap.Op.want.injEq] at he
          apply hn.chan
          rw [hc, he.1]; exact List.mem_cons_self
        | unwant x => cases he
        | new x => cases he
      | swarm order => cases ho
      | look k => obtain ⟨_, _, _, _, _, h⟩ := ho; cases h
      | save k => obtain ⟨_, _, _, h⟩ := ho; cases h
      | established y => cases ho
      | closed y => cases ho
      | arrive y bs => obtain ⟨_, _, h⟩ := ho; cases h
      | _ => exact ho

/-- A task that looks for a block stays until it has looked. -/
theorem move_lookups {H : Hashes} {debug : Bool} {n n' : Peer P} {lab : Lab P} {a : Option (P × Message)}
    (h : peerMove H debug n lab = some (a, n')) {e : P × Cid} (he : e ∈ n.lookups) :
    e ∈ n'.lookups ∨ ∃ k, lab = .look k ∧ n.lookups[k]? = some e := by
  cases lab with
  | get x =>
    simp only [peerMove, Option.some.injEq, Prod.mk.injEq] at h
    obtain ⟨rfl, rfl⟩ := h
    unfold Peer.get
    split <;> exact Or.inl he
  | put x =>
    simp only [peerMove, Option.map_eq_some_iff] at h
    obtain ⟨⟨r, y⟩, hr, h⟩ := h
    cases h
    left; rw [(put_bits hr).2]; exact he
  | remove x =>
    simp only [peerMove, Option.some.injEq, Prod.mk.injEq] at h
    obtain ⟨rfl, rfl⟩ := h
    exact Or.inl he
  | await i =>
    simp only [peerMove, Option.some.injEq, Prod.mk.injEq] at h
    obtain ⟨rfl, rfl⟩ := h
    exact Or.inl he
  | drop i =>
    simp only [peerMove, Option.some.injEq, Prod.mk.injEq] at h
    obtain ⟨rfl, rfl⟩ := h
    left; rw [(drop_shape n i).2.2.1]; exact he
  | event =>
    simp only [peerMove, Option.map_eq_some_iff] at h
    obtain ⟨x, hx, h⟩ := h
    cases h
    cases hc : n.chan with
    | nil =>
      simp only [Peer.event, hc, Option.some.injEq] at hx
      subst hx; exact Or.inl he
    | cons e es =>
      have hx' : ∃ r, Peer.bitswap { n with chan := es } (match e with | .want c => .want c 1 | .unwant c => .cancel c | .new c => .cancel c) = some r ∧ r.2 = n' := by
        cases e <;> simpa only [Peer.event, hc, Option.map_eq_some_iff] using hx
      obtain ⟨⟨act, r⟩, hr, rfl⟩ := hx'
      left; rw [(bitswap_some hr).2.2.2.2]; exact he
  | swarm order =>
    simp only [peerMove, Option.map_eq_some_iff] at h
    obtain ⟨⟨act, r⟩, hr, h⟩ := h
    have hp := (pollOutcome_bits (act, r)).2.2.2.2.2.1
    rw [h] at hp
    left; apply hp
    rw [(bitswap_some hr).2.2.2.2]; exact he
  | look k =>
    simp only [peerMove, Option.map_eq_some_iff] at h
    obtain ⟨x, hx, h⟩ := h
    cases h
    cases hk : n.lookups[k]? with
    | none =>
      simp only [Peer.look, hk, Option.some.injEq] at hx
      subst hx; exact Or.inl he
    | some e0 =>
      obtain ⟨j, hj, hje⟩ := List.mem_iff_getElem.mp he
      by_cases hjk : j = k
      · subst hjk
        right; refine ⟨j, rfl, ?_⟩
        rw [List.getElem?_eq_getElem hj, hje]
      · left
        have hm : e ∈ n.lookups.eraseIdx k := List.mem_eraseIdx_iff_getElem.mpr ⟨j, hj, hjk, hje⟩
        obtain ⟨p, c⟩ := e0
        cases hg : n.store.getBlock c with
        | none => simp only [Peer.look, hk, hg, Option.some.injEq] at hx; subst hx; exact hm
        | some b =>
          simp only [Peer.look, hk, hg, Option.map_eq_some_iff] at hx
          obtain ⟨⟨act, r⟩, hr, rfl⟩ := hx
          rw [(bitswap_some hr).2.2.2.2]; exact hm
  | save k =>
    simp only [peerMove, Option.map_eq_some_iff] at h
    obtain ⟨x, hx, h⟩ := h
    cases h
    unfold Peer.save at hx
    split at hx
    · cases hx; exact Or.inl he
    · split at hx
      · cases hx
      · rename_i r0 n0 hput
        obtain ⟨⟨act, r⟩, hr, rfl⟩ := Option.map_eq_some_iff.mp hx
        left; rw [(bitswap_some hr).2.2.2.2, (put_bits hput).2]; exact he
  | established y =>
    simp only [peerMove, Option.map_eq_some_iff] at h
    obtain ⟨⟨act, r⟩, hr, h⟩ := h
    cases h
    left; rw [(bitswap_some hr).2.2.2.2]; exact he
  | closed y =>
    simp only [peerMove, Option.map_eq_some_iff] at h
    obtain ⟨⟨act, r⟩, hr, h⟩ := h
    cases h
    left; rw [(bitswap_some hr).2.2.2.2]; exact he
  | arrive y bs =>
    simp only [peerMove, Option.map_eq_some_iff] at h
    obtain ⟨x, hx, h⟩ := h
    cases h
    unfold Peer.arrive at hx
    split at hx
    · cases hx; exact Or.inl he
    · obtain ⟨⟨act, r⟩, hr, rfl⟩ := Option.map_eq_some_iff.mp hx
      left; rw [(bitswap_some hr).2.2.2.2]; exact he

/-- A want that is handed out by a poll is looked for. -/
theorem move_asked {H : Hashes} {debug : Bool} {n n' : Peer P} {lab : Lab P} {a : Option (P × Message)} {q : P} {c : Cid}
    (h : peerMove H debug n lab = some (a, n')) (ha : Asked c q n.bits) : Asked c q n'.bits ∨ (q, c) ∈ n'.lookups := by
  rcases move_bits h with ⟨-, hbits, -⟩ | ⟨op, act, ho, hst, -⟩
  · rw [hbits]; exact Or.inl ha
  · rcases asked_step hst ha with h1 | ⟨pr, h1, order, rfl⟩
    · exact Or.inl h1
    · right
      cases lab with
      | event =>
        obtain ⟨e, es, hc, he⟩ := ho
        cases e <;> cases he
      | swarm order =>
        simp only [peerMove, Option.map_eq_some_iff] at h
        obtain ⟨⟨act', r⟩, hr, h⟩ := h
        have hp := (pollOutcome_bits (act', r)).2.2.2.2.2.2
        rw [h] at hp
        have hb := (bitswap_some hr).1
        cases ho
        have : act' = act := congrArg Prod.fst (Option.some.inj (hb.symm.trans hst))
        exact hp q c pr (by rw [this]; exact h1)
      | look k => obtain ⟨_, _, _, _, _, h⟩ := ho; cases h
      | save k => obtain ⟨_, _, _, h⟩ := ho; cases h
      | established y => cases ho
      | closed y => cases ho
      | arrive y bs => obtain ⟨_, _, h⟩ := ho; cases h
      | _ => exact ho.elim

end Verif.Props
