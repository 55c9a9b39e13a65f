import Verif.Bitswap.Behaviour

/-!
# Facts about the bitswap behaviour
-/

namespace Verif.Bitswap

open Verif
open Verif.Repo (Block BlockPut)

theorem get_mapVals {κ ν : Type} [DecidableEq κ] (f : ν → ν) (m : AMap κ ν) (k : κ) : (mapVals f m).get k = (m.get k).map f := by
  induction m with
  | nil => rfl
  | cons e m ih =>
    obtain ⟨k', v⟩ := e
    simp only [mapVals, List.map_cons, AMap.get] at ih ⊢
    split
    · rfl
    · exact ih

namespace Bitswap

variable {P : Type} [DecidableEq P]

/-- What receiving blocks does to the message for a peer. -/
def cancelAll (bs : List Block) (l : Ledger) : Ledger := bs.foldl (fun l b => l.cancelBlock b.cid) l

theorem cancelAll_received (bs : List Block) : ∀ l, (cancelAll bs l).received = l.received := by
  induction bs with
  | nil => intro l; rfl
  | cons b bs ih => intro l; rw [cancelAll, List.foldl_cons]; exact (ih _).trans rfl

omit [DecidableEq P] in
theorem takeBlocks (p : P) (bs : List Block) : ∀ s : Bitswap P,
    bs.foldl (takeBlock p) s = { s with
      events := s.events ++ bs.map (fun b => Action.generate (.block p b))
      peers := mapVals (cancelAll bs) s.peers
      wanted := bs.foldl (fun w b => w.erase b.cid) s.wanted } := by
  induction bs with
  | nil => intro s; simp [mapVals, cancelAll]
  | cons b bs ih =>
    intro s
    rw [List.foldl_cons, ih]
    simp [takeBlock, cancelBlock, mapVals, cancelAll]

theorem received_eq (s : Bitswap P) (p : P) (m : Message) : s.received p m = (s.peers.get p).map (fun l =>
    { s with
      peers := mapVals (cancelAll m.blocks) (s.peers.set p { l with received := (s.freshWants m).foldl (fun r e => r.set e.1 e.2) (m.cancel.foldl (fun r c => r.erase c) l.received) })
      events := s.events ++ m.cancel.map (fun c => Action.generate (.cancel p c)) ++ (s.freshWants m).map (fun e => Action.generate (.want p e.1 e.2)) ++ m.blocks.map (fun b => Action.generate (.block p b))
      wanted := m.blocks.foldl (fun w b => w.erase b.cid) s.wanted }) := by
  unfold received
  split
  · rename_i h; rw [h]; rfl
  · rename_i l h; rw [h]; simp only [takeBlocks, Option.map_some]

/-- The blocks that are ready for a peer. -/
def readyFor (p : P) (r : List (P × Block)) : List Block := (r.filter (fun e => decide (e.1 = p))).map Prod.snd

theorem sendBlock_get (s : Bitswap P) (p : P) (b : Block) (q : P) : (s.sendBlock p b).peers.get q =
    (s.peers.get q).map (fun l => if p = q then l.addBlock b else l) := by
  unfold sendBlock
  split
  · rename_i h
    by_cases hq : p = q
    · subst hq; rw [h]; rfl
    · simp [hq]
  · rename_i l h
    simp only [AMap.get_set]
    by_cases hq : q = p
    · subst hq; simp [h]
    · simp [hq, Ne.symm hq]

theorem sendBlock_rest (s : Bitswap P) (p : P) (b : Block) : (s.sendBlock p b).events = s.events ∧
    (s.sendBlock p b).targets = s.targets ∧ (s.sendBlock p b).wanted = s.wanted ∧ (s.sendBlock p b).ready = s.ready ∧
    (s.sendBlock p b).stats = s.stats := by
  unfold sendBlock
  split <;> exact ⟨rfl, rfl, rfl, rfl, rfl⟩

/-- The first part of `poll`. -/
def drain (s : Bitswap P) : Bitswap P := { s.ready.foldl (fun s e => s.sendBlock e.1 e.2) s with ready := [] }

theorem drain_rest (s : Bitswap P) : s.drain.events = s.events ∧ s.drain.targets = s.targets ∧
    s.drain.wanted = s.wanted ∧ s.drain.ready = [] ∧ s.drain.stats = s.stats := by
  unfold drain
  generalize s.ready = r
  induction r generalizing s with
  | nil => exact ⟨rfl, rfl, rfl, rfl, rfl⟩
  | cons e r ih =>
    rw [List.foldl_cons]
    obtain ⟨h1, h2, h3, h4, h5⟩ := ih (s.sendBlock e.1 e.2)
    obtain ⟨g1, g2, g3, g4, g5⟩ := sendBlock_rest s e.1 e.2
    exact ⟨h1.trans g1, h2.trans g2, h3.trans g3, rfl, h5.trans g5⟩

/-- Blocks added to the message of a ledger. -/
def addAll (bs : List Block) (l : Ledger) : Ledger := bs.foldl Ledger.addBlock l

theorem drain_get (s : Bitswap P) (q : P) : s.drain.peers.get q = (s.peers.get q).map (addAll (readyFor q s.ready)) := by
  unfold drain
  simp only
  generalize s.ready = r
  induction r generalizing s with
  | nil => simp only [List.foldl_nil, readyFor, List.filter_nil, List.map_nil]; cases s.peers.get q <;> rfl
  | cons e r ih =>
    rw [List.foldl_cons, ih, sendBlock_get]
    cases s.peers.get q with
    | none => rfl
    | some l =>
      simp only [Option.map_some, readyFor, List.filter_cons]
      by_cases h : e.1 = q
      · simp [h, addAll]
      · simp [h]

theorem addAll_eq (bs : List Block) : ∀ l : Ledger,
    addAll bs l = { l with message := { l.message with blocks := l.message.blocks ++ bs } } := by
  induction bs with
  | nil => intro l; simp [addAll]
  | cons b bs ih =>
    intro l
    rw [addAll, List.foldl_cons]
    exact (ih _).trans (by simp [Ledger.addBlock, Message.addBlock])

theorem firstToSend_some (s : Bitswap P) (order : List P) {p m l} (h : s.firstToSend order = some (p, m, l)) :
    p ∈ order ∧ ∃ l0, s.peers.get p = some l0 ∧ l0.send = some (m, l) := by
  induction order with
  | nil => cases h
  | cons q ps ih =>
    rw [firstToSend] at h
    split at h
    · rename_i m' l' hs
      cases h
      obtain ⟨l0, h1, h2⟩ := Option.bind_eq_some_iff.mp hs
      exact ⟨List.mem_cons_self, l0, h1, h2⟩
    · exact ⟨List.mem_cons_of_mem _ (ih h).1, (ih h).2⟩

theorem firstToSend_none (s : Bitswap P) (order : List P) (h : s.firstToSend order = none) {p l}
    (hp : p ∈ order) (hl : s.peers.get p = some l) : l.message.isEmpty = true := by
  induction order with
  | nil => cases hp
  | cons q ps ih =>
    rw [firstToSend] at h
    split at h
    · cases h
    · rename_i hs
      rcases List.mem_cons.mp hp with rfl | hp
      · rw [hl, Option.bind_some, Ledger.send] at hs
        split at hs
        · assumption
        · cases hs
      · exact ih h hp

theorem send_some {l : Ledger} {m l'} (h : l.send = some (m, l')) : l.message.isEmpty = false ∧ m = l.message ∧
    l'.message = {} ∧ l'.received = l.received := by
  unfold Ledger.send at h
  split at h
  · cases h
  · rename_i he
    simp only [Option.some.injEq, Prod.mk.injEq] at h
    obtain ⟨rfl, rfl⟩ := h
    exact ⟨by simpa using he, rfl, rfl, rfl⟩

/-- The three outcomes of `poll`. -/
theorem poll_cases (s : Bitswap P) (order : List P) :
    (∃ e es, s.events = e :: es ∧ s.poll order = (some e, { s.drain with events := es })) ∨
    (s.events = [] ∧ s.poll order = (none, s.drain) ∧ s.drain.firstToSend order = none) ∨
    (s.events = [] ∧ ∃ p l l', p ∈ order ∧ s.drain.peers.get p = some l ∧ l.send = some (l.message, l') ∧
      l.message.isEmpty = false ∧ l'.message = {} ∧ l'.received = l.received ∧
      s.poll order = (some (.notify p l.message), { s.drain with peers := s.drain.peers.set p l', stats := countOutgoing s.drain.stats p l.message.blocks.length })) := by
  have hd := drain_rest s
  have hp : s.poll order = match s.drain.events with
    | e :: es => (some e, { s.drain with events := es })
    | [] =>
      match s.drain.firstToSend order with
      | none => (none, s.drain)
      | some (p, m, l) => (some (.notify p m), { s.drain with peers := s.drain.peers.set p l, stats := countOutgoing s.drain.stats p m.blocks.length }) := rfl
  rw [hp, hd.1]
  cases he : s.events with
  | cons e es => exact Or.inl ⟨e, es, rfl, rfl⟩
  | nil =>
    right
    cases hf : s.drain.firstToSend order with
    | none => exact Or.inl ⟨rfl, rfl, rfl⟩
    | some r =>
      obtain ⟨p, m, l'⟩ := r
      obtain ⟨h1, l, h2, h3⟩ := firstToSend_some _ _ hf
      obtain ⟨h4, rfl, h5, h6⟩ := send_some h3
      exact Or.inr ⟨rfl, p, l, l', h1, h2, h3, h4, h5, h6, rfl⟩

theorem get_countOutgoing (m : AMap P Stats) (p q : P) (n : Nat) :
    (countOutgoing m p n).get q = (m.get q).map (fun st => if p = q then st.updateOutgoing n else st) := by
  unfold countOutgoing
  split
  · rename_i h
    by_cases hq : p = q
    · subst hq; rw [h]; rfl
    · simp [hq]
  · rename_i st h
    rw [AMap.get_set]
    by_cases hq : q = p
    · subst hq; simp [h]
    · simp [hq, Ne.symm hq]

theorem get_orDefault (m : AMap P Stats) (p q : P) :
    (orDefault m p).get q = if p = q then some ((m.get p).getD {}) else m.get q := by
  unfold orDefault
  split
  · rename_i st h
    by_cases hq : p = q
    · subst hq; simp [h]
    · simp [hq]
  · rename_i h
    rw [AMap.get_set]
    by_cases hq : p = q
    · subst hq; simp [h]
    · simp [hq, Ne.symm hq]

theorem established_eq (s : Bitswap P) (p : P) : s.established p = { s with
    stats := orDefault s.stats p
    peers := s.peers.set p {}
    events := s.events ++ (if s.wanted.isEmpty then [] else [.notify p (wantAll s.wanted)]) } := by
  unfold established sendWantList
  simp only
  split
  · simp
  · rfl

end Bitswap

end Verif.Bitswap
