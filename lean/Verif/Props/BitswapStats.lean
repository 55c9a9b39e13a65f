import Verif.Props.BitswapPeers

/-!
# C56: the statistics of bitswap
-/

namespace Verif.Props

open Verif Verif.Bitswap
open Verif.Bitswap.Bitswap
open Verif.Repo (Block BlockPut)

variable {P : Type} [DecidableEq P]

/-! ### Specification -/

/-- The blocks that came in, with who sent them. -/
def cameIn : List (Op P) → List (P × Block)
  | [] => []
  | .received p m :: os => m.blocks.map (fun b => (p, b)) ++ cameIn os
  | _ :: os => cameIn os

/-- The block that is dealt with in a step, if any: it was stored, was there already, or storing it failed. -/
def logOf (s : Node P) (o : Op P) : List (P × Block × Option BlockPut) :=
  match o with
  | .stored i r => (s.tasks[i]?.map (fun t => (t.1, t.2, r))).toList
  | _ => []

/-- What was made of the blocks that were looked at. -/
def dealtWith (s : Node P) : List (Op P) → List (P × Block × Option BlockPut)
  | [] => []
  | o :: os => logOf s o ++ (match s.step o with
    | none => []
    | some (_, s') => dealtWith s' os)

/-- The blocks of the messages handed to the swarm, with who they are for. -/
def wentOut : List (Action P) → List (P × Block)
  | [] => []
  | .notify p m :: as => m.blocks.map (fun b => (p, b)) ++ wentOut as
  | _ :: as => wentOut as

/-- The blocks that wait as events. -/
def waiting : List (Action P) → List (P × Block)
  | [] => []
  | .generate (.block p b) :: as => (p, b) :: waiting as
  | _ :: as => waiting as

/-- Those with an outcome. -/
def withOutcome (r : BlockPut) (l : List (P × Block × Option BlockPut)) : List (P × Block) :=
  (l.filter (fun e => decide (e.2.2 = some r))).map (fun e => (e.1, e.2.1))

/-- Those of a peer. -/
def ofPeer (p : P) (l : List (P × Block)) : List (P × Block) := l.filter (fun e => decide (e.1 = p))

/-- Bytes of blocks. -/
def bytesOf (l : List (P × Block)) : Nat := (l.map (fun e => e.2.data.length)).sum

/-- The counters that belong to a history. -/
def countersOf (out new dup : List (P × Block)) : Stats :=
  { sentBlocks := out.length % 2 ^ 64
    sentData := 0
    receivedBlocks := new.length % 2 ^ 64
    receivedData := bytesOf new % 2 ^ 64
    duplicateBlocks := dup.length % 2 ^ 64
    duplicateData := bytesOf dup % 2 ^ 64 }

/-! ### Helpers -/

omit [DecidableEq P] in
theorem waiting_append (a b : List (Action P)) : waiting (a ++ b) = waiting a ++ waiting b := by
  induction a with
  | nil => rfl
  | cons x a ih =>
    cases x with
    | generate e => cases e <;> simp [waiting, ih]
    | _ => simp [waiting, ih]

omit [DecidableEq P] in
theorem waiting_blocks (p : P) (bs : List Block) : waiting (bs.map (fun b => Action.generate (.block p b))) = bs.map (fun b => (p, b)) := by
  induction bs with
  | nil => rfl
  | cons b bs ih => simp [waiting, ih]

omit [DecidableEq P] in
theorem waiting_map_nil {α : Type} (f : α → Action P) (h : ∀ x p b, f x ≠ .generate (.block p b)) (l : List α) : waiting (l.map f) = [] := by
  induction l with
  | nil => rfl
  | cons x l ih =>
    rw [List.map_cons]
    cases hx : f x with
    | generate e =>
      cases e with
      | block p b => exact absurd hx (h x p b)
      | _ => simp [waiting, ih]
    | _ => simp [waiting, ih]

omit [DecidableEq P] in
theorem wentOut_append (a b : List (Action P)) : wentOut (a ++ b) = wentOut a ++ wentOut b := by
  induction a with
  | nil => rfl
  | cons x a ih => cases x <;> simp [wentOut, ih]

theorem eraseIdx_perm {α : Type} (l : List α) : ∀ (i : Nat) (h : i < l.length), List.Perm l (l[i] :: l.eraseIdx i) := by
  induction l with
  | nil => intro i h; simp at h
  | cons x l ih =>
    intro i h
    cases i with
    | zero => exact List.Perm.refl _
    | succ i => exact (List.Perm.cons x (ih i (by simpa using h))).trans (List.Perm.swap _ _ _)

/-- Blocks in: what happens to events and tasks in one step. -/
theorem step_blocks {s s' : Node P} {a : Option (Action P)} {o : Op P} (hs : s.step o = some (a, s')) :
    List.Perm (waiting s.bs.events ++ s.tasks ++ cameIn [o])
      (waiting s'.bs.events ++ s'.tasks ++ (logOf s o).map (fun e => (e.1, e.2.1))) := by
  cases o with
  | connect p =>
    cases hs
    simp only [connect, cameIn, logOf, List.map_nil, List.append_nil]
    split
    · exact List.Perm.refl _
    · rw [waiting_append]; simp [waiting]
  | want c pr => cases hs; exact List.Perm.refl _
  | cancel c => cases hs; exact List.Perm.refl _
  | established p =>
    cases hs
    simp only [established_eq, cameIn, logOf, List.map_nil, List.append_nil, waiting_append]
    split <;> simp [waiting]
  | closed p => cases hs; exact List.Perm.refl _
  | received p m =>
    simp only [Node.step, received_eq, Option.map_map, Option.map_eq_some_iff] at hs
    obtain ⟨l0, hl0, he⟩ := hs
    cases he
    simp only [cameIn, logOf, List.map_nil, List.append_nil, waiting_append, waiting_blocks]
    rw [waiting_map_nil _ (by intros; simp), waiting_map_nil _ (by intros; simp)]
    simp only [List.append_nil, List.append_assoc]
    exact List.Perm.append_left _ List.perm_append_comm
  | queue p b => cases hs; exact List.Perm.refl _
  | poll order =>
    obtain ⟨ha, hb, ht⟩ := pollStep hs
    simp only [cameIn, List.append_nil, logOf, List.map_nil]
    have hd := drain_rest s.bs
    rcases poll_cases s.bs order with ⟨e, es, h1, h2⟩ | ⟨h1, h2, -⟩ | ⟨h1, p, l, l', -, h3, -, -, -, -, h2⟩
    · have hev : s'.bs.events = es := by rw [hb, h2]
      rw [hev, h1]
      rcases ht with ⟨q, b, hq, ht⟩ | ⟨hq, ht⟩
      · have : some e = some (Action.generate (Event.block q b)) := by rw [← hq, ha, h2]
        cases this
        rw [ht]
        simp only [waiting, List.cons_append]
        rw [← List.append_assoc]
        exact List.perm_append_comm (l₁ := [(q, b)])
      · rw [ht]
        have : waiting (e :: es) = waiting es := by
          cases e with
          | generate e =>
            cases e with
            | block p b => exact absurd (by rw [ha, h2]) (hq p b)
            | _ => rfl
          | _ => rfl
        rw [this]
    · have hev : s'.bs.events = [] := by rw [hb, h2]; exact hd.1.trans h1
      rcases ht with ⟨q, b, hq, ht⟩ | ⟨hq, ht⟩
      · rw [ha, h2] at hq; cases hq
      · rw [hev, h1, ht]
    · have hev : s'.bs.events = [] := by rw [hb, h2]; exact hd.1.trans h1
      rcases ht with ⟨q, b, hq, ht⟩ | ⟨hq, ht⟩
      · rw [ha, h2] at hq; cases hq
      · rw [hev, h1, ht]
  | stored i r =>
    cases hs
    rw [(storeDone_rest s i r).2.1]
    simp only [cameIn, List.append_nil, logOf]
    unfold Node.storeDone
    split
    · rename_i h; simp [h]
    · rename_i p b h
      simp only [h, Option.map_some, Option.toList_some, List.map_cons, List.map_nil, List.append_assoc]
      refine List.Perm.append_left _ ?_
      obtain ⟨hi, hg⟩ := List.getElem?_eq_some_iff.mp h
      have := eraseIdx_perm s.tasks i hi
      rw [hg] at this
      exact this.trans (List.perm_append_comm (l₁ := [(p, b)]))

omit [DecidableEq P] in
theorem cameIn_cons (o : Op P) (os : List (Op P)) : cameIn (o :: os) = cameIn [o] ++ cameIn os := by
  cases o <;> simp [cameIn]

/-- **C56**: every block that came in is, exactly once, waiting in the queue, with a task, or dealt with. -/
theorem C56_each_once (ops : List (Op P)) (s s' : Node P) (acts : List (Action P)) (h : s.run ops = some (acts, s')) :
    List.Perm (waiting s.bs.events ++ s.tasks ++ cameIn ops)
      (waiting s'.bs.events ++ s'.tasks ++ (dealtWith s ops).map (fun e => (e.1, e.2.1))) := by
  induction ops generalizing s acts with
  | nil => cases h; simp [cameIn, dealtWith]
  | cons o ops ih =>
    simp only [Node.run] at h
    split at h
    · cases h
    · rename_i a s1 h1
      obtain ⟨r, hr, he⟩ := Option.map_eq_some_iff.mp h
      cases he
      have hA := step_blocks h1
      have hB := ih s1 r.1 hr
      rw [cameIn_cons, ← List.append_assoc]
      refine (List.Perm.append_right _ hA).trans ?_
      rw [dealtWith, h1]
      simp only [List.map_append]
      generalize (logOf s o).map (fun e => (e.1, e.2.1)) = d
      have h1 : List.Perm (waiting s1.bs.events ++ s1.tasks ++ d ++ cameIn ops) (d ++ (waiting s1.bs.events ++ s1.tasks ++ cameIn ops)) := by
        rw [← List.append_assoc d]
        exact List.Perm.append_right _ List.perm_append_comm
      refine h1.trans ((List.Perm.append_left d hB).trans ?_)
      rw [← List.append_assoc, ← List.append_assoc (waiting _ ++ _)]
      exact List.Perm.append_right _ List.perm_append_comm

/-- The counters of each peer, and whose there are. -/
structure CountInv (s : Node P) (acts : List (Action P)) (log : List (P × Block × Option BlockPut)) (peers : List P) : Prop where
  uniq : AMap.Uniq s.bs.stats
  who : ∀ p, (s.bs.stats.get p).isSome ↔ p ∈ peers
  out : ∀ e ∈ wentOut acts, e.1 ∈ peers
  logd : ∀ e ∈ log, e.1 ∈ peers
  each : ∀ p st, s.bs.stats.get p = some st → st = countersOf (ofPeer p (wentOut acts))
    (ofPeer p (withOutcome .newBlock log)) (ofPeer p (withOutcome .existed log))

/-- The peers ever connected. -/
def everConnected : List (Op P) → List P
  | [] => []
  | .established p :: os => p :: everConnected os
  | _ :: os => everConnected os

omit [DecidableEq P] in
theorem withOutcome_append (r : BlockPut) (a b : List (P × Block × Option BlockPut)) :
    withOutcome r (a ++ b) = withOutcome r a ++ withOutcome r b := by simp [withOutcome]

theorem ofPeer_append (p : P) (a b : List (P × Block)) : ofPeer p (a ++ b) = ofPeer p a ++ ofPeer p b := by simp [ofPeer]

theorem ofPeer_none (p : P) (l : List (P × Block)) (h : ∀ e ∈ l, e.1 ≠ p) : ofPeer p l = [] := by
  unfold ofPeer; rw [List.filter_eq_nil_iff]; intro e he; simpa using h e he

theorem uniq_countOutgoing {m : AMap P Stats} (h : AMap.Uniq m) (p : P) (n : Nat) : AMap.Uniq (countOutgoing m p n) := by
  unfold countOutgoing; split
  · exact h
  · exact h.set _ _

theorem CountInv.step {s s' : Node P} {a : Option (Action P)} {acts log peers} (hi : StatsInv s) (h : CountInv s acts log peers)
    (o : Op P) (hs : s.step o = some (a, s')) :
    CountInv s' (acts ++ a.toList) (log ++ logOf s o) (peers ++ everConnected [o]) := by
  have same : s'.bs.stats = s.bs.stats → wentOut a.toList = [] → logOf s o = [] → everConnected [o] = [] →
      CountInv s' (acts ++ a.toList) (log ++ logOf s o) (peers ++ everConnected [o]) := by
    intro h1 h2 h3 h4
    rw [h3, h4, List.append_nil, List.append_nil]
    refine ⟨h1 ▸ h.uniq, h1 ▸ h.who, ?_, h.logd, ?_⟩
    · rw [wentOut_append, h2, List.append_nil]; exact h.out
    · rw [wentOut_append, h2, List.append_nil, h1]; exact h.each
  cases o with
  | connect p =>
    cases hs
    refine same ?_ rfl rfl rfl
    simp only [connect]; split <;> rfl
  | want c pr => cases hs; exact same rfl rfl rfl rfl
  | cancel c => cases hs; exact same rfl rfl rfl rfl
  | established p =>
    cases hs
    simp only [logOf, everConnected, Option.toList_none, List.append_nil]
    refine ⟨?_, ?_, ?_, ?_, ?_⟩
    · rw [established_eq]; simp only [orDefault]; split
      · exact h.uniq
      · exact h.uniq.set _ _
    · intro q
      rw [established_eq]; simp only [get_orDefault, List.mem_append, List.mem_singleton]
      by_cases hq : p = q
      · simp [hq]
      · rw [if_neg hq, h.who q]; simp [Ne.symm hq]
    · intro e he; exact List.mem_append_left _ (h.out e he)
    · intro e he; exact List.mem_append_left _ (h.logd e he)
    · intro q st hq
      rw [established_eq] at hq; simp only [get_orDefault] at hq
      split at hq
      · rename_i hpq; subst hpq
        cases hst : s.bs.stats.get p with
        | some st' => rw [hst] at hq; cases hq; exact h.each p _ hst
        | none =>
          rw [hst] at hq; cases hq
          have hn : p ∉ peers := by
            intro hm
            have := (h.who p).mpr hm
            rw [hst] at this; cases this
          have ho : ofPeer p (wentOut acts) = [] := ofPeer_none _ _ (fun e he hc => hn (hc ▸ h.out e he))
          have hl : ∀ r, ofPeer p (withOutcome r log) = [] := by
            intro r
            refine ofPeer_none _ _ ?_
            intro e he hc
            simp only [withOutcome, List.mem_map, List.mem_filter] at he
            obtain ⟨x, ⟨hx, -⟩, rfl⟩ := he
            exact hn (hc ▸ h.logd x hx)
          rw [ho, hl, hl]; rfl
      · exact h.each q st hq
  | closed p => cases hs; exact same rfl rfl rfl rfl
  | received p m =>
    simp only [Node.step, received_eq, Option.map_map, Option.map_eq_some_iff] at hs
    obtain ⟨l0, hl0, he⟩ := hs
    cases he
    exact same rfl rfl rfl rfl
  | queue p b => cases hs; exact same rfl rfl rfl rfl
  | poll order =>
    obtain ⟨ha, hb, ht⟩ := pollStep hs
    have hd := drain_rest s.bs
    rcases poll_cases s.bs order with ⟨e, es, h1, h2⟩ | ⟨h1, h2, -⟩ | ⟨h1, p, l, l', -, h3, -, -, -, -, h2⟩
    · refine same ?_ ?_ rfl rfl
      · rw [hb, h2]; exact hd.2.2.2.2
      · rw [ha, h2]
        cases e with
        | notify q m =>
          have := hi.quiet q m (by rw [h1]; exact List.mem_cons_self)
          simp [wentOut, this]
        | _ => rfl
    · refine same ?_ ?_ rfl rfl
      · rw [hb, h2]; exact hd.2.2.2.2
      · rw [ha, h2]; rfl
    · have hst : s'.bs.stats = countOutgoing s.bs.stats p l.message.blocks.length := by rw [hb, h2]; simp only [hd.2.2.2.2]
      have hp : p ∈ peers := by
        rw [drain_get] at h3
        obtain ⟨l1, h4, -⟩ := Option.map_eq_some_iff.mp h3
        exact (h.who p).mp (hi.peers p l1 h4)
      rw [ha, h2]
      simp only [logOf, everConnected, List.append_nil, Option.toList_some]
      refine ⟨hst ▸ uniq_countOutgoing h.uniq _ _, ?_, ?_, h.logd, ?_⟩
      · intro q; rw [hst, get_countOutgoing]; simpa using h.who q
      · rw [wentOut_append]
        intro e he
        rcases List.mem_append.mp he with he | he
        · exact h.out e he
        · simp only [wentOut, List.append_nil, List.mem_map] at he
          obtain ⟨b, -, rfl⟩ := he
          exact hp
      · intro q st hq
        rw [hst, get_countOutgoing] at hq
        obtain ⟨st0, hst0, rfl⟩ := Option.map_eq_some_iff.mp hq
        have he := h.each q st0 hst0
        rw [wentOut_append, ofPeer_append]
        simp only [wentOut, List.append_nil]
        by_cases hpq : p = q
        · subst hpq
          have : ofPeer p (l.message.blocks.map (fun b => (p, b))) = l.message.blocks.map (fun b => (p, b)) := by
            unfold ofPeer; rw [List.filter_eq_self]; simp
          rw [if_pos rfl, this, he]
          simp [countersOf, Stats.updateOutgoing, fetchAdd, Nat.add_mod]
        · have : ofPeer q (l.message.blocks.map (fun b => (p, b))) = [] := ofPeer_none _ _ (by simp; intro b _ ; exact hpq)
          rw [if_neg hpq, this, List.append_nil]; exact he
  | stored i r =>
    cases hs
    simp only [logOf, everConnected, Option.toList_none, List.append_nil]
    cases ht : s.tasks[i]? with
    | none =>
      simp only [Node.storeDone, ht, Option.map_none, Option.toList_none, List.append_nil]
      exact h
    | some t =>
      obtain ⟨p, b⟩ := t
      have hp : (s.bs.stats.get p).isSome := hi.tasks (p, b) (List.mem_of_getElem? ht)
      obtain ⟨st, hst⟩ := Option.isSome_iff_exists.mp hp
      simp only [Option.map_some, Option.toList_some]
      have hstats : (s.storeDone i r).bs.stats = s.bs.stats.set p (Node.putCount b.data.length r st) := by
        unfold Node.storeDone; simp only [ht, hst]
      refine ⟨?_, ?_, h.out, ?_, ?_⟩
      · rw [hstats]; exact h.uniq.set _ _
      · intro q; rw [get_storeDone]; exact h.who q
      · intro e he
        rcases List.mem_append.mp he with he | he
        · exact h.logd e he
        · simp only [List.mem_singleton] at he
          rw [he]; exact (h.who p).mp hp
      · intro q st' hq
        rw [hstats, AMap.get_set] at hq
        rw [withOutcome_append, withOutcome_append, ofPeer_append, ofPeer_append]
        split at hq
        · rename_i hqp; subst hqp
          have he := h.each _ _ hst
          cases hq
          have hone : ofPeer q [(q, b)] = [(q, b)] := by simp [ofPeer]
          cases r with
          | none =>
            have : ∀ r, withOutcome r [(q, b, none)] = [] := by intro r; simp [withOutcome]
            rw [this, this]; simp only [ofPeer, List.filter_nil, List.append_nil, Node.putCount]; exact he
          | some r =>
            cases r with
            | newBlock =>
              have h1 : withOutcome .newBlock [(q, b, some BlockPut.newBlock)] = [(q, b)] := by simp [withOutcome]
              have h2 : withOutcome .existed [(q, b, some BlockPut.newBlock)] = [] := by simp [withOutcome]
              rw [h1, h2, hone, he]
              simp [countersOf, Node.putCount, Stats.updateUnique, fetchAdd, bytesOf, ofPeer]
            | existed =>
              have h1 : withOutcome .newBlock [(q, b, some BlockPut.existed)] = [] := by simp [withOutcome]
              have h2 : withOutcome .existed [(q, b, some BlockPut.existed)] = [(q, b)] := by simp [withOutcome]
              rw [h1, h2, hone, he]
              simp [countersOf, Node.putCount, Stats.updateDuplicate, fetchAdd, bytesOf, ofPeer]
        · rename_i hqp
          have : ∀ k, ofPeer q (withOutcome k [(p, b, r)]) = [] := by
            intro k
            refine ofPeer_none _ _ ?_
            intro e he hc
            simp only [withOutcome, List.mem_map, List.mem_filter, List.mem_singleton] at he
            obtain ⟨x, ⟨rfl, -⟩, rfl⟩ := he
            exact hqp hc.symm
          rw [this, this, List.append_nil, List.append_nil]
          exact h.each q st' hq

omit [DecidableEq P] in
theorem everConnected_cons (o : Op P) (os : List (Op P)) : everConnected (o :: os) = everConnected [o] ++ everConnected os := by
  cases o <;> simp [everConnected]

theorem CountInv.run (ops : List (Op P)) : ∀ (s s' : Node P) (acts0 acts log peers), StatsInv s → CountInv s acts0 log peers →
    s.run ops = some (acts, s') → CountInv s' (acts0 ++ acts) (log ++ dealtWith s ops) (peers ++ everConnected ops) := by
  induction ops with
  | nil => intro s s' acts0 acts log peers _ h hr; cases hr; simpa [dealtWith, everConnected] using h
  | cons o ops ih =>
    intro s s' acts0 acts log peers hi h hr
    simp only [Node.run] at hr
    split at hr
    · cases hr
    · rename_i a s1 h1
      obtain ⟨r, hr', he⟩ := Option.map_eq_some_iff.mp hr
      cases he
      have := ih s1 r.2 _ r.1 _ _ (hi.step o h1) (h.step hi o h1) hr'
      rw [everConnected_cons, dealtWith, h1]
      simp only [List.append_assoc] at this ⊢
      exact this

/-- **C56**: there are counters for exactly the peers ever connected, kept over disconnects, and they count what
happened with each. The bytes sent are not counted. -/
theorem C56_each_peer (ops : List (Op P)) (s : Node P) (acts : List (Action P)) (h : ({} : Node P).run ops = some (acts, s)) (p : P) :
    s.bs.stats.get p = if p ∈ everConnected ops then
      some (countersOf (ofPeer p (wentOut acts)) (ofPeer p (withOutcome .newBlock (dealtWith {} ops)))
        (ofPeer p (withOutcome .existed (dealtWith {} ops)))) else none := by
  have hi := CountInv.run ops {} s [] acts [] [] StatsInv.init
    ⟨AMap.uniq_nil, fun p => by simp [AMap.get], fun e h => by simp [wentOut] at h, fun e h => by simp at h, fun p st h => by cases h⟩ h
  simp only [List.nil_append] at hi
  have hw := hi.who p
  cases hg : s.bs.stats.get p with
  | none => rw [hg] at hw; simp at hw; rw [if_neg hw]
  | some st => rw [hg] at hw; simp at hw; rw [if_pos hw, hi.each p st hg]

/-! ### Totals -/

/-- The sum of a counter over all peers. -/
def sumOf (f : Stats → Nat) (m : AMap P Stats) : Nat := (m.map (fun e => f e.2)).sum

/-- Splitting a list by peers. -/
theorem sum_ofPeer (w : P × Block → Nat) (l : List (P × Block)) : ∀ (ps : List P), ps.Nodup → (∀ e ∈ l, e.1 ∈ ps) →
    (ps.map (fun p => ((ofPeer p l).map w).sum)).sum = (l.map w).sum := by
  induction l with
  | nil =>
    intro ps _ _
    have : ∀ ps : List P, (ps.map (fun p => ((ofPeer p []).map w).sum)).sum = 0 := by
      intro ps; induction ps with
      | nil => rfl
      | cons p ps ih => simp only [List.map_cons, List.sum_cons, ih]; rfl
    simp [this]
  | cons e l ih =>
    intro ps hn hall
    have hstep : ∀ ps : List P, ps.Nodup → (ps.map (fun p => ((ofPeer p (e :: l)).map w).sum)).sum =
        (if e.1 ∈ ps then w e else 0) + (ps.map (fun p => ((ofPeer p l).map w).sum)).sum := by
      intro ps
      induction ps with
      | nil => intro _; rfl
      | cons p ps ihp =>
        intro hn
        rw [List.nodup_cons] at hn
        simp only [List.map_cons, List.sum_cons, ihp hn.2]
        by_cases hp : e.1 = p
        · subst hp
          have : ofPeer e.1 (e :: l) = e :: ofPeer e.1 l := by simp [ofPeer]
          rw [this]
          simp only [List.map_cons, List.sum_cons, List.mem_cons, true_or, if_true, if_neg hn.1]
          omega
        · have : ofPeer p (e :: l) = ofPeer p l := by simp [ofPeer, hp]
          rw [this]
          simp only [List.mem_cons, hp, false_or]
          omega
    rw [hstep ps hn, if_pos (hall e List.mem_cons_self), ih ps hn (fun x hx => hall x (List.mem_cons_of_mem _ hx))]
    simp

omit [DecidableEq P] in
theorem total_sums (s : Bitswap P) : s.total = { sentBlocks := sumOf Stats.sentBlocks s.stats % 2 ^ 64, sentData := sumOf Stats.sentData s.stats % 2 ^ 64, receivedBlocks := sumOf Stats.receivedBlocks s.stats % 2 ^ 64, receivedData := sumOf Stats.receivedData s.stats % 2 ^ 64, duplicateBlocks := sumOf Stats.duplicateBlocks s.stats % 2 ^ 64, duplicateData := sumOf Stats.duplicateData s.stats % 2 ^ 64 } := by
  unfold total
  have key : ∀ (m : AMap P Stats) (a : Stats), a.sentBlocks < 2 ^ 64 → a.sentData < 2 ^ 64 → a.receivedBlocks < 2 ^ 64 →
      a.receivedData < 2 ^ 64 → a.duplicateBlocks < 2 ^ 64 → a.duplicateData < 2 ^ 64 →
      m.foldl (fun acc e => acc.addAssign e.2) a = { sentBlocks := (a.sentBlocks + sumOf Stats.sentBlocks m) % 2 ^ 64, sentData := (a.sentData + sumOf Stats.sentData m) % 2 ^ 64, receivedBlocks := (a.receivedBlocks + sumOf Stats.receivedBlocks m) % 2 ^ 64, receivedData := (a.receivedData + sumOf Stats.receivedData m) % 2 ^ 64, duplicateBlocks := (a.duplicateBlocks + sumOf Stats.duplicateBlocks m) % 2 ^ 64, duplicateData := (a.duplicateData + sumOf Stats.duplicateData m) % 2 ^ 64 } := by
    intro m
    induction m with
    | nil => intro a h1 h2 h3 h4 h5 h6; simp [sumOf, Nat.mod_eq_of_lt, h1, h2, h3, h4, h5, h6]
    | cons e m ih =>
      intro a _ _ _ _ _ _
      have hlt : ∀ a b, fetchAdd a b < 2 ^ 64 := fun a b => Nat.mod_lt _ (by decide)
      rw [List.foldl_cons, ih _ (hlt _ _) (hlt _ _) (hlt _ _) (hlt _ _) (hlt _ _) (hlt _ _)]
      simp [sumOf, Stats.addAssign, fetchAdd, Nat.add_assoc]
  rw [key s.stats {} (by decide) (by decide) (by decide) (by decide) (by decide) (by decide)]
  simp

theorem sumOf_mod (f : Stats → Nat) (g : P → Nat) (m : AMap P Stats) (hu : AMap.Uniq m)
    (h : ∀ p st, m.get p = some st → f st = g p % 2 ^ 64) : sumOf f m % 2 ^ 64 = (m.keys.map g).sum % 2 ^ 64 := by
  have h' : ∀ e ∈ m, f e.2 = g e.1 % 2 ^ 64 := fun e he => h e.1 e.2 ((AMap.mem_iff_get hu e.1 e.2).mp he)
  clear h hu
  induction m with
  | nil => rfl
  | cons e m ih =>
    have := ih (fun x hx => h' x (List.mem_cons_of_mem _ hx))
    simp only [sumOf, AMap.keys, List.map_cons, List.sum_cons] at this ⊢
    rw [h' e List.mem_cons_self]
    omega

omit [DecidableEq P] in
theorem length_eq_sum (l : List (P × Block)) : l.length = (l.map (fun _ => 1)).sum := by
  induction l with
  | nil => rfl
  | cons e l ih => simp only [List.length_cons, List.map_cons, List.sum_cons, ih]; omega

/-- **C56**: the totals are those of everything that happened with any peer ever connected. -/
theorem C56_total (ops : List (Op P)) (s : Node P) (acts : List (Action P)) (h : ({} : Node P).run ops = some (acts, s)) :
    s.bs.total = countersOf (wentOut acts) (withOutcome .newBlock (dealtWith {} ops)) (withOutcome .existed (dealtWith {} ops)) := by
  have hi := CountInv.run ops {} s [] acts [] [] StatsInv.init
    ⟨AMap.uniq_nil, fun p => by simp [AMap.get], fun e h => by simp [wentOut] at h, fun e h => by simp at h, fun p st h => by cases h⟩ h
  simp only [List.nil_append] at hi
  have hin : ∀ p, p ∈ everConnected ops → p ∈ s.bs.stats.keys := fun p hp => (AMap.mem_keys_iff _ _).mpr ((hi.who p).mpr hp)
  have ho : ∀ e ∈ wentOut acts, e.1 ∈ s.bs.stats.keys := fun e he => hin _ (hi.out e he)
  have hl : ∀ r, ∀ e ∈ withOutcome r (dealtWith {} ops), e.1 ∈ s.bs.stats.keys := by
    intro r e he
    simp only [withOutcome, List.mem_map, List.mem_filter] at he
    obtain ⟨x, ⟨hx, -⟩, rfl⟩ := he
    exact hin _ (hi.logd x hx)
  have eqn : ∀ (f : Stats → Nat) (w : P × Block → Nat) (l : List (P × Block)), (∀ e ∈ l, e.1 ∈ s.bs.stats.keys) →
      (∀ p st, s.bs.stats.get p = some st → f st = ((ofPeer p l).map w).sum % 2 ^ 64) →
      sumOf f s.bs.stats % 2 ^ 64 = (l.map w).sum % 2 ^ 64 := by
    intro f w l hall hf
    rw [sumOf_mod f (fun p => ((ofPeer p l).map w).sum) _ hi.uniq hf, sum_ofPeer w l _ hi.uniq hall]
  rw [total_sums]
  unfold countersOf
  rw [Stats.mk.injEq]
  refine ⟨?_, ?_, ?_, ?_, ?_, ?_⟩
  · rw [length_eq_sum]
    exact eqn _ _ _ ho (fun p st hst => by rw [hi.each p st hst, ← length_eq_sum]; rfl)
  · have := eqn Stats.sentData (fun _ => 0) [] (fun e he => (List.not_mem_nil he).elim) (fun p st hst => by rw [hi.each p st hst]; simp [ofPeer, countersOf])
    simpa using this
  · rw [length_eq_sum]
    exact eqn _ _ _ (hl .newBlock) (fun p st hst => by rw [hi.each p st hst, ← length_eq_sum]; rfl)
  · exact eqn _ _ _ (hl .newBlock) (fun p st hst => by rw [hi.each p st hst]; rfl)
  · rw [length_eq_sum]
    exact eqn _ _ _ (hl .existed) (fun p st hst => by rw [hi.each p st hst, ← length_eq_sum]; rfl)
  · exact eqn _ _ _ (hl .existed) (fun p st hst => by rw [hi.each p st hst]; rfl)

theorem run_append (a b : List (Op P)) : ∀ s : Node P, s.run (a ++ b) =
    (s.run a).bind (fun r => (r.2.run b).map (fun r2 => (r.1 ++ r2.1, r2.2))) := by
  induction a with
  | nil => intro s; simp [Node.run]
  | cons o a ih =>
    intro s
    simp only [List.cons_append, Node.run]
    split
    · rfl
    · rw [ih]
      cases Node.run _ a with
      | none => rfl
      | some r => simp only [Option.bind_some, Option.map_some, Option.map_map]; congr 1; funext x; simp

theorem dealtWith_append (a b : List (Op P)) : ∀ (s s' : Node P) acts, s.run a = some (acts, s') →
    dealtWith s (a ++ b) = dealtWith s a ++ dealtWith s' b := by
  induction a with
  | nil => intro s s' acts h; cases h; rfl
  | cons o a ih =>
    intro s s' acts h
    simp only [Node.run] at h
    split at h
    · cases h
    · rename_i x s1 h1
      obtain ⟨r, hr, he⟩ := Option.map_eq_some_iff.mp h
      cases he
      simp only [List.cons_append, dealtWith, h1, ih s1 r.2 r.1 hr, List.append_assoc]

/-- Below `2^64`. -/
def Small (out new dup : List (P × Block)) : Prop :=
  out.length < 2 ^ 64 ∧ new.length < 2 ^ 64 ∧ bytesOf new < 2 ^ 64 ∧ dup.length < 2 ^ 64 ∧ bytesOf dup < 2 ^ 64

/-- **C56**: the totals never decrease, whatever happens, as long as they fit 64 bits. -/
theorem C56_monotone (ops ops2 : List (Op P)) (s s2 : Node P) (acts acts2 : List (Action P))
    (h : ({} : Node P).run ops = some (acts, s)) (h2 : s.run ops2 = some (acts2, s2))
    (hs : Small (wentOut (acts ++ acts2)) (withOutcome .newBlock (dealtWith {} (ops ++ ops2)))
      (withOutcome .existed (dealtWith {} (ops ++ ops2)))) :
    s.bs.total.sentBlocks ≤ s2.bs.total.sentBlocks ∧ s.bs.total.sentData ≤ s2.bs.total.sentData ∧
    s.bs.total.receivedBlocks ≤ s2.bs.total.receivedBlocks ∧ s.bs.total.receivedData ≤ s2.bs.total.receivedData ∧
    s.bs.total.duplicateBlocks ≤ s2.bs.total.duplicateBlocks ∧ s.bs.total.duplicateData ≤ s2.bs.total.duplicateData := by
  have hr : ({} : Node P).run (ops ++ ops2) = some (acts ++ acts2, s2) := by rw [run_append, h]; simp [h2]
  rw [C56_total ops s acts h, C56_total _ s2 _ hr]
  unfold Small at hs
  simp only [countersOf]
  rw [dealtWith_append ops ops2 _ _ _ h] at hs ⊢
  simp only [wentOut_append, withOutcome_append, bytesOf, List.map_append, List.sum_append, List.length_append] at hs ⊢
  omega

/-- The number of bytes sent stays at zero. -/
theorem C56_sent_data (ops : List (Op P)) (s : Node P) (acts : List (Action P)) (h : ({} : Node P).run ops = some (acts, s)) :
    s.bs.total.sentData = 0 := by rw [C56_total ops s acts h]; rfl

/-- A block that could not be stored is counted neither as new nor as a duplicate, and the totals wrap. -/
theorem C56_failed_uncounted : (({} : Node Nat).run [.established 1, .received 1 { blocks := [⟨Cid.v0 [7], [1, 2]⟩] }, .poll [], .stored 0 none]).map
    (fun r => (r.2.bs.total, r.2.tasks, r.2.bs.events.length)) = some ({}, [], 0) := by decide +kernel

example : (({} : Node Nat).run [.established 1, .established 2, .received 1 { blocks := [⟨Cid.v0 [7], [1, 2]⟩, ⟨Cid.v0 [7], [1, 2]⟩] },
      .queue 2 ⟨Cid.v0 [9], [4]⟩, .poll [2, 1], .closed 1, .poll [2], .stored 1 (some .existed), .stored 0 (some .newBlock), .poll [2]]).map
    (fun r => r.2.bs.total) = some { sentBlocks := 1, receivedBlocks := 1, receivedData := 2, duplicateBlocks := 1, duplicateData := 2 } := by
  decide +kernel

end Verif.Props
