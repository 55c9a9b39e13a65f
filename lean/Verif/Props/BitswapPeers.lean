import Verif.Bitswap.Lemmas

/-!
# C44: peers that come and go
-/

namespace Verif.Props

open Verif Verif.Bitswap
open Verif.Bitswap.Bitswap
open Verif.Repo (Block BlockPut)

variable {P : Type} [DecidableEq P]

/-! ### Specification -/

/-- One more, or one less, for a peer. -/
def bump (cnt : P → Nat) (p : P) (f : Nat → Nat) : P → Nat := fun q => if q = p then f (cnt p) else cnt q

/-- A history as the swarm makes it: connections are closed after they were opened and messages come over open
connections. With `one`, no peer has two connections at a time. `cnt` counts the open connections. -/
def Proper (one : Bool) : (P → Nat) → List (Op P) → Prop
  | _, [] => True
  | cnt, .established p :: os => (one = true → cnt p = 0) ∧ Proper one (bump cnt p (· + 1)) os
  | cnt, .closed p :: os => 0 < cnt p ∧ Proper one (bump cnt p (· - 1)) os
  | cnt, .received p _ :: os => 0 < cnt p ∧ Proper one cnt os
  | cnt, _ :: os => Proper one cnt os

/-- The operation is about the connection to this peer, or a message from it. -/
def About (p : P) : Op P → Prop
  | .established q => q = p
  | .closed q => q = p
  | .received q _ => q = p
  | _ => False

/-- A state a node can be in, however connections come and go. -/
inductive NodeReach : Node P → Prop
  | init : NodeReach {}
  | step {s s' : Node P} {a : Option (Action P)} (o : Op P) : NodeReach s → s.step o = some (a, s') → NodeReach s'

/-! ### Invariants -/

/-- Whoever is connected, or sent a block that waits in the queue, has counters. -/
structure StatsInv (s : Node P) : Prop where
  peers : ∀ p l, s.bs.peers.get p = some l → (s.bs.stats.get p).isSome
  events : ∀ p b, .generate (.block p b) ∈ s.bs.events → (s.bs.stats.get p).isSome
  tasks : ∀ e ∈ s.tasks, (s.bs.stats.get e.1).isSome
  quiet : ∀ p m, .notify p m ∈ s.bs.events → m.blocks = []

theorem wantAll_eq (w : AMap Cid Int) : wantAll w = { want := w.foldl (fun m e => m.set e.1 e.2) [] } := by
  have : ∀ (w : AMap Cid Int) (m : Message), w.foldl (fun m e => m.wantBlock e.1 e.2) m =
      { m with want := w.foldl (fun m e => m.set e.1 e.2) m.want } := by
    intro w
    induction w with
    | nil => intro m; rfl
    | cons e w ih => intro m; rw [List.foldl_cons, ih]; rfl
  exact this w {}

theorem get_storeDone (s : Node P) (i : Nat) (r : Option BlockPut) (p : P) :
    ((s.storeDone i r).bs.stats.get p).isSome = (s.bs.stats.get p).isSome := by
  unfold Node.storeDone
  split
  · rfl
  · rename_i q b hq
    simp only
    split
    · rfl
    · rename_i st hst
      rw [AMap.get_set]
      split
      · rename_i h; subst h; rw [hst]; rfl
      · rfl

theorem storeDone_rest (s : Node P) (i : Nat) (r : Option BlockPut) : (s.storeDone i r).bs.peers = s.bs.peers ∧
    (s.storeDone i r).bs.events = s.bs.events ∧ (s.storeDone i r).bs.wanted = s.bs.wanted ∧
    (s.storeDone i r).bs.ready = s.bs.ready := by
  unfold Node.storeDone
  split
  · exact ⟨rfl, rfl, rfl, rfl⟩
  · simp only
    split <;> exact ⟨rfl, rfl, rfl, rfl⟩

/-- A step of `poll` seen from the node. -/
theorem pollStep {s : Node P} {order : List P} {a : Option (Action P)} {s' : Node P}
    (h : s.step (.poll order) = some (a, s')) :
    a = (s.bs.poll order).1 ∧ s'.bs = (s.bs.poll order).2 ∧
      ((∃ p b, a = some (.generate (.block p b)) ∧ s'.tasks = s.tasks ++ [(p, b)]) ∨
        (∀ p b, a ≠ some (.generate (.block p b))) ∧ s'.tasks = s.tasks) := by
  unfold Node.step at h
  simp only at h
  split at h
  · rename_i e he
    obtain ⟨n, hn, hs⟩ := Option.map_eq_some_iff.mp h
    cases hs
    unfold Node.onEvent at hn
    split at hn
    · split at hn
      · cases hn
      · cases hn
        exact ⟨rfl, rfl, Or.inl ⟨_, _, he, rfl⟩⟩
    · cases hn
      exact ⟨rfl, rfl, Or.inr ⟨(by rw [he]; intro p b hc; cases hc), rfl⟩⟩
    · cases hn
      exact ⟨rfl, rfl, Or.inr ⟨(by rw [he]; intro p b hc; cases hc), rfl⟩⟩
  · rename_i hne
    cases h
    exact ⟨rfl, rfl, Or.inr ⟨fun p b hc => hne _ hc, rfl⟩⟩

theorem StatsInv.step {s s' : Node P} {a : Option (Action P)} (o : Op P) (h : StatsInv s) (hs : s.step o = some (a, s')) :
    StatsInv s' := by
  cases o with
  | connect p =>
    cases hs
    refine ⟨?_, ?_, ?_, ?_⟩ <;> simp only [connect]
    · intro q l hq; split at hq <;> (split <;> exact h.peers q l hq)
    · intro q b hq
      split at hq
      · rename_i hp; rw [if_pos hp]; exact h.events q b hq
      · rename_i hp; rw [if_neg hp]; exact h.events q b (by simpa using hq)
    · intro e he; split <;> exact h.tasks e he
    · intro q m hq
      split at hq
      · exact h.quiet q m hq
      · exact h.quiet q m (by simpa using hq)
  | want c pr =>
    cases hs
    refine ⟨?_, h.events, h.tasks, h.quiet⟩
    intro q l hq
    simp only [wantBlock, get_mapVals] at hq
    obtain ⟨l0, h0, -⟩ := Option.map_eq_some_iff.mp hq
    exact h.peers q l0 h0
  | cancel c =>
    cases hs
    refine ⟨?_, h.events, h.tasks, h.quiet⟩
    intro q l hq
    simp only [cancelBlock, get_mapVals] at hq
    obtain ⟨l0, h0, -⟩ := Option.map_eq_some_iff.mp hq
    exact h.peers q l0 h0
  | established p =>
    cases hs
    have hst : ∀ q, (s.bs.stats.get q).isSome → ((orDefault s.bs.stats p).get q).isSome := by
      intro q hq
      rw [get_orDefault]; split
      · rfl
      · exact hq
    refine ⟨?_, ?_, ?_, ?_⟩ <;> simp only [established_eq]
    · intro q l hq
      rw [AMap.get_set] at hq
      split at hq
      · rename_i hqp; rw [get_orDefault, if_pos hqp.symm]; rfl
      · exact hst q (h.peers q l hq)
    · intro q b hq
      rcases List.mem_append.mp hq with hq | hq
      · exact hst q (h.events q b hq)
      · split at hq <;> simp at hq
    · intro e he; exact hst _ (h.tasks e he)
    · intro q m hq
      rcases List.mem_append.mp hq with hq | hq
      · exact h.quiet q m hq
      · split at hq
        · cases hq
        · simp only [List.mem_singleton, Action.notify.injEq] at hq
          rw [hq.2, wantAll_eq]
  | closed p =>
    cases hs
    refine ⟨?_, h.events, h.tasks, h.quiet⟩
    intro q l hq
    simp only [closed, AMap.get_erase] at hq
    split at hq
    · cases hq
    · exact h.peers q l hq
  | received p m =>
    simp only [Node.step, received_eq, Option.map_map, Option.map_eq_some_iff] at hs
    obtain ⟨l0, hl0, he⟩ := hs
    cases he
    refine ⟨?_, ?_, h.tasks, ?_⟩ <;> simp only
    · intro q l hq
      rw [get_mapVals, AMap.get_set] at hq
      split at hq
      · rename_i hqp; subst hqp; exact h.peers _ _ hl0
      · obtain ⟨l1, h1, -⟩ := Option.map_eq_some_iff.mp hq
        exact h.peers q l1 h1
    · intro q b hq
      simp only [List.mem_append, List.mem_map] at hq
      rcases hq with ((hq | ⟨x, -, hx⟩) | ⟨x, -, hx⟩) | ⟨x, -, hx⟩
      · exact h.events q b hq
      · cases hx
      · cases hx
      · cases hx; exact h.peers _ _ hl0
    · intro q m' hq
      simp only [List.mem_append, List.mem_map] at hq
      rcases hq with ((hq | ⟨x, -, hx⟩) | ⟨x, -, hx⟩) | ⟨x, -, hx⟩
      · exact h.quiet q m' hq
      · cases hx
      · cases hx
      · cases hx
  | queue p b =>
    cases hs
    exact ⟨h.peers, h.events, h.tasks, h.quiet⟩
  | poll order =>
    obtain ⟨ha, hb, ht⟩ := pollStep hs
    have hd := drain_rest s.bs
    have hpeers : ∀ q l, s.bs.drain.peers.get q = some l → (s.bs.stats.get q).isSome := by
      intro q l hq
      rw [drain_get] at hq
      obtain ⟨l1, h1, -⟩ := Option.map_eq_some_iff.mp hq
      exact h.peers q l1 h1
    rcases poll_cases s.bs order with ⟨e, es, h1, h2⟩ | ⟨h1, h2, -⟩ | ⟨h1, p, l, l', -, h3, -, -, -, -, h2⟩
    · have hst : s'.bs.stats = s.bs.stats := by rw [hb, h2]; exact hd.2.2.2.2
      refine ⟨?_, ?_, ?_, ?_⟩
      · rw [hst, hb, h2]; exact hpeers
      · rw [hst, hb, h2]; intro q b hq; exact h.events q b (by rw [h1]; exact List.mem_cons_of_mem _ hq)
      · rw [hst]
        rcases ht with ⟨q, b, hq, ht⟩ | ⟨-, ht⟩
        · rw [ht]; intro x hx
          rcases List.mem_append.mp hx with hx | hx
          · exact h.tasks x hx
          · simp only [List.mem_singleton] at hx
            rw [hx]
            have : some e = some (Action.generate (Event.block q b)) := by rw [← hq, ha, h2]
            cases this
            exact h.events q b (by rw [h1]; exact List.mem_cons_self)
        · rw [ht]; exact h.tasks
      · rw [hb, h2]; intro q m hq; exact h.quiet q m (by rw [h1]; exact List.mem_cons_of_mem _ hq)
    · have hst : s'.bs.stats = s.bs.stats := by rw [hb, h2]; exact hd.2.2.2.2
      have hev : s'.bs.events = [] := by rw [hb, h2]; exact hd.1.trans h1
      refine ⟨?_, ?_, ?_, ?_⟩
      · rw [hst, hb, h2]; exact hpeers
      · rw [hev]; intro q b hq; cases hq
      · rw [hst]
        rcases ht with ⟨q, b, hq, ht⟩ | ⟨-, ht⟩
        · rw [ha, h2] at hq; cases hq
        · rw [ht]; exact h.tasks
      · rw [hev]; intro q b hq; cases hq
    · have hst : ∀ q, (s.bs.stats.get q).isSome → (s'.bs.stats.get q).isSome := by
        intro q hq
        rw [hb, h2]; simp only; rw [get_countOutgoing, hd.2.2.2.2]
        simpa using hq
      have hev : s'.bs.events = [] := by rw [hb, h2]; exact hd.1.trans h1
      refine ⟨?_, ?_, ?_, ?_⟩
      · intro q x hq
        rw [hb, h2] at hq
        simp only [AMap.get_set] at hq
        split at hq
        · rename_i hqp; subst hqp; exact hst _ (hpeers _ _ h3)
        · exact hst _ (hpeers q x hq)
      · rw [hev]; intro q b hq; cases hq
      · intro x hx
        rcases ht with ⟨q, b, hq, ht⟩ | ⟨-, ht⟩
        · rw [ha, h2] at hq; cases hq
        · rw [ht] at hx; exact hst _ (h.tasks x hx)
      · rw [hev]; intro q b hq; cases hq
  | stored i r =>
    cases hs
    obtain ⟨h1, h2, -, -⟩ := storeDone_rest s i r
    refine ⟨?_, ?_, ?_, ?_⟩
    · intro q l hq; rw [get_storeDone]; rw [h1] at hq; exact h.peers q l hq
    · intro q b hq; rw [get_storeDone]; rw [h2] at hq; exact h.events q b hq
    · intro e he
      rw [get_storeDone]
      refine h.tasks e ?_
      unfold Node.storeDone at he
      split at he
      · exact he
      · exact List.mem_of_mem_eraseIdx he
    · intro q m hq; rw [h2] at hq; exact h.quiet q m hq

theorem StatsInv.init : StatsInv ({} : Node P) :=
  ⟨fun _ _ h => (by cases h), fun _ _ h => (List.not_mem_nil h).elim, fun _ h => (List.not_mem_nil h).elim, fun _ _ h => (List.not_mem_nil h).elim⟩

theorem NodeReach.inv {s : Node P} (h : NodeReach s) : StatsInv s := by
  induction h with
  | init => exact StatsInv.init
  | step o _ hs ih => exact ih.step o hs

/-! ### C44 -/

theorem step_ok (s : Node P) (o : Op P) (h : StatsInv s) (hr : ∀ p m, o = .received p m → (s.bs.peers.get p).isSome) :
    ∃ r, s.step o = some r := by
  cases o with
  | received p m =>
    obtain ⟨l, hl⟩ := Option.isSome_iff_exists.mp (hr p m rfl)
    simp only [Node.step, received_eq, hl, Option.map_some]
    exact ⟨_, rfl⟩
  | poll order =>
    simp only [Node.step]
    split
    · rename_i e he
      have hmem : Action.generate e ∈ s.bs.events := by
        rcases poll_cases s.bs order with ⟨e', es, h1, h2⟩ | ⟨h1, h2, -⟩ | ⟨h1, p, l, l', -, h3, -, -, -, -, h2⟩
        · rw [h2] at he; cases he; rw [h1]; exact List.mem_cons_self
        · rw [h2] at he; cases he
        · rw [h2] at he; cases he
      cases e with
      | block p b =>
        have hp := h.events p b hmem
        have hst : (s.bs.poll order).2.stats = s.bs.stats := by
          rcases poll_cases s.bs order with ⟨e', es, h1, h2⟩ | ⟨h1, h2, -⟩ | ⟨h1, p, l, l', -, h3, -, -, -, -, h2⟩
          · rw [h2]; exact (drain_rest s.bs).2.2.2.2
          · rw [h2] at he; cases he
          · rw [h2] at he; cases he
        obtain ⟨st, hst'⟩ := Option.isSome_iff_exists.mp hp
        simp only [Node.onEvent, hst, hst']
        exact ⟨_, rfl⟩
      | want p c pr => exact ⟨_, rfl⟩
      | cancel p c => exact ⟨_, rfl⟩
    · exact ⟨_, rfl⟩
  | _ => exact ⟨_, rfl⟩

/-- **C44**: in any state that comes up, a step fails only by a message from a peer without a ledger; the counters
that are looked up for a block are always there. -/
theorem C44_only_panic (s : Node P) (h : NodeReach s) (o : Op P) :
    s.step o = none ↔ ∃ p m, o = .received p m ∧ s.bs.peers.get p = none := by
  constructor
  · intro hn
    apply Classical.byContradiction
    intro hc
    obtain ⟨r, hr⟩ := step_ok s o h.inv (by
      intro p m ho
      cases hg : s.bs.peers.get p with
      | none => exact absurd ⟨p, m, ho, hg⟩ hc
      | some l => rfl)
    rw [hn] at hr; cases hr
  · rintro ⟨p, m, rfl, hp⟩
    simp only [Node.step, received_eq, hp, Option.map_none]

/-- Which peers have a ledger after a step. -/
theorem step_peers {s s' : Node P} {a : Option (Action P)} {o : Op P} (hs : s.step o = some (a, s')) (p : P) :
    (o = .established p → s'.bs.peerWantlist p = some []) ∧ (o = .closed p → s'.bs.peerWantlist p = none) ∧
    (∀ m, o = .received p m → ∃ l, s.bs.peers.get p = some l ∧ s'.bs.peerWantlist p =
      some ((s.bs.freshWants m).foldl (fun r e => r.set e.1 e.2) (m.cancel.foldl (fun r c => r.erase c) l.received))) ∧
    (¬ About p o → s'.bs.peerWantlist p = s.bs.peerWantlist p) := by
  cases o with
  | connect q =>
    refine ⟨nofun, nofun, nofun, fun _ => ?_⟩
    cases hs; simp only [peerWantlist, connect]; split <;> rfl
  | want c pr =>
    refine ⟨nofun, nofun, nofun, fun _ => ?_⟩
    cases hs; simp only [peerWantlist, wantBlock, get_mapVals, Option.map_map]; rfl
  | cancel c =>
    refine ⟨nofun, nofun, nofun, fun _ => ?_⟩
    cases hs; simp only [peerWantlist, cancelBlock, get_mapVals, Option.map_map]; rfl
  | established q =>
    refine ⟨fun h => ?_, nofun, nofun, fun h => ?_⟩
    · cases h; cases hs; simp only [peerWantlist, established_eq, AMap.get_set, if_true]; rfl
    · have hq : p ≠ q := fun e => h e.symm
      cases hs; simp only [peerWantlist, established_eq, AMap.get_set, if_neg hq]
  | closed q =>
    refine ⟨nofun, fun h => ?_, nofun, fun h => ?_⟩
    · cases h; cases hs; simp only [peerWantlist, closed, AMap.get_erase, if_true]; rfl
    · have hq : p ≠ q := fun e => h e.symm
      cases hs; simp only [peerWantlist, closed, AMap.get_erase, if_neg hq]
  | received q m =>
    simp only [Node.step, received_eq, Option.map_map, Option.map_eq_some_iff] at hs
    obtain ⟨l0, hl0, he⟩ := hs
    cases he
    refine ⟨nofun, nofun, fun m' h => ?_, fun h => ?_⟩
    · cases h
      refine ⟨l0, hl0, ?_⟩
      simp only [peerWantlist, get_mapVals, AMap.get_set, if_true, Option.map_some, cancelAll_received]
    · have hq : p ≠ q := fun e => h e.symm
      simp only [peerWantlist, get_mapVals, AMap.get_set, if_neg hq, Option.map_map]
      congr 1; funext l; exact cancelAll_received _ _
  | queue q b =>
    refine ⟨nofun, nofun, nofun, fun _ => ?_⟩
    cases hs; rfl
  | poll order =>
    refine ⟨nofun, nofun, nofun, fun _ => ?_⟩
    have hdr : ∀ q, (s.bs.drain.peers.get q).map Ledger.received = (s.bs.peers.get q).map Ledger.received := by
      intro q
      rw [drain_get, Option.map_map]
      congr 1; funext l; simp only [Function.comp, addAll_eq]
    obtain ⟨-, hb, -⟩ := pollStep hs
    unfold peerWantlist
    rw [hb]
    rcases poll_cases s.bs order with ⟨e', es, h1, h2⟩ | ⟨h1, h2, -⟩ | ⟨h1, q, l, l', -, h3, -, -, -, h4, h2⟩
    · rw [h2]; exact hdr p
    · rw [h2]; exact hdr p
    · rw [h2]; simp only [AMap.get_set]
      split
      · rename_i hpq; subst hpq; rw [← hdr, h3]; simp [h4]
      · exact hdr p
  | stored i r =>
    refine ⟨nofun, nofun, nofun, fun _ => ?_⟩
    cases hs; unfold peerWantlist; rw [(storeDone_rest s i r).1]

/-- **C44**: the recorded wants of a peer change only by messages from it and by its connections. -/
theorem C44_kept (p : P) (ops : List (Op P)) (s s' : Node P) (acts : List (Action P)) (h : s.run ops = some (acts, s'))
    (hn : ∀ o ∈ ops, ¬ About p o) : s'.bs.peerWantlist p = s.bs.peerWantlist p := by
  induction ops generalizing s acts with
  | nil => cases h; rfl
  | cons o ops ih =>
    simp only [Node.run] at h
    split at h
    · cases h
    · rename_i a s1 h1
      obtain ⟨r, hr, he⟩ := Option.map_eq_some_iff.mp h
      cases he
      rw [ih s1 r.1 hr (fun o ho => hn o (List.mem_cons_of_mem _ ho))]
      exact (step_peers h1 p).2.2.2 (hn o List.mem_cons_self)

theorem peerWantlist_isSome (s : Bitswap P) (p : P) : (s.peerWantlist p).isSome = (s.peers.get p).isSome := by
  unfold peerWantlist; cases s.peers.get p <;> rfl

theorem run_ok (ops : List (Op P)) : ∀ (cnt : P → Nat) (s : Node P), StatsInv s → (∀ p, cnt p ≤ 1) →
    (∀ p, (s.bs.peers.get p).isSome ↔ 0 < cnt p) → Proper true cnt ops → ∃ r, s.run ops = some r := by
  induction ops with
  | nil => intro cnt s _ _ _ _; exact ⟨_, rfl⟩
  | cons o ops ih =>
    intro cnt s hi h1 hc hp
    have hstep : ∃ r, s.step o = some r := by
      refine step_ok s o hi ?_
      intro p m ho
      subst ho
      exact (hc p).mpr hp.1
    obtain ⟨⟨a, s'⟩, hs⟩ := hstep
    have hi' := hi.step o hs
    have hsp := fun p => step_peers hs p
    have other : (∀ p, ¬ About p o) → ∀ p, (s'.bs.peers.get p).isSome ↔ 0 < cnt p := by
      intro hna p
      rw [← peerWantlist_isSome, (hsp p).2.2.2 (hna p), peerWantlist_isSome]
      exact hc p
    have fin : ∀ cnt', (∀ p, cnt' p ≤ 1) → (∀ p, (s'.bs.peers.get p).isSome ↔ 0 < cnt' p) → Proper true cnt' ops →
        ∃ r, s.run (o :: ops) = some r := by
      intro cnt' g1 g2 g3
      obtain ⟨r, hr⟩ := ih cnt' s' hi' g1 g2 g3
      simp only [Node.run, hs, hr]
      exact ⟨_, rfl⟩
    cases o with
    | established p =>
      refine fin (bump cnt p (· + 1)) ?_ ?_ hp.2
      · intro q; simp only [bump]; split
        · rw [hp.1 rfl]; exact Nat.le_refl 1
        · exact h1 q
      · intro q
        simp only [bump]
        split
        · rename_i hq; subst hq
          rw [← peerWantlist_isSome, (hsp q).1 rfl]; simp
        · rename_i hq
          rw [← peerWantlist_isSome, (hsp q).2.2.2 (fun e => hq e.symm), peerWantlist_isSome]; exact hc q
    | closed p =>
      refine fin (bump cnt p (· - 1)) ?_ ?_ hp.2
      · intro q; simp only [bump]; split
        · have := h1 p; omega
        · exact h1 q
      · intro q
        simp only [bump]
        split
        · rename_i hq; subst hq
          rw [← peerWantlist_isSome, (hsp q).2.1 rfl]
          have := h1 q
          simp; omega
        · rename_i hq
          rw [← peerWantlist_isSome, (hsp q).2.2.2 (fun e => hq e.symm), peerWantlist_isSome]; exact hc q
    | received p m =>
      refine fin cnt h1 ?_ hp.2
      intro q
      by_cases hq : p = q
      · subst hq
        obtain ⟨l, hl, hw⟩ := (hsp p).2.2.1 m rfl
        rw [← peerWantlist_isSome, hw]
        simp [hp.1]
      · rw [← peerWantlist_isSome, (hsp q).2.2.2 hq, peerWantlist_isSome]; exact hc q
    | connect p => exact fin cnt h1 (other (fun _ => id)) hp
    | want c pr => exact fin cnt h1 (other (fun _ => id)) hp
    | cancel c => exact fin cnt h1 (other (fun _ => id)) hp
    | queue p b => exact fin cnt h1 (other (fun _ => id)) hp
    | poll order => exact fin cnt h1 (other (fun _ => id)) hp
    | stored i r => exact fin cnt h1 (other (fun _ => id)) hp

/-- **C44**, partial: no history in which each peer has at most one connection at a time ends in a panic. Missing:
with several connections to one peer it does not hold, see `C44_second_connection` and `C44_reset`. -/
theorem C44_safe_partial (ops : List (Op P)) (h : Proper true (fun _ => 0) ops) : ∃ r, ({} : Node P).run ops = some r :=
  run_ok ops (fun _ => 0) {} StatsInv.init (fun _ => by omega) (fun _ => ⟨fun h => (by cases h), fun h => (by omega)⟩) h

theorem foldl_erase_get (cs : List Cid) (r : AMap Cid Int) (c : Cid) :
    (cs.foldl (fun r c => r.erase c) r).get c = if c ∈ cs then none else r.get c := by
  induction cs generalizing r with
  | nil => simp
  | cons x cs ih =>
    rw [List.foldl_cons, ih, AMap.get_erase]
    by_cases h : c ∈ cs
    · simp [h]
    · by_cases hx : c = x
      · simp [hx]
      · simp [h, hx]

theorem foldl_set_get (w : AMap Cid Int) (hu : AMap.Uniq w) (r : AMap Cid Int) (c : Cid) :
    (w.foldl (fun r e => r.set e.1 e.2) r).get c = (w.get c).or (r.get c) := by
  induction w generalizing r with
  | nil => simp [AMap.get]
  | cons e w ih =>
    obtain ⟨k, v⟩ := e
    simp only [AMap.Uniq, AMap.keys, List.map_cons, List.nodup_cons] at hu
    rw [List.foldl_cons, ih hu.2, AMap.get_set]
    simp only [AMap.get]
    by_cases h : k = c
    · subst h
      have : AMap.get w k = none := by
        cases hg : AMap.get w k with
        | none => rfl
        | some v' => exact absurd (List.mem_map.mpr ⟨_, AMap.mem_of_get hg, rfl⟩) hu.1
      simp [this]
    · simp [h, Ne.symm h]

omit [DecidableEq P] in
theorem freshWants_get (s : Bitswap P) (m : Message) (c : Cid) :
    (s.freshWants m).get c = if c ∈ s.wanted.keys then none else m.want.get c := by
  unfold freshWants
  have key : ∀ x : Cid, s.wanted.any (fun w => decide (w.1 = x)) = decide (x ∈ s.wanted.keys) := by
    intro x
    rw [Bool.eq_iff_iff]
    simp only [List.any_eq_true, decide_eq_true_eq, AMap.keys, List.mem_map]
  simp only [key]
  induction m.want with
  | nil => simp [AMap.get]
  | cons e w ih =>
    obtain ⟨k, v⟩ := e
    rw [List.filter_cons]
    by_cases hk : k ∈ s.wanted.keys
    · simp only [hk, decide_true, Bool.not_true, Bool.false_eq_true, if_false]
      rw [ih]
      by_cases hc : c ∈ s.wanted.keys
      · simp [hc]
      · simp only [if_neg hc, AMap.get]
        rw [if_neg]
        rintro rfl; exact hc hk
    · simp only [hk, decide_false, Bool.not_false, if_true, AMap.get]
      by_cases hkc : k = c
      · subst hkc; simp [hk]
      · simp only [if_neg hkc]; exact ih

/-- **C44**: what a message records: its wants, but not those this node has itself, and its cancels before. -/
theorem C44_record (s s' : Node P) (a : Option (Action P)) (p : P) (m : Message) (hu : AMap.Uniq m.want)
    (h : s.step (.received p m) = some (a, s')) : ∃ w w', s.bs.peerWantlist p = some w ∧ s'.bs.peerWantlist p = some w' ∧
    ∀ c, w'.get c = if (m.want.get c).isSome ∧ c ∉ s.bs.wanted.keys then m.want.get c
      else if c ∈ m.cancel then none else w.get c := by
  obtain ⟨l, hl, hw⟩ := (step_peers h p).2.2.1 m rfl
  refine ⟨l.received, _, by simp [peerWantlist, hl], hw, ?_⟩
  intro c
  have hu' : AMap.Uniq (s.bs.freshWants m) := by
    unfold AMap.Uniq AMap.keys freshWants at *
    exact List.Pairwise.sublist (List.Sublist.map _ List.filter_sublist) hu
  rw [foldl_set_get _ hu', foldl_erase_get, freshWants_get]
  by_cases hc : c ∈ s.bs.wanted.keys
  · simp [hc]
  · simp only [hc, if_false, not_false_eq_true, and_true]
    cases m.want.get c <;> simp

/-- A second connection to a peer forgets what it wants. -/
theorem C44_reset : ∃ ops : List (Op Nat), Proper false (fun _ => 0) ops ∧
    (({} : Node Nat).run ops).map (fun r => r.2.bs.peerWantlist 1) = some (some []) ∧
    (({} : Node Nat).run ops.dropLast).map (fun r => r.2.bs.peerWantlist 1) = some (some [(Cid.v0 [7], 1)]) :=
  ⟨[.established 1, .received 1 { want := [(Cid.v0 [7], 1)] }, .established 1],
    ⟨by decide, by decide, by decide, trivial⟩, by decide +kernel, by decide +kernel⟩

/-- When one of two connections is closed, a message over the other is a panic. -/
theorem C44_second_connection : ∃ ops : List (Op Nat), Proper false (fun _ => 0) ops ∧ ({} : Node Nat).run ops = none :=
  ⟨[.established 1, .established 1, .closed 1, .received 1 {}],
    ⟨by decide, by decide, by decide, by decide, trivial⟩, rfl⟩

example : Proper true (fun _ => 0) ([.established 1, .want (Cid.v0 [8]) 2, .poll [1], .established 2,
    .received 1 { want := [(Cid.v0 [7], 1)], blocks := [⟨Cid.v0 [8], [1]⟩] }, .poll [2, 1], .poll [2, 1], .closed 1,
    .stored 0 (some .newBlock), .established 1] : List (Op Nat)) :=
  ⟨by decide, by decide, by decide, by decide, by decide, trivial⟩

end Verif.Props
