import Verif.Props.Exchange

/-!
# C73: what is answered is what was asked for, and nothing panics
-/

namespace Verif.Props

open Verif Verif.Repo Verif.Repo.Subs Verif.Bitswap Verif.Net
open Verif.Bitswap.Bitswap

variable {P : Type} [DecidableEq P]

/-! ### Helpers -/

/-- What happens to the repo of a node. -/
theorem move_repo {H : Hashes} {debug : Bool} {n n' : Peer P} {lab : Lab P} {a : Option (P × Message)}
    (h : peerMove H debug n lab = some (a, n')) :
    (n'.store = n.store ∧ n'.reg = n.reg) ∨
    (∃ b, (lab = .put b ∨ ∃ k p, lab = .save k ∧ n.bits.tasks[k]? = some (p, b)) ∧ n.store.get b.cid.mh = none ∧
      n'.store = n.store.set b.cid.mh (b.cid, b) ∧ n'.reg = (n.reg.finish debug b.cid b).1 ∧ (n.reg.finish debug b.cid b).2 ≠ .panic) ∨
    (∃ c, lab = .remove c ∧ n'.store = (n.store.remove c).1 ∧ n'.reg = n.reg) ∨
    (n'.store = n.store ∧ ((∃ c, lab = .get c ∧ n' = (n.get c).2) ∨
      (∃ i, lab = .await i ∧ n'.reg = ((n.reg.poll i).map Prod.fst).getD n.reg) ∨ ∃ i, lab = .drop i ∧ n' = n.drop i)) := by
  have bit : ∀ {m r : Peer P} {op : Bitswap.Op P} {act : Option (Action P)}, m.bitswap op = some (act, r) →
      r.store = m.store ∧ r.reg = m.reg := fun h => ⟨(bitswap_some h).2.1, (bitswap_some h).2.2.1⟩
  cases lab with
  | get c =>
    simp only [peerMove, Option.some.injEq, Prod.mk.injEq] at h
    obtain ⟨rfl, rfl⟩ := h
    refine Or.inr (Or.inr (Or.inr ⟨?_, Or.inl ⟨c, rfl, rfl⟩⟩))
    unfold Peer.get; split <;> rfl
  | put b =>
    simp only [peerMove, Option.map_eq_some_iff] at h
    obtain ⟨⟨r, x⟩, hr, h⟩ := h
    cases h
    rcases put_new hr with ⟨rfl, -⟩ | ⟨h1, h2, h3, h4, -⟩
    · exact Or.inl ⟨rfl, rfl⟩
    · exact Or.inr (Or.inl ⟨b, Or.inl rfl, h1, h2, h3, h4⟩)
  | remove c =>
    simp only [peerMove, Option.some.injEq, Prod.mk.injEq] at h
    obtain ⟨rfl, rfl⟩ := h
    exact Or.inr (Or.inr (Or.inl ⟨c, rfl, rfl, rfl⟩))
  | await i =>
    simp only [peerMove, Option.some.injEq, Prod.mk.injEq] at h
    obtain ⟨rfl, rfl⟩ := h
    exact Or.inr (Or.inr (Or.inr ⟨rfl, Or.inr (Or.inl ⟨i, rfl, rfl⟩)⟩))
  | drop i =>
    simp only [peerMove, Option.some.injEq, Prod.mk.injEq] at h
    obtain ⟨rfl, rfl⟩ := h
    exact Or.inr (Or.inr (Or.inr ⟨(drop_shape n i).1, Or.inr (Or.inr ⟨i, rfl, rfl⟩)⟩))
  | event =>
    simp only [peerMove, Option.map_eq_some_iff] at h
    obtain ⟨x, hx, h⟩ := h
    cases h
    left
    cases hc : n.chan with
    | nil => simp only [Peer.event, hc, Option.some.injEq] at hx; subst hx; exact ⟨rfl, rfl⟩
    | cons e es =>
      have hx' : ∃ r, Peer.bitswap { n with chan := es } (match e with | .want c => .want c 1 | .unwant c => .cancel c | .new c => .cancel c) = some r ∧ r.2 = n' := by
        cases e <;> simpa only [Peer.event, hc, Option.map_eq_some_iff] using hx
      obtain ⟨⟨act, r⟩, hr, rfl⟩ := hx'
      have := bit hr
      exact this
  | swarm order =>
    simp only [peerMove, Option.map_eq_some_iff] at h
    obtain ⟨⟨act, r⟩, hr, h⟩ := h
    have hp := pollOutcome_bits (act, r)
    rw [h] at hp
    exact Or.inl ⟨hp.2.1.trans (bit hr).1, hp.2.2.1.trans (bit hr).2⟩
  | look k =>
    simp only [peerMove, Option.map_eq_some_iff] at h
    obtain ⟨x, hx, h⟩ := h
    cases h
    left
    unfold Peer.look at hx
    split at hx
    · cases hx; exact ⟨rfl, rfl⟩
    · dsimp only at hx
      split at hx
      · cases hx; exact ⟨rfl, rfl⟩
      · obtain ⟨⟨act, r⟩, hr, rfl⟩ := Option.map_eq_some_iff.mp hx
        have := bit hr
        exact this
  | save k =>
    simp only [peerMove, Option.map_eq_some_iff] at h
    obtain ⟨x, hx, h⟩ := h
    cases h
    unfold Peer.save at hx
    split at hx
    · cases hx; exact Or.inl ⟨rfl, rfl⟩
    · rename_i p b hk
      split at hx
      · cases hx
      · rename_i r0 n0 hput
        obtain ⟨⟨act, r⟩, hr, rfl⟩ := Option.map_eq_some_iff.mp hx
        obtain ⟨g1, g2⟩ := bit hr
        dsimp only
        rw [g1, g2]
        rcases put_new hput with ⟨rfl, -⟩ | ⟨h1, h2, h3, h4, -⟩
        · exact Or.inl ⟨rfl, rfl⟩
        · exact Or.inr (Or.inl ⟨b, Or.inr ⟨k, p, rfl, hk⟩, h1, h2, h3, h4⟩)
  | established y =>
    simp only [peerMove, Option.map_eq_some_iff] at h
    obtain ⟨⟨act, r⟩, hr, h⟩ := h
    cases h
    exact Or.inl (bit hr)
  | closed y =>
    simp only [peerMove, Option.map_eq_some_iff] at h
    obtain ⟨⟨act, r⟩, hr, h⟩ := h
    cases h
    exact Or.inl (bit hr)
  | arrive y bs =>
    simp only [peerMove, Option.map_eq_some_iff] at h
    obtain ⟨x, hx, h⟩ := h
    cases h
    left
    unfold Peer.arrive at hx
    split at hx
    · cases hx; exact ⟨rfl, rfl⟩
    · obtain ⟨⟨act, r⟩, hr, rfl⟩ := Option.map_eq_some_iff.mp hx
      exact bit hr

/-- A block event or a task of the behaviour comes from a message that came in. -/
theorem block_back {n n' : Bitswap.Node P} {a : Option (Action P)} {op : Bitswap.Op P} (hs : n.step op = some (a, n')) {b : Block}
    (hb : (∃ p, .generate (.block p b) ∈ n'.bs.events) ∨ ∃ p, (p, b) ∈ n'.tasks) :
    (∃ p, .generate (.block p b) ∈ n.bs.events) ∨ (∃ p, (p, b) ∈ n.tasks) ∨ ∃ p m, op = .received p m ∧ b ∈ m.blocks := by
  have plain : n'.bs.events = n.bs.events → n'.tasks = n.tasks →
      (∃ p, .generate (.block p b) ∈ n.bs.events) ∨ (∃ p, (p, b) ∈ n.tasks) ∨ ∃ p m, op = .received p m ∧ b ∈ m.blocks := by
    intro h1 h2
    rw [h1, h2] at hb
    rcases hb with h | h
    · exact Or.inl h
    · exact Or.inr (Or.inl h)
  cases op with
  | connect p =>
    cases hs
    rcases hb with ⟨q, h⟩ | h
    · left; refine ⟨q, ?_⟩
      simp only [connect] at h
      split at h
      · exact h
      · simpa using h
    · exact Or.inr (Or.inl h)
  | want c pr => cases hs; exact plain rfl rfl
  | cancel c => cases hs; exact plain rfl rfl
  | established p =>
    cases hs
    rcases hb with ⟨q, h⟩ | h
    · left; refine ⟨q, ?_⟩
      simp only [established_eq] at h
      rcases List.mem_append.mp h with h | h
      · exact h
      · split at h <;> simp at h
    · exact Or.inr (Or.inl h)
  | closed p => cases hs; exact plain rfl rfl
  | received p m =>
    simp only [Node.step, received_eq, Option.map_map, Option.map_eq_some_iff] at hs
    obtain ⟨l0, hl0, he⟩ := hs
    cases he
    rcases hb with ⟨q, h⟩ | h
    · simp only [List.mem_append, List.mem_map] at h
      rcases h with ((h | ⟨x, -, hx⟩) | ⟨x, -, hx⟩) | ⟨x, hm, hx⟩
      · exact Or.inl ⟨q, h⟩
      · cases hx
      · cases hx
      · cases hx; exact Or.inr (Or.inr ⟨_, m, rfl, hm⟩)
    · exact Or.inr (Or.inl h)
  | queue p x => cases hs; exact plain rfl rfl
  | poll order =>
    obtain ⟨ha, hbs, ht⟩ := pollStep hs
    have hd := drain_rest n.bs
    have hev : ∀ e ∈ n'.bs.events, e ∈ n.bs.events := by
      intro e he
      rcases poll_cases n.bs order with ⟨e', es, h1, h2⟩ | ⟨h1, h2, -⟩ | ⟨h1, p, l, l', -, h3, -, -, h5, -, h2⟩
      · rw [hbs, h2] at he; rw [h1]; exact List.mem_cons_of_mem _ he
      · rw [hbs, h2] at he; simp only at he; rw [hd.1] at he; exact he
      · rw [hbs, h2] at he; simp only at he; rw [hd.1] at he; exact he
    rcases hb with ⟨q, h⟩ | ⟨q, h⟩
    · exact Or.inl ⟨q, hev _ h⟩
    · rcases ht with ⟨p, x, hp, ht⟩ | ⟨-, ht⟩
      · rw [ht] at h
        rcases List.mem_append.mp h with h | h
        · exact Or.inr (Or.inl ⟨q, h⟩)
        · simp only [List.mem_singleton, Prod.mk.injEq] at h
          obtain ⟨rfl, rfl⟩ := h
          left; refine ⟨q, ?_⟩
          rw [hp] at ha
          rcases poll_cases n.bs order with ⟨e', es, h1, h2⟩ | ⟨h1, h2, -⟩ | ⟨h1, p, l, l', -, h3, -, -, h5, -, h2⟩
          · rw [h2] at ha; cases ha; rw [h1]; exact List.mem_cons_self
          · rw [h2] at ha; cases ha
          · rw [h2] at ha; cases ha
      · rw [ht] at h; exact Or.inr (Or.inl ⟨q, h⟩)
  | stored i r =>
    cases hs
    rcases hb with ⟨q, h⟩ | ⟨q, h⟩
    · rw [(storeDone_rest n i r).2.1] at h; exact Or.inl ⟨q, h⟩
    · right; left
      refine ⟨q, ?_⟩
      unfold Node.storeDone at h
      split at h
      · exact h
      · exact List.mem_of_mem_eraseIdx h

/-- Whatever is stored, about to be stored or about to be answered is what its cid says. -/
structure TrueInv (H : Hashes) (n : Peer P) : Prop where
  store : ∀ c b, n.store.getBlock c = some b → b.cid.mh = c.mh ∧ Authentic H b.cid b.data
  coming : ∀ b, (∃ p, .generate (.block p b) ∈ n.bits.bs.events) ∨ (∃ p, (p, b) ∈ n.bits.tasks) → Authentic H b.cid b.data
  ready : ∀ c i b, AMap.get n.reg.subs (c, i) = some (.ready b) → b.cid = c ∧ Authentic H b.cid b.data
  owner : SubsInv n.reg
  shut : n.reg.shut = false

theorem TrueInv.move {H : Hashes} {debug : Bool} {n n' : Peer P} {lab : Lab P} {a : Option (P × Message)} (hn : TrueInv H n)
    (hl : ∀ b, lab = .put b → Authentic H b.cid b.data) (h : peerMove H debug n lab = some (a, n')) : TrueInv H n' := by
  have hcoming : ∀ b, (∃ p, .generate (.block p b) ∈ n'.bits.bs.events) ∨ (∃ p, (p, b) ∈ n'.bits.tasks) → Authentic H b.cid b.data := by
    intro b hb
    rcases move_bits h with ⟨-, h1, -⟩ | ⟨op, act, hop, hst, -⟩
    · rw [h1] at hb; exact hn.coming b hb
    · rcases block_back hst hb with h1 | h1 | ⟨p, m, rfl, hm⟩
      · exact hn.coming b (Or.inl h1)
      · exact hn.coming b (Or.inr h1)
      · cases lab with
        | arrive y bs =>
          obtain ⟨m', hm', he⟩ := hop
          cases he
          exact C42_frame H bs m hm' b hm
        | event => obtain ⟨e, _, _, he⟩ := hop; cases e <;> cases he
        | look k => obtain ⟨_, _, _, _, _, he⟩ := hop; cases he
        | save k => obtain ⟨_, _, _, he⟩ := hop; cases he
        | swarm _ => cases hop
        | established _ => cases hop
        | closed _ => cases hop
        | _ => exact hop.elim
  rcases move_repo h with ⟨h1, h2⟩ | ⟨b, hb, h1, h2, h3, hp⟩ | ⟨c, rfl, h1, h2⟩ | ⟨h1, ⟨c, rfl, h2⟩ | ⟨i, rfl, h2⟩ | ⟨i, rfl, h2⟩⟩
  · exact ⟨by rw [h1]; exact hn.store, hcoming, by rw [h2]; exact hn.ready, by rw [h2]; exact hn.owner, by rw [h2]; exact hn.shut⟩
  · have ht : Authentic H b.cid b.data := by
      rcases hb with hb | ⟨k, p, -, hk⟩
      · exact hl b hb
      · exact hn.coming b (Or.inr ⟨p, List.mem_of_getElem? hk⟩)
    refine ⟨?_, hcoming, ?_, ?_, ?_⟩
    · intro c x hx
      rw [h2, MemBlocks.getBlock, AMap.get_set] at hx
      split at hx
      · rename_i hc
        cases hx; exact ⟨hc.symm, ht⟩
      · exact hn.store c x hx
    · intro c i x hx
      rw [h3] at hx
      unfold Reg.finish at hx hp
      split at hx
      · rename_i hk
        rw [if_pos hk] at hp
        dsimp only at hx hp
        split at hx
        · rename_i hd; rw [if_pos hd] at hp; exact absurd rfl hp
        · dsimp only at hx
          rw [get_wakeAll] at hx
          split at hx
          · split at hx
            · rename_i hc; cases hx; exact ⟨hc.symm, ht⟩
            · cases hx
          · exact hn.ready c i x hx
      · exact hn.ready c i x hx
    · rw [h3]; exact hn.owner.step (debug := debug) (op := .finish b.cid b) (out := (n.reg.finish debug b.cid b).2) rfl
    · rw [h3, (finish_frame n.reg b.cid b).2.1]; exact hn.shut
  · refine ⟨?_, hcoming, by rw [h2]; exact hn.ready, by rw [h2]; exact hn.owner, by rw [h2]; exact hn.shut⟩
    intro x b hx
    rw [h1] at hx
    simp only [MemBlocks.remove, MemBlocks.getBlock, AMap.get_erase] at hx
    split at hx
    · cases hx
    · exact hn.store x b hx
  · unfold Peer.get at h2
    split at h2
    · rw [h2]; exact hn
    · obtain ⟨reg', g1, g2, g3, g4, g5⟩ := insert_true hn.owner hn.shut c
      dsimp only at h2
      rw [g1] at h2
      subst h2
      refine ⟨hn.store, hcoming, ?_, g2, g3⟩
      intro x i b hx
      dsimp only at hx
      rw [g4, AMap.get_set] at hx
      split at hx
      · cases hx
      · exact hn.ready x i b hx
  · rcases await_reg n i with g | ⟨reg', out, hp, g⟩
    · rw [g] at h2
      exact ⟨by rw [h1]; exact hn.store, hcoming, by rw [h2]; exact hn.ready, by rw [h2]; exact hn.owner, by rw [h2]; exact hn.shut⟩
    · rw [g] at h2
      refine ⟨by rw [h1]; exact hn.store, hcoming, ?_, by rw [h2]; exact hn.owner.step (debug := debug) (op := .poll i) hp,
        by rw [h2]; exact (poll_shut hp).trans hn.shut⟩
      intro x j b hx
      rw [h2] at hx
      unfold Reg.poll at hp
      split at hp
      · split at hp
        · cases hp; exact hn.ready x j b hx
        · cases hp
          dsimp only at hx
          rw [AMap.get_set] at hx
          split at hx
          · cases hx
          · exact hn.ready x j b hx
        · cases hp
          dsimp only [Reg.setFut] at hx
          rw [AMap.get_erase] at hx
          split at hx
          · cases hx
          · exact hn.ready x j b hx
        · cases hp
          dsimp only [Reg.setFut] at hx
          rw [AMap.get_erase] at hx
          split at hx
          · cases hx
          · exact hn.ready x j b hx
      · cases hp
  · subst h2
    obtain ⟨-, g2, -, g3⟩ := drop_shape n i
    have hdrop : ∀ {reg : Reg Cid Block}, n.reg.dropLocked i = some reg → ∀ x j b, AMap.get reg.subs (x, j) = some (.ready b) →
        b.cid = x ∧ Authentic H b.cid b.data := by
      intro reg hd x j b hx
      unfold Reg.dropLocked at hd
      split at hd
      · split at hd
        · cases hd; exact hn.ready x j b hx
        · split at hd
          · cases hd
            dsimp only [Reg.setFut] at hx
            rw [AMap.get_erase] at hx
            split at hx
            · cases hx
            · exact hn.ready x j b hx
          · cases hd; exact hn.ready x j b hx
      · cases hd
    rcases g3 with ⟨g3, -⟩ | ⟨reg, g5, ⟨g3, -⟩ | ⟨g3, -⟩⟩
    · exact ⟨by rw [h1]; exact hn.store, hcoming, by rw [g3]; exact hn.ready, by rw [g3]; exact hn.owner, by rw [g3]; exact hn.shut⟩
    · have hs1 : SubsInv reg := hn.owner.step (debug := debug) (op := .dropLocked i) (out := .nothing) (by simp only [Reg.step, g5, Option.map_some])
      exact ⟨by rw [h1]; exact hn.store, hcoming, by rw [g3]; exact hdrop g5, by rw [g3]; exact hs1, by rw [g3]; exact (drop_shut g5).trans hn.shut⟩
    · have hs1 : SubsInv reg := hn.owner.step (debug := debug) (op := .dropLocked i) (out := .nothing) (by simp only [Reg.step, g5, Option.map_some])
      have hs2 : SubsInv (n.drop i).reg := hs1.step (debug := debug) (op := .dropNotify i) (out := .nothing) (by simp only [Reg.step, g3, Option.map_some])
      exact ⟨by rw [h1]; exact hn.store, hcoming, by rw [(notify_subs g3).1]; exact hdrop g5, hs2,
        (notify_subs g3).2.trans ((drop_shut g5).trans hn.shut)⟩

omit [DecidableEq P] in
theorem TrueInv.init (H : Hashes) : TrueInv H (Peer.init : Peer P) :=
  ⟨(by intro _ _ h; cases h), (by rintro _ (⟨_, h⟩ | ⟨_, h⟩) <;> cases h), (by intro _ _ _ h; cases h),
    ⟨AMap.uniq_nil, (by intro _ _ _ h; cases h), fun _ _ => rfl⟩, rfl⟩

theorem authentic_mh {H : Hashes} {c d : Cid} {data : Bytes} (h : c.mh = d.mh) (ha : Authentic H c data) : Authentic H d data := by
  simp only [Cid.mh, Prod.mk.injEq] at h
  unfold Authentic at *
  rw [← h.1, ← h.2]; exact ha

/-- What is put matches its cid. -/
def PutsTrue (H : Hashes) : NetEv P → Prop
  | .put _ b => Authentic H b.cid b.data
  | _ => True

theorem true_net {H : Hashes} {debug : Bool} {s : NetSt P}
    (hrun : NetRun H debug (fun _ e _ => PutsTrue H e) NetSt.init s) (x : P) : TrueInv H (s.node x) := by
  induction hrun with
  | refl => exact TrueInv.init H
  | step e _ ho hst ih =>
    rcases net_step hst with ⟨h1, h2, h3⟩ | ⟨z, lab, a, n', h1, h2, h3, h4, h5⟩
    · rw [h2]; exact ih
    · by_cases hz : z = x
      · subst hz
        rw [h3]
        refine ih.move ?_ h2
        rintro b rfl
        cases e with
        | put y b' => cases h1; exact ho
        | deliver k =>
          simp only [evLab, Option.map_eq_some_iff] at h1
          obtain ⟨f, -, h1⟩ := h1
          cases h1
        | _ => cases h1
      · rw [h4 x (Ne.symm hz)]; exact ih

/-! ### The theorems -/

/-- **C73**: whatever anybody sends, what `get_block` answers matches the cid asked for: a block that was there has the
multihash of the cid, a block that was waited for has the very cid, and the data is what the cid says. -/
theorem C73_authentic {H : Hashes} {debug : Bool} {s : NetSt P}
    (hrun : NetRun H debug (fun _ e _ => PutsTrue H e) NetSt.init s) (x : P) :
    (∀ c b, ((s.node x).get c).1 = some b → b.cid.mh = c.mh ∧ Authentic H c b.data) ∧
    (∀ i c st reg' b, (s.node x).reg.futs i = some ⟨c, st⟩ → (s.node x).reg.poll i = some (reg', .done b) →
      b.cid = c ∧ Authentic H c b.data) := by
  have hn := true_net hrun x
  constructor
  · intro c b hb
    unfold Peer.get at hb
    split at hb
    · rename_i b' hb'
      cases hb
      obtain ⟨h1, h2⟩ := hn.store c _ hb'
      exact ⟨h1, authentic_mh h1 h2⟩
    · cases hb
  · intro i c st reg' b hf hp
    unfold Reg.poll at hp
    rw [hf] at hp
    split at hp
    · rename_i k cl hk
      cases hk
      split at hp
      · cases hp
      · cases hp
      · cases hp
      · rename_i r hr
        cases hp
        obtain ⟨h1, h2⟩ := hn.ready _ _ _ hr
        rw [h1] at h2
        exact ⟨h1, h2⟩
    · cases hp

/-- Messages arrive only from connected peers. -/
def FromLinked (s : NetSt P) : NetEv P → Prop
  | .deliver k => ∀ f, s.flight[k]? = some f → ((s.node f.receiver).bits.bs.peers.get f.sender).isSome
  | .bytes x y _ => ((s.node x).bits.bs.peers.get y).isSome
  | _ => True

theorem stats_net {H : Hashes} {debug : Bool} {s : NetSt P} (hrun : NetRun H debug (fun _ _ _ => True) NetSt.init s) (x : P) :
    StatsInv (s.node x).bits := by
  induction hrun with
  | refl => exact StatsInv.init
  | step e _ _ hst ih =>
    rcases net_step hst with ⟨h1, h2, h3⟩ | ⟨z, lab, a, n', h1, h2, h3, h4, h5⟩
    · rw [h2]; exact ih
    · by_cases hz : z = x
      · subst hz
        rw [h3]
        rcases move_bits h2 with ⟨-, g, -⟩ | ⟨op, act, hop, g, -⟩
        · rw [g]; exact ih
        · exact ih.step op g
      · rw [h4 x (Ne.symm hz)]; exact ih

theorem bitswap_ok {n : Peer P} (h : StatsInv n.bits) (op : Bitswap.Op P)
    (hr : ∀ p m, op = .received p m → (n.bits.bs.peers.get p).isSome) : (n.bitswap op).isSome := by
  obtain ⟨r, hr⟩ := step_ok n.bits op h hr
  simp only [Peer.bitswap, hr, Option.map_some, Option.isSome_some]

omit [DecidableEq P] in
theorem put_ok (n : Peer P) (b : Block) : (n.put false b).isSome := by
  unfold Peer.put
  split
  · rfl
  · split
    · rename_i hf
      exfalso
      unfold Reg.finish at hf
      split at hf <;> simp at hf
    · rfl

/-- **C73**: in release builds nothing that can happen makes a node panic, whatever bytes connected peers send. -/
theorem C73_no_panic {H : Hashes} {s : NetSt P} (hrun : NetRun H false (fun _ _ _ => True) NetSt.init s) (e : NetEv P)
    (he : FromLinked s e) : ∃ s', s.step H false e = some s' := by
  rw [← Option.isSome_iff_exists]
  have hst : ∀ x, StatsInv (s.node x).bits := stats_net hrun
  have arr : ∀ x y bs, ((s.node x).bits.bs.peers.get y).isSome → ((s.node x).arrive H y bs).isSome := by
    intro x y bs hl
    unfold Peer.arrive
    split
    · rfl
    · rename_i m _
      rw [Option.isSome_map]
      exact bitswap_ok (hst x) _ (by intro p m' h; cases h; exact hl)
  cases e with
  | get x c => rfl
  | put x b => simp only [NetSt.step, Option.isSome_map]; exact put_ok _ b
  | remove x c => rfl
  | await x i => rfl
  | drop x i => rfl
  | event x =>
    simp only [NetSt.step, Option.isSome_map]
    unfold Peer.event
    split
    · rfl
    all_goals
      rw [Option.isSome_map]
      apply bitswap_ok
      · exact hst x
      · intro p m h; cases h
  | swarm x order =>
    simp only [NetSt.step, Option.isSome_map]
    exact bitswap_ok (hst x) _ (by intro p m h; cases h)
  | look x k =>
    simp only [NetSt.step, Option.isSome_map]
    unfold Peer.look
    split
    · rfl
    · dsimp only
      split
      · rfl
      · rw [Option.isSome_map]
        apply bitswap_ok
        · exact hst x
        · intro p m h; cases h
  | save x k =>
    simp only [NetSt.step, Option.isSome_map]
    unfold Peer.save
    split
    · rfl
    · rename_i p b hk
      split
      · rename_i hp
        have := put_ok (s.node x) b
        rw [hp] at this; cases this
      · rename_i r0 n0 hput
        rw [Option.isSome_map]
        exact bitswap_ok (by rw [(put_bits hput).1]; exact hst x) _ (by intro p m h; cases h)
  | established x y =>
    simp only [NetSt.step, Option.isSome_map]
    exact bitswap_ok (hst x) _ (by intro p m h; cases h)
  | closed x y =>
    simp only [NetSt.step, Option.isSome_map]
    exact bitswap_ok (hst x) _ (by intro p m h; cases h)
  | deliver k =>
    simp only [NetSt.step]
    split
    · rfl
    · rename_i f hf
      rw [Option.isSome_map]
      exact arr _ _ _ (he f hf)
  | lose k => rfl
  | bytes x y bs =>
    simp only [NetSt.step, Option.isSome_map]
    exact arr x y bs he

end Verif.Props
