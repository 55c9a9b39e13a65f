import Verif.Props.Dial
import Verif.Props.HttpSwarm

/-!
# C94: asking for peers and addresses

What a client reads from swarm/peers and swarm/addrs, in terms of what happened to the connections, and what asking
does to requests to connect.
-/

namespace Verif.Props

open Verif Verif.Ipfs Verif.Repo.Subs Verif.Net Verif.Http

/-! ### Specification -/

/-- One more event, with the connections open before and the requests to connect to the peer that no dial was told of. -/
def toDialStep (p : PeerId) (acc : List Conn × List AddrPeer) (e : SwarmEv) : List Conn × List AddrPeer :=
  (openStep acc.1 e,
    match e with
    | .connect a =>
      if a.peer = p ∧ ∀ c ∈ acc.1, c.peer = p → shownAddr c.ep ≠ a.multiaddr.addr then acc.2 ++ [a] else acc.2
    | .addressesOf q => if q = p then [] else acc.2
    | .established q _ _ => if q = p then [] else acc.2
    | _ => acc.2)

/-- The requests to connect to a peer, at an address that no connection to it had, since its addresses were last asked
for and since it was last connected. -/
def toDial (es : List SwarmEv) (p : PeerId) : List AddrPeer := (es.foldl (toDialStep p) ([], [])).2

/-- The latency of a peer: its last roundtrip time, or else the time since it was asked for. -/
noncomputable def latencyOf (es : List SwarmEv) (elapsed : PeerId → Nat) (p : PeerId) : Option Nat :=
  match lastRtt es p with
  | some t => some t
  | none => by classical exact if AskedSinceClosed es p then some (elapsed p) else none

/-! ### Helpers -/

theorem toDial_open (p : PeerId) (es : List SwarmEv) (acc : List Conn × List AddrPeer) :
    (es.foldl (toDialStep p) acc).1 = es.foldl openStep acc.1 := by
  induction es generalizing acc with
  | nil => rfl
  | cons e es ih => exact ih _

theorem toDial_snoc (p : PeerId) (es : List SwarmEv) (e : SwarmEv) :
    toDial (es ++ [e]) p =
      match e with
      | .connect a =>
        if a.peer = p ∧ ∀ c ∈ openConns es, c.peer = p → shownAddr c.ep ≠ a.multiaddr.addr then toDial es p ++ [a]
        else toDial es p
      | .addressesOf q => if q = p then [] else toDial es p
      | .established q _ _ => if q = p then [] else toDial es p
      | _ => toDial es p := by
  unfold toDial openConns
  rw [List.foldl_append]
  simp only [List.foldl_cons, List.foldl_nil]
  have := toDial_open p es ([], [])
  simp only at this
  rw [← this]
  rfl

theorem addressesOf_waiting (s : SwarmSt) (p q : PeerId) :
    waitingOf (s.addressesOf q).1 p = if q = p then [] else waitingOf s p := by
  simp only [SwarmSt.addressesOf, waitingOf, AMap.get_erase]
  by_cases h : q = p
  · simp [h]
  · have : ¬ p = q := fun hh => h hh.symm
    simp [h, this]

theorem toDial_spec {debug : Bool} {es : List SwarmEv} {s : SwarmSt} (hc : Consistent es)
    (h : SwarmSt.init.run debug es = .ok s) (p : PeerId) : waitingOf s p = toDial es p := by
  induction es using snocInd generalizing s with
  | nil => simp only [SwarmSt.run, Except.ok.injEq] at h; subst h; rfl
  | snoc es e ih =>
    obtain ⟨m, hm, he⟩ := swarm_run_snoc.mp h
    have hc' : Consistent es := (consistent_append.mp hc).1
    have ih := ih hc' hm
    rw [toDial_snoc]
    cases e with
    | connect a =>
      simp only [SwarmSt.step, Except.ok.injEq] at he
      subst he
      have hi := ConnInv.init.run hc' hm
      have iff : (a.peer = p ∧ ∀ c ∈ openConns es, c.peer = p → shownAddr c.ep ≠ a.multiaddr.addr) ↔
          (a.peer = p ∧ a.multiaddr ∉ (AMap.get m.connected a.peer).getD []) := by
        refine and_congr_right (fun hp => ?_)
        subst hp
        rw [(hi.exact a.peer).mem_iff]
        constructor
        · intro hn hin
          obtain ⟨c, hc1, hc2⟩ := List.mem_map.mp hin
          obtain ⟨hc3, hc4⟩ := List.mem_filter.mp hc1
          refine hn c hc3 (by simpa using hc4) ?_
          rw [← hc2]
        · intro hn c hc3 hc4 hc5
          refine hn (List.mem_map.mpr ⟨c, List.mem_filter.mpr ⟨hc3, by simpa using hc4⟩, ?_⟩)
          rw [hc5]
      simp only [iff]
      unfold SwarmSt.connect
      split
      · rename_i hin
        rw [if_neg (by rintro ⟨-, hh⟩; exact hh hin)]
        exact ih
      · rename_i hin
        simp only [waitingOf, AMap.get_set]
        by_cases hp : p = a.peer
        · subst hp
          have ih : (AMap.get m.pendAddrs a.peer).getD [] = toDial es a.peer := ih
          simp only [if_true, Option.getD_some, true_and, hin, not_false_eq_true, ih]
        · have hp' : ¬ a.peer = p := fun hh => hp hh.symm
          simp only [hp, hp', if_false, false_and]
          exact ih
    | addressesOf q =>
      simp only [SwarmSt.step, Except.ok.injEq] at he
      subst he
      rw [addressesOf_waiting, ih]
    | established q c ep =>
      obtain ⟨ks, -, hw, -, hoth, -⟩ := established_fin he
      by_cases hq : q = p
      · subst hq; simp only [if_true]; exact hw
      · simp only [hq, if_false]
        rw [(hoth p (fun hh => hq hh.symm)).1]; exact ih
    | closed q c ep =>
      obtain ⟨ks, -, hw, -⟩ := closed_fin he
      rw [hw]; exact ih
    | dialFailure q err =>
      obtain ⟨ks, -, hw, -⟩ := dialFailure_fin he
      rw [hw]; exact ih
    | _ => simp only [SwarmSt.step, Except.ok.injEq] at he; subst he; exact ih

theorem insertSet_nodup {α : Type} [DecidableEq α] {l : List α} (h : l.Nodup) (a : α) : (insertSet l a).Nodup := by
  unfold insertSet
  split
  · exact h
  · rename_i hn
    rw [List.nodup_append]
    refine ⟨h, by simp, ?_⟩
    intro x hx y hy
    simp only [List.mem_singleton] at hy
    subst hy
    rintro rfl
    exact hn hx

theorem peers_nodup {debug : Bool} {es : List SwarmEv} {s : SwarmSt} (h : SwarmSt.init.run debug es = .ok s) :
    s.peers.Nodup := by
  induction es using snocInd generalizing s with
  | nil => simp only [SwarmSt.run, Except.ok.injEq] at h; subst h; exact List.nodup_nil
  | snoc es e ih =>
    obtain ⟨m, hm, he⟩ := swarm_run_snoc.mp h
    have ih := ih hm
    rw [(step_parts he).1]
    cases e with
    | addPeer p => exact insertSet_nodup ih p
    | established p c ep => exact insertSet_nodup ih p
    | removePeer p => exact List.filter_sublist.nodup ih
    | _ => exact ih

theorem addrs_answer (other : PeerId → List Maddr) (s : SwarmSt) {l : List PeerId} (hn : l.Nodup) :
    (s.addrs other l).2 = l.map (fun p => (p, other p ++ (waitingOf s p).map AddrPeer.toAddr)) := by
  induction l generalizing s with
  | nil => rfl
  | cons p l ih =>
    obtain ⟨h1, h2⟩ := List.nodup_cons.mp hn
    show (p, other p ++ (s.addressesOf p).2) :: (SwarmSt.addrs other (s.addressesOf p).1 l).2 = _
    rw [ih _ h2, List.map_cons]
    congr 1
    refine List.map_congr_left (fun q hq => ?_)
    rw [addressesOf_waiting, if_neg (by rintro rfl; exact h1 hq)]

/-! ### C94 -/

/-- **C94**: asked for the known addresses the node lists every known peer once, whether it is connected or not, with
what the other behaviours know and with the addresses at which it was requested to be connected and that no dial was told
of since. -/
theorem C94_listed (debug : Bool) (es : List SwarmEv) (s : SwarmSt) (hc : Consistent es)
    (h : SwarmSt.init.run debug es = .ok s) (other : PeerId → List Maddr) (order : List PeerId) (ho : order.Perm s.peers) :
    (s.addrs other order).2 = order.map (fun p => (p, other p ++ (toDial es p).map AddrPeer.toAddr)) ∧
    order.Nodup ∧ ∀ p, p ∈ order ↔ isKnown es p = true := by
  have hn := ho.symm.nodup (peers_nodup h)
  refine ⟨?_, hn, fun p => ho.mem_iff.trans (C45_peers debug es s h p)⟩
  rw [addrs_answer other s hn]
  exact List.map_congr_left (fun p _ => by rw [toDial_spec hc h])

/-- **C94**: so a client reads that from swarm/addrs. -/
theorem C94_addrs (env : NodeEnv) (hs : ∀ c, utf8Ok (env.show' c) = true) (lt : NodeFail → Bytes) (debug : Bool)
    (es : List SwarmEv) (s : SwarmSt) (hc : Consistent es) (h : SwarmSt.init.run debug es = .ok s)
    (hv : ∀ p, isKnown es p = true → p.Valid) (other : PeerId → List Maddr) (order : List PeerId) (ho : order.Perm s.peers) :
    ∃ j told, heardJson (nodeAnswer lt (swarmAddrs env (some (s.addrs other order).2))) = some j ∧
      ((jsonField "Addrs" j).bind jsonFields).bind (readAll readAddrs) = some told ∧ (told.map Prod.fst).Nodup ∧
      ∀ p texts, (p, texts) ∈ told ↔ isKnown es p = true ∧
        texts = (other p ++ (toDial es p).map AddrPeer.toAddr).map (Maddr.text env.show') := by
  obtain ⟨h1, h2, h3⟩ := C94_listed debug es s hc h other order ho
  have e1 : ((s.addrs other order).2).map Prod.fst = order := by
    rw [h1, List.map_map]; exact List.map_id' order
  obtain ⟨j, told, hj, ht, hp⟩ := C75_addrs env hs lt (s.addrs other order).2
    (fun e he => hv _ ((h3 _).mp (by rw [← e1]; exact List.mem_map.mpr ⟨e, he, rfl⟩))) (by rw [e1]; exact h2)
  refine ⟨j, told, hj, ht, ?_, ?_⟩
  · refine (hp.map Prod.fst).symm.nodup ?_
    rw [List.map_map]
    show (((s.addrs other order).2).map Prod.fst).Nodup
    rw [e1]; exact h2
  · intro p texts
    rw [hp.mem_iff, h1, List.map_map]
    simp only [List.mem_map, Function.comp, Prod.mk.injEq, h3]
    constructor
    · rintro ⟨q, hq, rfl, rfl⟩; exact ⟨hq, rfl⟩
    · rintro ⟨hq, rfl⟩; exact ⟨p, hq, rfl, rfl⟩

/-- **C94**: from swarm/peers a client reads exactly the peers with an open connection, each once, with the address of one
such connection, and if it asked for it the latency. -/
theorem C94_peers (env : NodeEnv) (hs : ∀ c, utf8Ok (env.show' c) = true) (lt : NodeFail → Bytes) (debug : Bool)
    (es : List SwarmEv) (s : SwarmSt) (hc : Consistent es) (h : SwarmSt.init.run debug es = .ok s)
    (hv : ∀ p, openTo es p ≠ [] → p.Valid) (elapsed : PeerId → Nat) (query : Bytes) (ps : List (Bytes × Bytes))
    (hd : Decoded env.q query ps) (v : Option Bool) (hg : Given readBool "verbose".toUTF8.toList ps v) :
    ∃ j told, heardJson (nodeAnswer lt (swarmPeers env (some (s.peersTold elapsed)) query)) = some j ∧
      ((jsonField "Peers" j).bind jsonList).bind (readAll readConn) = some told ∧ (told.map (fun t => t.1)).Nodup ∧
      (∀ p, (∃ t ∈ told, t.1 = p) ↔ openTo es p ≠ []) ∧
      ∀ t ∈ told, (∃ c ∈ openTo es t.1, t.2.1 = Maddr.text env.show' (shownAddr c.ep)) ∧
        t.2.2 = latencyTold v (latencyOf es elapsed t.1) := by
  obtain ⟨h1, h2, h3⟩ := C45_listed debug es s hc h
  have hv' : ∀ c ∈ s.peersTold elapsed, c.1.peer.Valid := by
    intro c hcm
    obtain ⟨x, hx, rfl⟩ := List.mem_map.mp hcm
    exact hv _ ((h1 _).mp ⟨x, hx, rfl⟩)
  obtain ⟨j, hj, hr⟩ := (C75_peers env hs lt (s.peersTold elapsed) hv' query ps hd).1 v hg
  refine ⟨j, _, hj, hr, ?_, ?_, ?_⟩
  · simp only [SwarmSt.peersTold, List.map_map]
    exact h2
  · intro p
    rw [← h1 p]
    simp only [SwarmSt.peersTold, List.map_map, List.mem_map, Function.comp]
    constructor
    · rintro ⟨t, ⟨x, hx, rfl⟩, rfl⟩; exact ⟨x, hx, rfl⟩
    · rintro ⟨x, hx, rfl⟩; exact ⟨_, ⟨x, hx, rfl⟩, rfl⟩
  · intro t ht
    simp only [SwarmSt.peersTold, List.map_map, List.mem_map, Function.comp] at ht
    obtain ⟨x, hx, rfl⟩ := ht
    obtain ⟨c, hc1, hc2⟩ := h3 x hx
    refine ⟨⟨c, hc1, by rw [← hc2]⟩, ?_⟩
    obtain ⟨r1, r2⟩ := C45_rtt debug es s hc h x hx
    simp only
    congr 1
    unfold latencyOf
    cases hl : lastRtt es x.1.peer with
    | some t => rw [(r1 t).mpr hl]; rfl
    | none =>
      simp only
      split
      · rename_i ha
        rw [r2.mpr ⟨hl, ha⟩]; rfl
      · rename_i ha
        cases hx2 : x.2 with
        | measured t => rw [(r1 t).mp hx2] at hl; cases hl
        | sinceConnecting => exact absurd (r2.mp hx2).2 ha
        | none => rfl

/-- **C94**: asking changes none of what is reported, no future is completed or woken, and no dial is forgotten. -/
theorem C94_keeps (debug : Bool) (s : SwarmSt) (other : PeerId → List Maddr) (order : List PeerId) :
    s.run debug (order.map .addressesOf) = .ok (s.addrs other order).1 ∧
    (s.addrs other order).1.reported = s.reported ∧ (s.addrs other order).1.peers = s.peers ∧
    (∀ p, (s.addrs other order).1.connectionsTo p = s.connectionsTo p) ∧
    (∀ a, (s.addrs other order).1.disconnect a = s.disconnect a) ∧
    (s.addrs other order).1.reg = s.reg ∧ (s.addrs other order).1.events = s.events := by
  refine ⟨addrs_run debug other s order, ?_⟩
  induction order generalizing s with
  | nil => exact ⟨rfl, rfl, fun _ => rfl, fun _ => rfl, rfl, rfl⟩
  | cons p l ih => exact ih (s.addressesOf p).1

/-- **C94**: while no known peer is requested to be connected at an address that no dial was told of, asking does no harm:
what was without misfortune stays so, and every future that waits has a dial (`C46_dialed_partial`).

Partial: otherwise the address is lost, see `C94_taken`. -/
theorem C94_harmless_partial (debug : Bool) (es : List WorldEv) (w : World) (h : CalmRun debug World.init es w)
    (order : List PeerId) (ho : order.Perm w.st.peers) (hn : ∀ p ∈ w.st.peers, waitingOf w.st p = []) :
    ∃ w', CalmRun debug World.init (es ++ [.asked order]) w' ∧ w'.running = w.running ∧
      ∀ q, waitingOf w'.st q = waitingOf w.st q ∧ givenOf w'.st q = givenOf w.st q := by
  have hi := (WorldInv.init debug).run h
  refine ⟨⟨(w.st.addrs (fun _ => []) order).1, w.running⟩, ?_, rfl, ?_⟩
  · have hs : w.step debug (.asked order) = some (.ok ⟨(w.st.addrs (fun _ => []) order).1, w.running⟩) := by
      simp only [World.step, List.isPerm_iff.mpr ho, if_true]
    have hcalm : Calm debug w (.asked order) := by
      intro k i b hk hw
      rcases hi.dialed k i b hw with ⟨h1, -⟩ | ⟨h1, h2⟩
      · rw [hn _ (ho.mem_iff.mp hk)] at h1; cases h1
      · refine ⟨h2, ?_⟩
        unfold givenOf at h1
        cases hg : AMap.get w.st.pendConns k.peer with
        | none => rw [hg] at h1; cases h1
        | some given => rw [hg] at h1; exact ⟨given, rfl, h1⟩
    clear hi hn ho
    generalize World.init = w0 at h ⊢
    induction h with
    | nil w => exact .cons hcalm hs (.nil _)
    | cons hc1 hs1 _ ih => exact .cons hc1 hs1 (ih hs hcalm)
  · have hn' : ∀ p ∈ order, waitingOf w.st p = [] := fun p hp => hn p (ho.mem_iff.mp hp)
    clear hi h hn ho
    generalize w.st = s at hn'
    induction order generalizing s with
    | nil => exact fun _ => ⟨rfl, rfl⟩
    | cons p l ih =>
      intro q
      have e1 : ∀ q, waitingOf (s.addressesOf p).1 q = waitingOf s q := by
        intro q
        rw [addressesOf_waiting]
        split
        · rename_i hq; subst hq; exact (hn' p (by simp)).symm
        · rfl
      have e2 : ∀ q, givenOf (s.addressesOf p).1 q = givenOf s q := by
        intro q
        have hp : (AMap.get s.pendAddrs p).getD [] = [] := hn' p (by simp)
        simp only [SwarmSt.addressesOf, givenOf, AMap.get_set, hp, List.append_nil]
        by_cases hq : q = p
        · subst hq; simp
        · simp [hq]
      obtain ⟨h1, h2⟩ := ih (s.addressesOf p).1 (fun r hr => by rw [e1]; exact hn' r (by simp [hr])) q
      exact ⟨h1.trans (e1 q), h2.trans (e2 q)⟩

/-- **C94** fails: if a known peer is next to be dialed for a future and no other behaviour knows an address of it, then
after asking for the known addresses it is not dialed at all, and the future waits on. This is so in every state that can be
reached. -/
theorem C94_taken (debug : Bool) (w : World) (order : List PeerId) (ho : order.Perm w.st.peers) (p : PeerId)
    (rest : List PeerId) (hp : p ∈ w.st.peers) (he : w.st.events = p :: rest) (hr : AMap.get w.running p = none)
    (k : AddrPeer) (i : Nat) (b : Bool) (hw : Waits w.st.reg k i b) :
    ∃ w', worldRun debug w [.asked order, .dial []] = some (.ok w') ∧ w'.running = w.running ∧ w'.st.events = rest ∧
      Waits w'.st.reg k i b ∧ waitingOf w'.st p = [] := by
  obtain ⟨f1, f2, f3, f4⟩ := addrs_frame (fun _ => []) w.st order
  have hwait : waitingOf (w.st.addrs (fun _ => []) order).1 p = [] :=
    List.eq_nil_iff_forall_not_mem.mpr (fun k hk => ((f3 p k).mp hk).2 (ho.mem_iff.mpr hp))
  generalize hs1 : (w.st.addrs (fun _ => []) order).1 = s1 at f1 f2 hwait
  have hs : w.step debug (.asked order) = some (.ok ⟨s1, w.running⟩) := by
    simp only [World.step, List.isPerm_iff.mpr ho, if_true, hs1]
  let s2 : SwarmSt := { s1 with events := rest }
  obtain ⟨s3, h3, h4⟩ := C46_other_failures debug (s2.addressesOf p).1 (some p)
  simp only [SwarmSt.step] at h3
  have hown : (s2.addressesOf p).2 = [] := by
    show ((AMap.get s1.pendAddrs p).getD []).map AddrPeer.toAddr = []
    have : (AMap.get s1.pendAddrs p).getD [] = [] := hwait
    rw [this]; rfl
  obtain ⟨g1, g2, g3, -, -⟩ := other_frame h3
  refine ⟨⟨s3, w.running⟩, ?_, rfl, ?_, ?_, ?_⟩
  · simp only [worldRun, hs]
    have hev : s1.events = p :: rest := by rw [f2, he]
    simp only [World.step, hev, World.startDial, hr]
    have e : (({ s1 with events := rest } : SwarmSt).addressesOf p) = ((s2.addressesOf p).1, []) := by
      rw [← hown]
    simp only [e, List.append_nil, List.isEmpty_nil, if_true, h3, Except.map]
  · rw [g2]; rfl
  · have : s3.reg = w.st.reg := by rw [g1]; exact f1
    simp only [this]; exact hw
  · simp only [g3, addressesOf_waiting, if_true]

/-- **C94** fails for instance so: a peer that was connected once is asked to be connected again and the known addresses are
asked for before the swarm dials. Nothing is dialed, the future waits for ever, and the client read the address
as a known one; without the question it is dialed. -/
theorem C94_lost :
    stuckIn (worldRun true World.init [.accepted exPeerA 1 exBack, .closed exPeerA 1 (.listener exBack), .connect exKey1,
      .pollFut 0, .asked [exPeerA], .dial []]) exKey1 0 = true ∧
    (∃ w, worldRun true World.init [.accepted exPeerA 1 exBack, .closed exPeerA 1 (.listener exBack), .connect exKey1,
      .pollFut 0] = some (.ok w) ∧ (w.st.addrs (fun _ => []) [exPeerA]).2 = [(exPeerA, [exDial1])]) ∧
    (∃ w, worldRun true World.init [.accepted exPeerA 1 exBack, .closed exPeerA 1 (.listener exBack), .connect exKey1,
      .pollFut 0, .dial []] = some (.ok w) ∧ AMap.get w.running exPeerA = some [exDial1]) :=
  ⟨by decide, ⟨_, rfl, by decide⟩, ⟨_, rfl, by decide⟩⟩

/-- What `C94_listed` speaks of: a connected peer, one that was connected once and one asked to be connected. -/
example : ∃ s, SwarmSt.init.run true [.established exPeerB 1 (.listener exBack), .addPeer exPeerA, .connect exKey1] = .ok s ∧
    Consistent [.established exPeerB 1 (.listener exBack), .addPeer exPeerA, .connect exKey1] ∧
    (s.addrs (fun _ => []) [exPeerA, exPeerB]).2 = [(exPeerA, [exDial1]), (exPeerB, [])] ∧
    [exPeerA, exPeerB].Perm s.peers ∧ s.peersTold (fun _ => 5) = [(⟨⟨exBack⟩, exPeerB⟩, none)] :=
  ⟨_, rfl, by simp [Consistent, ConsistentFrom], by decide, List.Perm.swap _ _ _, by decide⟩

/-- A run without misfortune after which asking does no harm. -/
example : ∃ w, CalmRun true World.init [.connect exKey1, .dial [], .dialed exPeerA 1 exDial1] w ∧
    w.st.peers = [exPeerA] ∧ ∀ p ∈ w.st.peers, waitingOf w.st p = [] := by
  refine ⟨_, .cons (w₁ := _) (by show ReadsBack true exKey1; decide) rfl
    (.cons (w₁ := _) ?_ rfl (.cons (w₁ := _) trivial rfl (.nil _))), rfl, by decide⟩
  intro p rest tried hev hrun
  cases hrun

end Verif.Props
