import Verif.Base.Snoc
import Verif.Net.Swarm
import Verif.Props.Subs
import Verif.Props.Addr

/-!
# C45: the connections that are reported

The theorems are about every history of calls that is consistent: a connection is opened under a number
that is not in use, and closed with the peer and endpoint it was opened with. That much libp2p promises.
-/

namespace Verif.Props

open Verif Verif.Ipfs Verif.Repo.Subs Verif.Net

/-! ### Specification -/

/-- A connection. -/
structure Conn where
  id : Nat
  peer : PeerId
  ep : Endpoint
deriving DecidableEq, Repr

/-- The connections open after one more event. -/
def openStep (acc : List Conn) : SwarmEv → List Conn
  | .established p c ep => acc ++ [⟨c, p, ep⟩]
  | .closed _ c _ => acc.filter (fun x => decide (x.id ≠ c))
  | _ => acc

/-- The connections open after a history: established and not yet closed. -/
def openConns (es : List SwarmEv) : List Conn := es.foldl openStep []

/-- What libp2p promises, with the connections open before. -/
def ConsistentFrom : List Conn → List SwarmEv → Prop
  | _, [] => True
  | acc, e :: es =>
    (match e with
      | .established _ c _ => ∀ x ∈ acc, x.id ≠ c
      | .closed p c ep => Conn.mk c p ep ∈ acc
      | _ => True) ∧ ConsistentFrom (openStep acc e) es

def Consistent (es : List SwarmEv) : Prop := ConsistentFrom [] es

/-- The address of a connection: of a dialed one all but what names peers and relays, otherwise the address
to send back to. -/
def shownAddr : Endpoint → Maddr
  | .dialer a => a.filter (fun c => match c with
    | .p2p _ _ => false
    | .p2pCircuit => false
    | _ => true)
  | .listener a => a

/-- The connections to a peer. -/
def openTo (es : List SwarmEv) (p : PeerId) : List Conn := (openConns es).filter (fun x => decide (x.peer = p))

/-- The last roundtrip time that was set for a peer. -/
def lastRtt (es : List SwarmEv) (p : PeerId) : Option Nat :=
  es.foldl (fun acc e => match e with
    | .setRtt q t => if q = p then some t else acc
    | _ => acc) none

/-- The last event that adds or removes the peer adds it. -/
def isKnown (es : List SwarmEv) (p : PeerId) : Bool :=
  es.foldl (fun acc e => match e with
    | .addPeer q => if q = p then true else acc
    | .established q _ _ => if q = p then true else acc
    | .removePeer q => if q = p then false else acc
    | _ => acc) false

/-- A connection to the peer, at an address that no connection to it had, was asked for, and no connection
to it was closed since. -/
def AskedSinceClosed (es : List SwarmEv) (p : PeerId) : Prop :=
  ∃ pre a post, es = pre ++ .connect a :: post ∧ a.peer = p ∧
    (∀ c ∈ openTo pre p, shownAddr c.ep ≠ a.multiaddr.addr) ∧ ∀ c ep, .closed p c ep ∉ post

/-- At no time two open connections have the same address. -/
def AddrsDistinct (es : List SwarmEv) : Prop :=
  ∀ pre, pre <+: es → ((openConns pre).map (fun x => shownAddr x.ep)).Nodup

/-- The endpoints are as the code expects them: dialed addresses name a peer, accepted ones do not. -/
def EndpointOk (debug : Bool) : Endpoint → Prop
  | .dialer a => ∃ x, AddrPeer.ofAddr debug a = .ok x
  | .listener a => ¬ NamesPeer a

def EventOk (debug : Bool) : SwarmEv → Prop
  | .established _ _ ep => EndpointOk debug ep
  | .closed _ _ ep => EndpointOk debug ep
  | .dialFailure _ (.transport l) => ∀ x ∈ l, ∃ k, AddrPeer.ofAddr debug x.1 = .ok k
  | _ => True

/-! ### Helpers -/

theorem swapRemove_perm {α : Type} [DecidableEq α] {l : List α} {a : α} (h : a ∈ l) :
    (a :: swapRemove l a).Perm l := by
  induction l with
  | nil => cases h
  | cons x l ih =>
    unfold swapRemove
    by_cases hx : x = a
    · subst hx
      simp only [if_true]
      refine List.Perm.cons x ?_
      cases hl : l.getLast? with
      | none => rw [List.getLast?_eq_none_iff] at hl; subst hl; exact List.Perm.refl _
      | some z =>
        have : l = l.dropLast ++ [z] := by
          obtain ⟨ys, hys⟩ := List.getLast?_eq_some_iff.mp hl
          rw [hys]; simp
        conv => rhs; rw [this]
        exact (List.perm_append_comm (l₁ := [z]) (l₂ := l.dropLast))
    · simp only [hx, if_false]
      have ha : a ∈ l := by
        cases h with
        | head => exact absurd rfl hx
        | tail _ h => exact h
      exact (List.Perm.swap x a _).trans (List.Perm.cons x (ih ha))

theorem swapRemove_absent {α : Type} [DecidableEq α] {l : List α} {a : α} (h : a ∉ l) : swapRemove l a = l := by
  induction l with
  | nil => rfl
  | cons x l ih =>
    have hx : x ≠ a := by rintro rfl; exact h (by simp)
    have ha : a ∉ l := fun hh => h (by simp [hh])
    simp [swapRemove, hx, ih ha]

theorem get_putVec {κ α : Type} [DecidableEq κ] (m : AMap κ (List α)) (k k' : κ) (v : List α) :
    (AMap.get (putVec m k v) k').getD [] = if k' = k then v else (AMap.get m k').getD [] := by
  unfold putVec
  by_cases hk : k' = k
  · subst hk
    cases v with
    | nil => simp [AMap.get_erase]
    | cons x v => simp [AMap.get_set]
  · split
    · simp [AMap.get_erase, hk]
    · simp [AMap.get_set, hk]

theorem putVec_ne_nil {κ α : Type} [DecidableEq κ] {m : AMap κ (List α)} (h : ∀ k, AMap.get m k ≠ some [])
    (k k' : κ) (v : List α) : AMap.get (putVec m k v) k' ≠ some [] := by
  unfold putVec
  split
  · rw [AMap.get_erase]; split
    · simp
    · exact h k'
  · rename_i hv
    rw [AMap.get_set]; split
    · intro hh; simp only [Option.some.injEq] at hh; rw [hh] at hv; simp at hv
    · exact h k'

theorem Uniq_putVec {κ α : Type} [DecidableEq κ] {m : AMap κ (List α)} (h : AMap.Uniq m) (k : κ) (v : List α) :
    AMap.Uniq (putVec m k v) := by
  unfold putVec; split
  · exact h.erase _
  · exact h.set _ _

theorem pointAddr_ok {debug : Bool} {ep : Endpoint} {a : AddrOnly} (h : pointAddr debug ep = .ok a) :
    a = ⟨shownAddr ep⟩ := by
  cases ep with
  | dialer m =>
    simp only [pointAddr] at h
    split at h
    · rename_i x hx
      simp only [Except.ok.injEq] at h
      subst h
      unfold AddrPeer.ofAddr at hx
      split at hx
      · split at hx
        · cases hx
        · split at hx
          · simp only [Except.ok.injEq] at hx
            subst hx
            simp only [AddrPeer.only, shownAddr, AddrOnly.mk.injEq]
            apply List.filter_congr
            intro c _
            cases c <;> rfl
          · cases hx
      · cases hx
    · cases h
  | listener m =>
    simp only [pointAddr, AddrOnly.ofAddr] at h
    split at h
    · rename_i x hx
      simp only [Except.ok.injEq] at h
      subst h
      split at hx
      · cases hx
      · simp only [Except.ok.injEq] at hx; subst hx; rfl
    · cases h

/-- The parts of the state that `justConnected` leaves alone. -/
theorem justConnected_frame {debug : Bool} {s s' : SwarmSt} {p : PeerId} {ep : Endpoint}
    (h : s.justConnected debug p ep = .ok s') :
    s'.connected = s.connected ∧ s'.connections = s.connections ∧ s'.peers = s.peers ∧ s'.rtt = s.rtt ∧
      s'.times = s.times ∧ s'.events = s.events ∧ s'.pendAddrs = s.pendAddrs := by
  unfold SwarmSt.justConnected at h
  repeat' split at h
  all_goals first
    | (simp only [Except.ok.injEq] at h; subst h; exact ⟨rfl, rfl, rfl, rfl, rfl, rfl, rfl⟩)
    | cases h

theorem justClosed_frame {debug : Bool} {s s' : SwarmSt} {p : PeerId} {a : AddrOnly} {ep : Endpoint}
    (h : s.justClosed debug p a ep = .ok s') :
    s'.connected = s.connected ∧ s'.connections = s.connections ∧ s'.peers = s.peers ∧ s'.rtt = s.rtt ∧
      s'.times = s.times ∧ s'.events = s.events ∧ s'.pendAddrs = s.pendAddrs := by
  unfold SwarmSt.justClosed at h
  repeat' split at h
  all_goals first
    | (simp only [Except.ok.injEq] at h; subst h; exact ⟨rfl, rfl, rfl, rfl, rfl, rfl, rfl⟩)
    | cases h

theorem established_ok {debug : Bool} {s s' : SwarmSt} {p : PeerId} {ep : Endpoint}
    (h : s.established debug p ep = .ok s') :
    s'.connected = AMap.set s.connected p ((AMap.get s.connected p).getD [] ++ [⟨shownAddr ep⟩]) ∧
      s'.connections = AMap.set s.connections ⟨shownAddr ep⟩ p ∧ s'.peers = insertSet s.peers p ∧
      s'.rtt = s.rtt ∧ s'.times = s.times ∧ s'.events = s.events := by
  unfold SwarmSt.established at h
  split at h
  · cases h
  · rename_i addr haddr
    have := pointAddr_ok haddr
    subst this
    simp only at h
    split at h
    · cases h
    · rename_i s2 h2
      obtain ⟨f1, f2, f3, f4, f5, f6, f7⟩ := justConnected_frame h2
      split at h
      · cases h
      · simp only [Except.ok.injEq] at h
        subst h
        exact ⟨f1, f2, f3, f4, f5, f6⟩

theorem closed_ok {debug : Bool} {s s' : SwarmSt} {p : PeerId} {ep : Endpoint}
    (h : s.closed debug p ep = .ok s') :
    s'.connected = (match AMap.get s.connected p with
      | none => s.connected
      | some conns => putVec s.connected p (swapRemove conns ⟨shownAddr ep⟩)) ∧
      s'.connections = AMap.erase s.connections ⟨shownAddr ep⟩ ∧ s'.peers = s.peers ∧
      s'.rtt = s.rtt ∧ s'.times = s.times.filter (fun q => decide (q ≠ p)) ∧ s'.events = s.events ∧
      (debug = true → AMap.get s.connections ⟨shownAddr ep⟩ ≠ none) := by
  unfold SwarmSt.closed at h
  split at h
  · cases h
  · rename_i addr haddr
    have := pointAddr_ok haddr
    subst this
    simp only at h
    split at h
    · cases h
    · rename_i hd
      obtain ⟨f1, f2, f3, f4, f5, f6, f7⟩ := justClosed_frame h
      refine ⟨f1, f2, f3, f4, f5, f6, ?_⟩
      rintro rfl hn
      rw [hn] at hd; simp at hd

theorem dialFailure_frame {debug : Bool} {s s' : SwarmSt} {p : Option PeerId} {err : DialErr}
    (h : s.dialFailure debug p err = .ok s') :
    s'.connected = s.connected ∧ s'.connections = s.connections ∧ s'.peers = s.peers ∧ s'.rtt = s.rtt ∧
      s'.times = s.times ∧ s'.events = s.events ∧ s'.pendAddrs = s.pendAddrs := by
  unfold SwarmSt.dialFailure at h
  repeat' split at h
  all_goals first
    | (simp only [Except.ok.injEq] at h; subst h; exact ⟨rfl, rfl, rfl, rfl, rfl, rfl, rfl⟩)
    | cases h

/-- The state tells the open connections. -/
structure ConnInv (s : SwarmSt) (acc : List Conn) : Prop where
  ids : (acc.map Conn.id).Nodup
  uniq : AMap.Uniq s.connected
  full : ∀ p, AMap.get s.connected p ≠ some []
  exact : ∀ p, ((AMap.get s.connected p).getD []).Perm
    ((acc.filter (fun x => decide (x.peer = p))).map (fun x => ⟨shownAddr x.ep⟩))

theorem filter_id_perm {acc : List Conn} {c : Conn} (hn : (acc.map Conn.id).Nodup) (hc : c ∈ acc) :
    (c :: acc.filter (fun x => decide (x.id ≠ c.id))).Perm acc := by
  induction acc with
  | nil => cases hc
  | cons x acc ih =>
    simp only [List.map_cons, List.nodup_cons, List.mem_map, not_exists, not_and] at hn
    by_cases hx : x.id = c.id
    · have : c = x := by
        cases hc with
        | head => rfl
        | tail _ h => exact absurd hx.symm (hn.1 c h)
      subst this
      have : acc.filter (fun y => decide (y.id ≠ c.id)) = acc := by
        apply List.filter_eq_self.mpr
        intro y hy
        simp only [decide_eq_true_eq]
        exact hn.1 y hy
      simp only [List.filter_cons, ne_eq, not_true_eq_false, decide_false, Bool.false_eq_true, if_false]
      simp only [ne_eq] at this
      rw [this]
    · have hc' : c ∈ acc := by
        cases hc with
        | head => exact absurd rfl hx
        | tail _ h => exact h
      have ih := ih hn.2 hc'
      simp only [List.filter_cons, ne_eq, hx, not_false_eq_true, decide_true, if_true]
      exact (List.Perm.swap x c _).trans (List.Perm.cons x ih)

theorem ConnInv.step {debug : Bool} {s s' : SwarmSt} {acc : List Conn} {e : SwarmEv} (hi : ConnInv s acc)
    (hc : match e with
      | .established _ c _ => ∀ x ∈ acc, x.id ≠ c
      | .closed p c ep => Conn.mk c p ep ∈ acc
      | _ => True) (h : s.step debug e = .ok s') : ConnInv s' (openStep acc e) := by
  have same : ∀ {t : SwarmSt}, t.connected = s.connected → ConnInv t acc := by
    intro t ht
    exact ⟨hi.ids, by rw [ht]; exact hi.uniq, by rw [ht]; exact hi.full, by rw [ht]; exact hi.exact⟩
  cases e with
  | established p c ep =>
    simp only [SwarmSt.step] at h
    simp only at hc
    obtain ⟨f1, -⟩ := established_ok h
    refine ⟨?_, ?_, ?_, ?_⟩
    · simp only [openStep, List.map_append, List.map_cons, List.map_nil]
      rw [List.nodup_append]
      refine ⟨hi.ids, by simp, ?_⟩
      intro a ha b hb
      simp only [List.mem_singleton] at hb
      obtain ⟨x, hx, rfl⟩ := List.mem_map.mp ha
      rw [hb]; exact hc x hx
    · rw [f1]; exact hi.uniq.set _ _
    · intro q
      rw [f1, AMap.get_set]
      split
      · simp
      · exact hi.full q
    · intro q
      rw [f1, AMap.get_set]
      by_cases hq : q = p
      · subst hq
        simp only [if_true, Option.getD_some, openStep, List.filter_append, List.map_append]
        refine List.Perm.append (hi.exact q) ?_
        simp
      · simp only [hq, if_false, openStep, List.filter_append]
        rw [List.filter_cons_of_neg (by simpa using fun hh : p = q => hq hh.symm)]
        simpa using hi.exact q
  | closed p c ep =>
    simp only [SwarmSt.step] at h
    simp only at hc
    obtain ⟨f1, -⟩ := closed_ok h
    have hperm := filter_id_perm hi.ids hc
    have hsub : (acc.filter (fun x => decide (x.id ≠ c))).Sublist acc := List.filter_sublist
    refine ⟨?_, ?_, ?_, ?_⟩
    · exact (hsub.map Conn.id).nodup hi.ids
    · rw [f1]; split
      · exact hi.uniq
      · exact Uniq_putVec hi.uniq _ _
    · intro q; rw [f1]; split
      · exact hi.full q
      · exact putVec_ne_nil hi.full _ _ _
    · intro q
      have hmem : (⟨shownAddr ep⟩ : AddrOnly) ∈ (AMap.get s.connected p).getD [] := by
        refine (hi.exact p).symm.subset ?_
        exact List.mem_map.mpr ⟨⟨c, p, ep⟩, List.mem_filter.mpr ⟨hc, by simp⟩, rfl⟩
      have hg : ∃ conns, AMap.get s.connected p = some conns := by
        cases hg : AMap.get s.connected p with
        | none => rw [hg] at hmem; cases hmem
        | some conns => exact ⟨conns, rfl⟩
      obtain ⟨conns, hg⟩ := hg
      rw [f1, hg]
      simp only [get_putVec, openStep]
      have hperm' := (hperm.filter (fun x => decide (x.peer = q))).map
        (fun x : Conn => (⟨shownAddr x.ep⟩ : AddrOnly))
      by_cases hq : q = p
      · subst hq
        simp only [if_true]
        rw [List.filter_cons_of_pos (by simp), List.map_cons] at hperm'
        rw [hg] at hmem
        have h1 := swapRemove_perm hmem
        have h2 := hi.exact q
        rw [hg] at h2
        exact ((h1.trans h2).trans hperm'.symm).cons_inv
      · simp only [hq, if_false]
        rw [List.filter_cons_of_neg (by simpa using fun hh : p = q => hq hh.symm)] at hperm'
        exact (hi.exact q).trans hperm'.symm
  | connect a =>
    simp only [SwarmSt.step, Except.ok.injEq] at h
    subst h
    refine same ?_
    unfold SwarmSt.connect; split <;> rfl
  | addressesOf p => simp only [SwarmSt.step, Except.ok.injEq] at h; subst h; exact same rfl
  | dialFailure p err => exact same (dialFailure_frame h).1
  | addPeer p => simp only [SwarmSt.step, Except.ok.injEq] at h; subst h; exact same rfl
  | removePeer p => simp only [SwarmSt.step, Except.ok.injEq] at h; subst h; exact same rfl
  | setRtt p t => simp only [SwarmSt.step, Except.ok.injEq] at h; subst h; exact same rfl
  | pollFut i => simp only [SwarmSt.step, Except.ok.injEq] at h; subst h; exact same rfl
  | dropFut i => simp only [SwarmSt.step, Except.ok.injEq] at h; subst h; exact same rfl
  | dropDone i => simp only [SwarmSt.step, Except.ok.injEq] at h; subst h; exact same rfl
  | poll => simp only [SwarmSt.step, Except.ok.injEq] at h; subst h; exact same rfl

theorem ConnInv.run {debug : Bool} {es : List SwarmEv} : ∀ {s s' : SwarmSt} {acc : List Conn}, ConnInv s acc →
    ConsistentFrom acc es → s.run debug es = .ok s' → ConnInv s' (es.foldl openStep acc) := by
  induction es with
  | nil => intro s s' acc hi _ h; simp only [SwarmSt.run, Except.ok.injEq] at h; subst h; exact hi
  | cons e es ih =>
    intro s s' acc hi hc h
    simp only [SwarmSt.run] at h
    split at h
    · cases h
    · rename_i s1 h1
      exact ih (hi.step hc.1 h1) hc.2 h

theorem ConnInv.init : ConnInv SwarmSt.init [] :=
  ⟨by simp, AMap.uniq_nil, by intro p; simp [SwarmSt.init, AMap.get], by intro p; simp [SwarmSt.init, AMap.get]⟩

/-! ### C45 -/

/-- **C45**: the addresses reported for a peer are those of the connections to it that were established and
not yet closed, as often as there are such connections. -/
theorem C45_addresses (debug : Bool) (es : List SwarmEv) (s : SwarmSt) (hc : Consistent es)
    (h : SwarmSt.init.run debug es = .ok s) (p : PeerId) :
    (s.connectionsTo p).Perm ((openTo es p).map (fun x => shownAddr x.ep)) := by
  have hi := ConnInv.init.run hc h
  have := (hi.exact p).map AddrOnly.addr
  unfold SwarmSt.connectionsTo openTo openConns
  refine this.trans ?_
  rw [List.map_map]
  exact List.Perm.refl _

theorem mem_reported {s : SwarmSt} {x : AddrPeer × Rtt} (h : x ∈ s.reported) :
    ∃ conns a, (x.1.peer, conns) ∈ s.connected ∧ conns.head? = some a ∧ x.1 = ⟨a, x.1.peer⟩ := by
  unfold SwarmSt.reported at h
  obtain ⟨e, he, hx⟩ := List.mem_filterMap.mp h
  obtain ⟨a, ha, rfl⟩ := Option.map_eq_some_iff.mp hx
  exact ⟨e.2, a, he, ha, rfl⟩

/-- **C45**: a peer is listed exactly when a connection to it is open, once, with the address of one of
those. -/
theorem C45_listed (debug : Bool) (es : List SwarmEv) (s : SwarmSt) (hc : Consistent es)
    (h : SwarmSt.init.run debug es = .ok s) :
    (∀ p, (∃ x ∈ s.reported, x.1.peer = p) ↔ openTo es p ≠ []) ∧
    (s.reported.map (fun x => x.1.peer)).Nodup ∧
    (∀ x ∈ s.reported, ∃ c ∈ openTo es x.1.peer, x.1.multiaddr.addr = shownAddr c.ep) := by
  have hi := ConnInv.init.run hc h
  have hx : ∀ p, ((AMap.get s.connected p).getD []).Perm
      ((openTo es p).map (fun x => (⟨shownAddr x.ep⟩ : AddrOnly))) := hi.exact
  refine ⟨?_, ?_, ?_⟩
  · intro p
    constructor
    · rintro ⟨x, hx', rfl⟩ hnil
      obtain ⟨conns, a, hm, ha, -⟩ := mem_reported hx'
      have hg := (AMap.mem_iff_get hi.uniq _ _).mp hm
      have := hx x.1.peer
      rw [hg, hnil] at this
      simp only [Option.getD_some, List.map_nil] at this
      rw [List.Perm.eq_nil this] at ha
      cases ha
    · intro hne
      cases hg : AMap.get s.connected p with
      | none =>
        have := hx p
        rw [hg] at this
        have := List.Perm.eq_nil this.symm
        simp only [List.map_eq_nil_iff] at this
        exact absurd this hne
      | some conns =>
        cases conns with
        | nil => exact absurd hg (hi.full p)
        | cons a conns =>
          refine ⟨_, List.mem_filterMap.mpr ⟨(p, a :: conns), AMap.mem_of_get hg, rfl⟩, rfl⟩
  · have : (s.reported.map (fun x => x.1.peer)).Sublist (AMap.keys s.connected) := by
      unfold SwarmSt.reported AMap.keys
      generalize s.connected = m
      have gen : ∀ (f : PeerId × List AddrOnly → Rtt), ((m.filterMap (fun e => e.2.head?.map
          (fun a => ((⟨a, e.1⟩ : AddrPeer), f e)))).map (fun x => x.1.peer)).Sublist (m.map Prod.fst) := by
        intro f
        induction m with
        | nil => simp
        | cons e m ih =>
          cases hh : e.2.head? with
          | none => rw [List.filterMap_cons_none (by rw [hh]; rfl)]; exact ih.cons _
          | some a => rw [List.filterMap_cons_some (by rw [hh]; rfl)]; exact ih.cons_cons _
      exact gen _
    exact this.nodup hi.uniq
  · intro x hx'
    obtain ⟨conns, a, hm, ha, he⟩ := mem_reported hx'
    have hg := (AMap.mem_iff_get hi.uniq _ _).mp hm
    have hp := hx x.1.peer
    rw [hg] at hp
    have hmem : a ∈ (openTo es x.1.peer).map (fun x => (⟨shownAddr x.ep⟩ : AddrOnly)) := by
      refine hp.subset ?_
      cases conns with
      | nil => cases ha
      | cons b conns => simp only [List.head?_cons, Option.some.injEq] at ha; subst ha; simp
    obtain ⟨c, hc, hca⟩ := List.mem_map.mp hmem
    refine ⟨c, hc, ?_⟩
    rw [he, ← hca]

theorem swarm_run_append {debug : Bool} {a b : List SwarmEv} : ∀ {s s' : SwarmSt},
    s.run debug (a ++ b) = .ok s' ↔ ∃ m, s.run debug a = .ok m ∧ m.run debug b = .ok s' := by
  induction a with
  | nil => intro s s'; simp [SwarmSt.run]
  | cons e a ih =>
    intro s s'
    simp only [List.cons_append, SwarmSt.run]
    cases h : s.step debug e with
    | error p => simp
    | ok s1 => simp [ih]

theorem swarm_run_snoc {debug : Bool} {a : List SwarmEv} {e : SwarmEv} {s s' : SwarmSt} :
    s.run debug (a ++ [e]) = .ok s' ↔ ∃ m, s.run debug a = .ok m ∧ m.step debug e = .ok s' := by
  rw [swarm_run_append]
  constructor
  · rintro ⟨m, h1, h2⟩
    refine ⟨m, h1, ?_⟩
    simp only [SwarmSt.run] at h2
    split at h2
    · cases h2
    · rename_i s1 hs; simp only [Except.ok.injEq] at h2; subst h2; exact hs
  · rintro ⟨m, h1, h2⟩
    exact ⟨m, h1, by simp [SwarmSt.run, h2]⟩

theorem consistent_append {a b : List SwarmEv} : ∀ {acc : List Conn},
    ConsistentFrom acc (a ++ b) ↔ ConsistentFrom acc a ∧ ConsistentFrom (a.foldl openStep acc) b := by
  induction a with
  | nil => intro acc; simp [ConsistentFrom]
  | cons e a ih => intro acc; simp only [List.cons_append, ConsistentFrom, ih, List.foldl_cons, and_assoc]

/-- What one event does to the remaining parts of the state. -/
theorem step_parts {debug : Bool} {s s' : SwarmSt} {e : SwarmEv} (h : s.step debug e = .ok s') :
    s'.peers = (match (generalizing := false) e with
      | .addPeer p => insertSet s.peers p
      | .established p _ _ => insertSet s.peers p
      | .removePeer p => s.peers.filter (fun q => decide (q ≠ p))
      | _ => s.peers) ∧
    s'.rtt = (match (generalizing := false) e with
      | .setRtt p t => AMap.set s.rtt p t
      | _ => s.rtt) ∧
    s'.times = (match (generalizing := false) e with
      | .connect a => if a.multiaddr ∈ (AMap.get s.connected a.peer).getD [] then s.times
        else insertSet s.times a.peer
      | .closed p _ _ => s.times.filter (fun q => decide (q ≠ p))
      | _ => s.times) ∧
    s'.connections = (match (generalizing := false) e with
      | .established p _ ep => AMap.set s.connections ⟨shownAddr ep⟩ p
      | .closed _ _ ep => AMap.erase s.connections ⟨shownAddr ep⟩
      | _ => s.connections) := by
  cases e with
  | established p c ep =>
    obtain ⟨-, f2, f3, f4, f5, -⟩ := established_ok h
    exact ⟨f3, f4, f5, f2⟩
  | closed p c ep =>
    obtain ⟨-, f2, f3, f4, f5, -⟩ := closed_ok h
    exact ⟨f3, f4, f5, f2⟩
  | dialFailure p err =>
    obtain ⟨-, f2, f3, f4, f5, -⟩ := dialFailure_frame h
    exact ⟨f3, f4, f5, f2⟩
  | connect a =>
    simp only [SwarmSt.step, Except.ok.injEq] at h
    subst h
    unfold SwarmSt.connect
    split
    · rename_i hin; exact ⟨rfl, rfl, by simp [hin], rfl⟩
    · rename_i hin; exact ⟨rfl, rfl, by simp [hin], rfl⟩
  | _ => simp only [SwarmSt.step, Except.ok.injEq] at h; subst h; exact ⟨rfl, rfl, rfl, rfl⟩

theorem mem_insertSet {α : Type} [DecidableEq α] {l : List α} {a b : α} : b ∈ insertSet l a ↔ b ∈ l ∨ b = a := by
  unfold insertSet
  split
  · rename_i h
    exact ⟨Or.inl, fun hh => hh.elim id (fun e => e ▸ h)⟩
  · simp

/-- **C45**: the known peers are those last added, or connected to, and not removed after; closing the
connections does not remove a peer. -/
theorem C45_peers (debug : Bool) (es : List SwarmEv) (s : SwarmSt)
    (h : SwarmSt.init.run debug es = .ok s) (p : PeerId) : p ∈ s.peers ↔ isKnown es p = true := by
  induction es using snocInd generalizing s with
  | nil => simp only [SwarmSt.run, Except.ok.injEq] at h; subst h; simp [SwarmSt.init, isKnown]
  | snoc es e ih =>
    obtain ⟨m, hm, he⟩ := swarm_run_snoc.mp h
    have ih := ih m hm
    have f := (step_parts he).1
    have eq : isKnown (es ++ [e]) p = (match (generalizing := false) e with
      | .addPeer q => if q = p then true else isKnown es p
      | .established q _ _ => if q = p then true else isKnown es p
      | .removePeer q => if q = p then false else isKnown es p
      | _ => isKnown es p) := by
      unfold isKnown; rw [List.foldl_append]; rfl
    rw [eq, f]
    have ins : ∀ q, p ∈ insertSet m.peers q ↔ (if q = p then true else isKnown es p) = true := by
      intro q
      rw [mem_insertSet, ih]
      by_cases hq : q = p
      · simp [hq]
      · simp only [hq, if_false, or_iff_left_iff_imp]
        exact fun hh => absurd hh.symm hq
    cases e with
    | addPeer q => exact ins q
    | established q c ep => exact ins q
    | removePeer q =>
      simp only [List.mem_filter, decide_eq_true_eq, ih]
      by_cases hq : q = p
      · simp [hq]
      · simp only [hq, if_false, and_iff_left_iff_imp]
        exact fun _ hh => hq hh.symm
    | _ => exact ih

theorem rtt_spec {debug : Bool} {es : List SwarmEv} {s : SwarmSt}
    (h : SwarmSt.init.run debug es = .ok s) (p : PeerId) : AMap.get s.rtt p = lastRtt es p := by
  induction es using snocInd generalizing s with
  | nil => simp only [SwarmSt.run, Except.ok.injEq] at h; subst h; simp [SwarmSt.init, lastRtt, AMap.get]
  | snoc es e ih =>
    obtain ⟨m, hm, he⟩ := swarm_run_snoc.mp h
    have ih := ih hm
    have f := (step_parts he).2.1
    have eq : lastRtt (es ++ [e]) p = (match (generalizing := false) e with
      | .setRtt q t => if q = p then some t else lastRtt es p
      | _ => lastRtt es p) := by
      unfold lastRtt; rw [List.foldl_append]; rfl
    rw [eq, f]
    cases e with
    | setRtt q t =>
      simp only [AMap.get_set, ih]
      by_cases hq : q = p
      · simp [hq]
      · have hq' : ¬ p = q := fun hh => hq hh.symm
        simp [hq, hq']
    | _ => exact ih

theorem asked_snoc {es : List SwarmEv} {e : SwarmEv} {p : PeerId} :
    AskedSinceClosed (es ++ [e]) p ↔
      (AskedSinceClosed es p ∧ ∀ c ep, e ≠ .closed p c ep) ∨
      (∃ a, e = .connect a ∧ a.peer = p ∧ ∀ c ∈ openTo es p, shownAddr c.ep ≠ a.multiaddr.addr) := by
  constructor
  · rintro ⟨pre, a, post, heq, hp, ha, hn⟩
    rcases List.eq_nil_or_concat post with rfl | ⟨post', x, rfl⟩
    · have := List.append_inj' heq (by simp)
      simp only [List.cons.injEq, and_true] at this
      exact Or.inr ⟨a, this.2, hp, by rw [this.1]; exact ha⟩
    · rw [List.concat_eq_append] at heq hn
      have : es ++ [e] = (pre ++ .connect a :: post') ++ [x] := by rw [heq]; simp
      have := List.append_inj' this (by simp)
      simp only [List.cons.injEq, and_true] at this
      refine Or.inl ⟨⟨pre, a, post', this.1, hp, ha, fun c ep hm => hn c ep (by simp [hm])⟩, ?_⟩
      intro c ep he
      exact hn c ep (by rw [← this.2, he]; simp)
  · rintro (⟨⟨pre, a, post, rfl, hp, ha, hn⟩, hne⟩ | ⟨a, rfl, hp, ha⟩)
    · refine ⟨pre, a, post ++ [e], by simp, hp, ha, ?_⟩
      intro c ep hm
      rcases List.mem_append.mp hm with hm | hm
      · exact hn c ep hm
      · simp only [List.mem_singleton] at hm; exact hne c ep hm.symm
    · exact ⟨es, a, [], rfl, hp, ha, by simp⟩

theorem times_spec {debug : Bool} {es : List SwarmEv} {s : SwarmSt} (hc : Consistent es)
    (h : SwarmSt.init.run debug es = .ok s) (p : PeerId) : p ∈ s.times ↔ AskedSinceClosed es p := by
  induction es using snocInd generalizing s with
  | nil =>
    simp only [SwarmSt.run, Except.ok.injEq] at h; subst h
    simp [SwarmSt.init, AskedSinceClosed]
  | snoc es e ih =>
    obtain ⟨m, hm, he⟩ := swarm_run_snoc.mp h
    have hc' : Consistent es := (consistent_append.mp hc).1
    have ih := ih hc' hm
    have f := (step_parts he).2.2.1
    have hi := ConnInv.init.run hc' hm
    rw [asked_snoc, f]
    cases e with
    | connect a =>
      simp only [SwarmEv.connect.injEq, reduceCtorEq, ne_eq, not_false_eq_true, implies_true, and_true,
        exists_eq_left']
      have hmem : a.multiaddr ∈ (AMap.get m.connected a.peer).getD [] ↔
          ¬ ∀ c ∈ openTo es a.peer, shownAddr c.ep ≠ a.multiaddr.addr := by
        rw [(hi.exact a.peer).mem_iff]
        simp only [List.mem_map]
        constructor
        · rintro ⟨c, hc, hca⟩ hall
          exact hall c hc (by rw [← hca])
        · intro hno
          simp only [Classical.not_forall, ne_eq, Classical.not_not] at hno
          obtain ⟨c, hc, hca⟩ := hno
          refine ⟨c, hc, ?_⟩
          rw [hca]
      split
      · rename_i hin
        rw [ih]
        refine ⟨Or.inl, fun hh => hh.elim id ?_⟩
        rintro ⟨rfl, hall⟩
        exact absurd hall (hmem.mp hin)
      · rename_i hin
        have hall := Classical.not_not.mp (fun hh => hin (hmem.mpr hh))
        rw [mem_insertSet, ih]
        refine or_congr Iff.rfl ?_
        constructor
        · rintro rfl; exact ⟨rfl, hall⟩
        · rintro ⟨rfl, -⟩; rfl
    | closed q c ep =>
      simp only [List.mem_filter, decide_eq_true_eq, ih, reduceCtorEq, false_and, exists_false, or_false]
      refine and_congr Iff.rfl ?_
      constructor
      · intro hne c' ep' hh
        simp only [SwarmEv.closed.injEq] at hh
        exact hne hh.1.symm
      · rintro hne rfl
        exact hne c ep rfl
    | _ => simp [ih]

/-- **C45**: with a peer its last roundtrip time is reported; if none was ever set, the time since it was
last asked for, unless a connection to the peer was closed since. -/
theorem C45_rtt (debug : Bool) (es : List SwarmEv) (s : SwarmSt) (hc : Consistent es)
    (h : SwarmSt.init.run debug es = .ok s) (x : AddrPeer × Rtt) (hx : x ∈ s.reported) :
    (∀ t, x.2 = .measured t ↔ lastRtt es x.1.peer = some t) ∧
    (x.2 = .sinceConnecting ↔ lastRtt es x.1.peer = none ∧ AskedSinceClosed es x.1.peer) := by
  unfold SwarmSt.reported at hx
  obtain ⟨e, he, hx⟩ := List.mem_filterMap.mp hx
  obtain ⟨a, ha, rfl⟩ := Option.map_eq_some_iff.mp hx
  simp only [rtt_spec h, ← times_spec hc h]
  cases lastRtt es e.1 with
  | some t => simp
  | none => by_cases ht : e.1 ∈ s.times <;> simp [ht]

theorem openConns_snoc (es : List SwarmEv) (e : SwarmEv) : openConns (es ++ [e]) = openStep (openConns es) e := by
  unfold openConns; rw [List.foldl_append]; rfl

theorem connections_spec {debug : Bool} {es : List SwarmEv} {s : SwarmSt} (hc : Consistent es)
    (hd : AddrsDistinct es) (h : SwarmSt.init.run debug es = .ok s) (a : AddrOnly) (p : PeerId) :
    AMap.get s.connections a = some p ↔ ∃ c ∈ openConns es, c.peer = p ∧ shownAddr c.ep = a.addr := by
  induction es using snocInd generalizing s with
  | nil =>
    simp only [SwarmSt.run, Except.ok.injEq] at h; subst h
    simp [SwarmSt.init, openConns, AMap.get]
  | snoc es e ih =>
    obtain ⟨m, hm, he⟩ := swarm_run_snoc.mp h
    have hcc := consistent_append.mp hc
    have ih := ih hcc.1 (fun pre hp => hd pre (hp.trans (List.prefix_append _ _))) hm
    have f := (step_parts he).2.2.2
    have hnew := hd (es ++ [e]) (List.prefix_refl _)
    have hold := hd es (List.prefix_append _ _)
    rw [openConns_snoc] at hnew
    rw [openConns_snoc, f]
    cases e with
    | established q c ep =>
      simp only [openStep, List.map_append, List.map_cons, List.map_nil, List.nodup_append] at hnew
      simp only [openStep, List.mem_append, List.mem_singleton, AMap.get_set]
      by_cases hae : a = ⟨shownAddr ep⟩
      · subst hae
        simp only [if_true, Option.some.injEq]
        constructor
        · rintro rfl; exact ⟨_, Or.inr rfl, rfl, rfl⟩
        · rintro ⟨c', hc' | rfl, rfl, hs⟩
          · exact absurd hs (hnew.2.2 _ (List.mem_map.mpr ⟨c', hc', rfl⟩) _ (by simp))
          · rfl
      · simp only [hae, if_false, ih]
        constructor
        · rintro ⟨c', hc', h1, h2⟩; exact ⟨c', Or.inl hc', h1, h2⟩
        · rintro ⟨c', hc' | rfl, h1, h2⟩
          · exact ⟨c', hc', h1, h2⟩
          · exact absurd (by rw [h2]) hae
    | closed q c ep =>
      have hin : Conn.mk c q ep ∈ openConns es := hcc.2.1
      simp only [openStep, List.mem_filter, decide_eq_true_eq, AMap.get_erase]
      have inj : ∀ x ∈ openConns es, shownAddr x.ep = shownAddr ep → x = ⟨c, q, ep⟩ := by
        intro x hx hxa
        have : ∀ {l : List Conn}, (l.map (fun x => shownAddr x.ep)).Nodup → ∀ x ∈ l, ∀ y ∈ l,
            shownAddr x.ep = shownAddr y.ep → x = y := by
          intro l
          induction l with
          | nil => intro _ x hx; cases hx
          | cons z l ihl =>
            intro hn x hx y hy hxy
            simp only [List.map_cons, List.nodup_cons, List.mem_map, not_exists, not_and] at hn
            cases hx with
            | head =>
              cases hy with
              | head => rfl
              | tail _ hy => exact absurd hxy.symm (hn.1 y hy)
            | tail _ hx =>
              cases hy with
              | head => exact absurd hxy (hn.1 x hx)
              | tail _ hy => exact ihl hn.2 x hx y hy hxy
        exact this hold x hx _ hin hxa
      by_cases hae : a = ⟨shownAddr ep⟩
      · subst hae
        simp only [if_true, reduceCtorEq, false_iff, not_exists, not_and, and_imp]
        intro x hx hid hp hs
        have := inj x hx hs
        subst this
        exact hid rfl
      · simp only [hae, if_false, ih]
        constructor
        · rintro ⟨c', hc', h1, h2⟩
          refine ⟨c', ⟨hc', ?_⟩, h1, h2⟩
          intro hid
          have hi := ConnInv.init.run hcc.1 hm
          have : c' = ⟨c, q, ep⟩ := by
            have inj' : ∀ {l : List Conn}, (l.map Conn.id).Nodup → ∀ x ∈ l, ∀ y ∈ l, x.id = y.id → x = y := by
              intro l
              induction l with
              | nil => intro _ x hx; cases hx
              | cons z l ihl =>
                intro hn x hx y hy hxy
                simp only [List.map_cons, List.nodup_cons, List.mem_map, not_exists, not_and] at hn
                cases hx with
                | head =>
                  cases hy with
                  | head => rfl
                  | tail _ hy => exact absurd hxy.symm (hn.1 y hy)
                | tail _ hx =>
                  cases hy with
                  | head => exact absurd hxy (hn.1 x hx)
                  | tail _ hy => exact ihl hn.2 x hx y hy hxy
            exact inj' hi.ids c' hc' _ hin hid
          subst this
          exact hae (by rw [h2])
        · rintro ⟨c', ⟨hc', -⟩, h1, h2⟩; exact ⟨c', hc', h1, h2⟩
    | _ => exact ih

theorem finishOne_error {debug : Bool} {reg : Reg AddrPeer ConnRes} {k : AddrPeer} {r : ConnRes} {x : SwarmPanic}
    (h : finishOne debug reg k r = .error x) : x = .nothingAwoken := by
  unfold finishOne at h
  split at h
  · simp only [Except.error.injEq] at h; exact h.symm
  · cases h

/-- **C45**: while no two open connections have the same address, the peer to disconnect is the one a
connection with the address is open to, whatever peer was asked for; and closing it finds it tracked.

Partial: with two connections of one address that is not so, see `C45_same_address`. -/
theorem C45_disconnect_partial (debug : Bool) (es : List SwarmEv) (s : SwarmSt) (hc : Consistent es)
    (hd : AddrsDistinct es) (h : SwarmSt.init.run debug es = .ok s) (a : AddrPeer) :
    (∀ p, s.disconnect a = some p ↔ ∃ c ∈ openConns es, c.peer = p ∧ shownAddr c.ep = a.multiaddr.addr) ∧
    (∀ c ∈ openConns es, s.closed debug c.peer c.ep ≠ .error .notTracked) := by
  refine ⟨fun p => connections_spec hc hd h _ p, ?_⟩
  intro c hcm hcl
  have hg := (connections_spec hc hd h ⟨shownAddr c.ep⟩ c.peer).mpr ⟨c, hcm, rfl, rfl⟩
  unfold SwarmSt.closed at hcl
  split at hcl
  · rename_i x hx
    simp only [Except.error.injEq] at hcl
    subst hcl
    unfold pointAddr at hx
    repeat' split at hx
    all_goals simp at hx
  · rename_i addr ha
    have := pointAddr_ok ha
    subst this
    rw [hg] at hcl
    simp only [Option.isNone_some, Bool.and_false, Bool.false_eq_true, if_false] at hcl
    unfold SwarmSt.justClosed at hcl
    repeat' split at hcl
    all_goals first
      | (cases hcl; done)
      | (rename_i x hx
         simp only [Except.error.injEq] at hcl
         have := finishOne_error hx
         rw [this] at hcl
         cases hcl)

theorem pointAddr_good {debug : Bool} {ep : Endpoint} (h : EndpointOk debug ep) : ∃ a, pointAddr debug ep = .ok a := by
  cases ep with
  | dialer a => obtain ⟨x, hx⟩ := h; exact ⟨x.only, by simp [pointAddr, hx]⟩
  | listener a =>
    have : AddrOnly.ofAddr a = .ok ⟨a⟩ := (C49_without a ⟨a⟩).mpr ⟨h, rfl⟩
    exact ⟨⟨a⟩, by simp [pointAddr, this]⟩

theorem finishOne_release (reg : Reg AddrPeer ConnRes) (k : AddrPeer) (r : ConnRes) :
    ∃ reg', finishOne false reg k r = .ok reg' := by
  unfold finishOne Reg.finish
  by_cases h : hasKind reg.subs k
  · simp [h]
  · simp [h]

theorem finishAll_release (l : List (AddrPeer × ConnRes)) : ∀ (reg : Reg AddrPeer ConnRes),
    ∃ reg', finishAll false reg l = .ok reg' := by
  induction l with
  | nil => intro reg; exact ⟨reg, rfl⟩
  | cons x l ih =>
    intro reg
    obtain ⟨reg1, h1⟩ := finishOne_release reg x.1 x.2
    obtain ⟨reg', h2⟩ := ih reg1
    exact ⟨reg', by simp [finishAll, h1, h2]⟩

theorem transport_release (l : List (Maddr × Bytes)) : ∀ (reg : Reg AddrPeer ConnRes) (as : List AddrPeer),
    (∀ x ∈ l, ∃ k, AddrPeer.ofAddr false x.1 = .ok k) → ∃ y, transportFailures false reg as l = .ok y := by
  induction l with
  | nil => intro reg as _; exact ⟨_, rfl⟩
  | cons x l ih =>
    intro reg as h
    obtain ⟨k, hk⟩ := h x (by simp)
    obtain ⟨reg1, h1⟩ := finishOne_release reg k (.error x.2)
    obtain ⟨y, hy⟩ := ih reg1 (swapRemove as k) (fun z hz => h z (by simp [hz]))
    exact ⟨y, by simp [transportFailures, hk, h1, hy]⟩

/-- **C45**: built without debug assertions, no history makes the code panic, whether consistent or not, as
long as dialed addresses name a peer and accepted ones do not. -/
theorem C45_no_abort (es : List SwarmEv) (hok : ∀ e ∈ es, EventOk false e) (s : SwarmSt) :
    ∃ s', s.run false es = .ok s' := by
  induction es generalizing s with
  | nil => exact ⟨s, rfl⟩
  | cons e es ih =>
    have hstep : ∃ s1, s.step false e = .ok s1 := by
      have he := hok e (by simp)
      cases e with
      | established p c ep =>
        obtain ⟨a, ha⟩ := pointAddr_good he
        simp only [SwarmSt.step, SwarmSt.established, ha]
        have hj : ∀ t : SwarmSt, ∃ t', t.justConnected false p ep = .ok t' := by
          intro t
          unfold SwarmSt.justConnected
          cases ep with
          | listener b => exact ⟨_, rfl⟩
          | dialer b =>
            obtain ⟨x, hx⟩ := he
            simp only [hx]
            split
            · exact ⟨_, rfl⟩
            · split
              · obtain ⟨reg', hr⟩ := finishOne_release t.reg x (.ok ())
                simp [hr]
              · exact ⟨_, rfl⟩
        obtain ⟨t, ht⟩ := hj { s with
          peers := insertSet s.peers p
          connected := AMap.set s.connected p ((AMap.get s.connected p).getD [] ++ [a])
          connections := AMap.set s.connections a p }
        rw [ht]
        simp only
        obtain ⟨reg', hr⟩ := finishAll_release (((AMap.get t.pendAddrs p).getD [] ++
          (AMap.get t.pendConns p).getD []).map (fun a => (a, .error sAnother))) t.reg
        rw [hr]
        exact ⟨_, rfl⟩
      | closed p c ep =>
        obtain ⟨a, ha⟩ := pointAddr_good he
        simp only [SwarmSt.step, SwarmSt.closed, ha, Bool.false_and, Bool.false_eq_true, if_false]
        unfold SwarmSt.justClosed
        cases ep with
        | listener b => exact ⟨_, rfl⟩
        | dialer b =>
          simp only
          split
          · exact ⟨_, rfl⟩
          · split
            · obtain ⟨reg', hr⟩ := finishOne_release s.reg ⟨a, p⟩ (.error sReset)
              simp [hr]
            · exact ⟨_, rfl⟩
      | dialFailure p err =>
        simp only [SwarmSt.step, SwarmSt.dialFailure]
        cases p with
        | none => exact ⟨_, rfl⟩
        | some p =>
          simp only
          split
          · exact ⟨_, rfl⟩
          · rename_i addresses _
            cases err with
            | transport l =>
              obtain ⟨y, hy⟩ := transport_release l s.reg addresses he
              simp [hy]
            | wrongPeer text =>
              obtain ⟨reg', hr⟩ := finishAll_release (addresses.map (fun a => (a, .error text))) s.reg
              simp [hr]
            | other => exact ⟨_, rfl⟩
      | _ => exact ⟨_, rfl⟩
    obtain ⟨s1, h1⟩ := hstep
    obtain ⟨s', h'⟩ := ih (fun e he => hok e (by simp [he])) s1
    exact ⟨s', by simp [SwarmSt.run, h1, h']⟩

/-! ### Examples and counterexamples -/

/-- Two dialed addresses of one peer and an accepted one of another. -/
def exDial1 : Maddr := exHost ++ [.p2p exPeerA.mhCode exPeerA.digest]
def exDial2 : Maddr := [.ip4 10 0 0 2, .tcp 4001] ++ [.p2p exPeerA.mhCode exPeerA.digest]
def exBack : Maddr := [.ip4 10 0 0 3, .tcp 50123]

/-- Three connections, one of them closed. -/
def exConns : List SwarmEv :=
  [.connect ⟨⟨exHost⟩, exPeerA⟩, .poll, .addressesOf exPeerA, .established exPeerA 1 (.dialer exDial1),
   .established exPeerB 2 (.listener exBack), .established exPeerA 3 (.dialer exDial2), .setRtt exPeerB 17,
   .closed exPeerA 1 (.dialer exDial1)]

/-- What the theorems of C45 say of it. -/
example : Consistent exConns ∧ openTo exConns exPeerA = [⟨3, exPeerA, .dialer exDial2⟩] ∧
    (∀ e ∈ exConns, EventOk false e) ∧
    ∃ s, SwarmSt.init.run true exConns = .ok s ∧ s.connectionsTo exPeerA = [[.ip4 10 0 0 2, .tcp 4001]] ∧
      s.reported = [(⟨⟨[.ip4 10 0 0 2, .tcp 4001]⟩, exPeerA⟩, .none), (⟨⟨exBack⟩, exPeerB⟩, .measured 17)] ∧
      s.disconnect ⟨⟨exBack⟩, exPeerA⟩ = some exPeerB := by
  refine ⟨⟨?_, ?_, ?_, ?_, ?_, ?_, ?_, ?_, trivial⟩, by decide, ?_, ?_⟩
  any_goals first | trivial | decide
  · intro e he
    simp only [exConns, List.mem_cons, List.not_mem_nil, or_false] at he
    rcases he with rfl | rfl | rfl | rfl | rfl | rfl | rfl | rfl
    any_goals trivial
    · exact ⟨⟨⟨exHost⟩, exPeerA⟩, by decide⟩
    · show ¬ NamesPeer exBack
      rw [← any_p2p_iff]; decide
    · exact ⟨⟨⟨[.ip4 10 0 0 2, .tcp 4001]⟩, exPeerA⟩, by decide⟩
    · exact ⟨⟨⟨exHost⟩, exPeerA⟩, by decide⟩
  · exact ⟨_, rfl, by decide, by decide, by decide⟩

/-- **C45**: two connections dialed at one address share an entry of the table for `disconnect`. When one of
them is closed, the other one can no longer be disconnected though it is open and reported; and when it is
closed as well, a build with debug assertions panics. -/
theorem C45_same_address :
    ∃ es s, Consistent es ∧ SwarmSt.init.run true es = .ok s ∧
      openTo es exPeerA = [⟨2, exPeerA, .dialer exDial1⟩] ∧ s.connectionsTo exPeerA = [exHost] ∧
      s.disconnect ⟨⟨exHost⟩, exPeerA⟩ = none ∧
      s.closed true exPeerA (.dialer exDial1) = .error .notTracked := by
  refine ⟨[.established exPeerA 1 (.dialer exDial1), .established exPeerA 2 (.dialer exDial1),
    .closed exPeerA 1 (.dialer exDial1)], _, ⟨by simp, by decide, by decide, trivial⟩, rfl, by decide, by decide,
    by decide, by rfl⟩

/-- **C45**: `disconnect` looks at the address only: asked for one peer it disconnects another. And a dialed
peer has no time since connecting after one of its connections was closed, nor has one that connected to
us. -/
theorem C45_wrong_peer :
    ∃ es s, Consistent es ∧ SwarmSt.init.run true es = .ok s ∧ exPeerA ≠ exPeerB ∧
      (∃ x ∈ openConns es, x.peer = exPeerB) ∧ (∀ x ∈ openConns es, x.peer ≠ exPeerA) ∧
      s.disconnect ⟨⟨exBack⟩, exPeerA⟩ = some exPeerB ∧ s.reported = [(⟨⟨exBack⟩, exPeerB⟩, .none)] := by
  exact ⟨[.established exPeerB 2 (.listener exBack)], _, ⟨by simp, trivial⟩, rfl, by decide, by decide, by decide,
    by decide, by decide⟩

end Verif.Props
