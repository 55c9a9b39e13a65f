import Verif.Net.Pubsub
import Verif.Props.Swarm
import Verif.Base.Snoc

/-!
# Topics, their streams and the peers subscribed to them (C47, C48)

Histories are any interleaving of calls, stream drops, stream reads, arrivals from the network and rounds of
the two loops of `poll`. C47 holds as to `subscribe` and the assertions. Delivery is once for every mention
of the topic in the message, so once only if it is not repeated (`C47_repeated`); and a stream is registered
until its topic is unsubscribed or it is dropped only if no other stream of the topic is dropped meanwhile:
the notice of a dropped stream names just the topic (`C47_stale_drop`).
-/

namespace Verif.Props

open Verif Verif.Ipfs Verif.Net

/-! ## What is to be shown -/

/-- Some history leads to the state. -/
def PubReach (s : PubSt) : Prop := ∃ ops as, PubSt.init.run ops = .ok (s, as)

/-- What arrived from the network, in order. -/
def arrivals : List PubOp → List FloodEv
  | [] => []
  | .arrive e :: ops => e :: arrivals ops
  | _ :: ops => arrivals ops

/-- Messages among what was handled, each as often as it mentions the topic. -/
def mentions (t : Topic) : List FloodEv → List PubMsg
  | [] => []
  | .message m :: es => List.replicate (m.topics.count t) m ++ mentions t es
  | _ :: es => mentions t es

/-- Messages among what was handled that mention the topic. -/
def onTopic (t : Topic) : List FloodEv → List PubMsg
  | [] => []
  | .message m :: es => (if t ∈ m.topics then [m] else []) ++ onTopic t es
  | _ :: es => onTopic t es

/-- What was read from a stream. -/
def readFrom (i : Nat) : List PubAns → List PubMsg
  | [] => []
  | .read j (.item m) :: as => (if j = i then [m] else []) ++ readFrom i as
  | _ :: as => readFrom i as

/-- Whether the last notice of the peer on the topic was a subscription. -/
def lastNotice (p : PeerId) (t : Topic) (es : List FloodEv) : Bool :=
  es.foldl (fun acc e => match e with
    | .subscribed q u => if q = p ∧ u = t then true else acc
    | .unsubscribed q u => if q = p ∧ u = t then false else acc
    | _ => acc) false

/-! ## Steps -/

/-- What `unsubscribe` and the delivery of messages leave alone. -/
structure SameNet (s s' : PubSt) : Prop where
  peers : s'.peers = s.peers
  view : s'.view = s.view
  drops : s'.drops = s.drops
  queue : s'.queue = s.queue

theorem SameNet.refl (s : PubSt) : SameNet s s := ⟨rfl, rfl, rfl, rfl⟩

theorem SameNet.trans {a b c : PubSt} (h : SameNet a b) (h' : SameNet b c) : SameNet a c :=
  ⟨h'.peers.trans h.peers, h'.view.trans h.view, h'.drops.trans h.drops, h'.queue.trans h.queue⟩

/-- The table, floodsub and the streams agree. -/
structure PubCore (s : PubSt) : Prop where
  nodup : s.topics.Nodup
  same : ∀ t, t ∈ s.topics ↔ (AMap.get s.streams t).isSome = true
  owner : ∀ t i, AMap.get s.streams t = some i →
    ∃ st, s.made[i]? = some st ∧ st.topic = t ∧ (st.alive = true → st.onDrop = true)

theorem unsubscribe_spec {s : PubSt} (h : PubCore s) (t : Topic) : ∃ s' b, s.unsubscribe t = .ok (s', b) ∧
    PubCore s' ∧ b = (AMap.get s.streams t).isSome ∧ s'.made = s.made ∧ SameNet s s' ∧
    ∀ u, AMap.get s'.streams u = if u = t then none else AMap.get s.streams u := by
  unfold PubSt.unsubscribe
  cases hg : AMap.get s.streams t with
  | none =>
    refine ⟨s, false, rfl, h, rfl, rfl, .refl s, fun u => ?_⟩
    by_cases hu : u = t
    · subst hu; simp [hg]
    · simp [hu]
  | some i =>
    have hm : t ∈ s.topics := (h.same t).2 (by simp [hg])
    simp only [floodUnsubscribe, hm, if_true]
    refine ⟨_, _, rfl, ⟨h.nodup.erase _, fun u => ?_, fun u j hu => ?_⟩, rfl, rfl, ⟨rfl, rfl, rfl, rfl⟩, fun u => ?_⟩
    · rw [h.nodup.mem_erase_iff, h.same u]
      simp only [AMap.get_erase]
      by_cases hut : u = t <;> simp [hut]
    · simp only [AMap.get_erase] at hu
      split at hu
      · cases hu
      · exact h.owner u j hu
    · simp only [AMap.get_erase]

theorem send_spec {s : PubSt} (h : PubCore s) (m : PubMsg) (t : Topic) : ∃ s', s.send m t = .ok s' ∧
    PubCore s' ∧ SameNet s s' ∧ s'.made.length = s.made.length ∧
    (∀ (i : Nat) (st : PubStream), s.made[i]? = some st → s'.made[i]? = some { st with
      inbox := if st.alive = true ∧ AMap.get s.streams t = some i then st.inbox ++ [m] else st.inbox }) ∧
    (∀ (u : Topic) (i : Nat) (st : PubStream), s.made[i]? = some st →
      (AMap.get s'.streams u = some i ↔ AMap.get s.streams u = some i ∧ (st.alive = true ∨ u ≠ t))) := by
  unfold PubSt.send
  cases hg : AMap.get s.streams t with
  | none =>
    refine ⟨s, rfl, h, .refl s, rfl, fun i st hi => by simp [hi], fun u i st hi => ?_⟩
    constructor
    · intro hu
      refine ⟨hu, .inr ?_⟩
      rintro rfl
      rw [hg] at hu; cases hu
    · exact And.left
  | some k =>
    obtain ⟨st, hst, htop, hon⟩ := h.owner t k hg
    simp only [hst]
    by_cases ha : st.alive = true
    · simp only [ha, if_true]
      have hlt : k < s.made.length := (List.getElem?_eq_some_iff.1 hst).1
      refine ⟨_, rfl, ⟨h.nodup, h.same, fun u i hu => ?_⟩, ⟨rfl, rfl, rfl, rfl⟩, by simp, fun i st' hi => ?_, fun u i st' hi => ?_⟩
      · obtain ⟨st', hs', ht', ho'⟩ := h.owner u i hu
        by_cases hik : k = i
        · subst hik
          rw [hst] at hs'; cases hs'
          exact ⟨_, List.getElem?_set_self hlt, ht', fun _ => hon ha⟩
        · exact ⟨st', by simp [hik, hs'], ht', ho'⟩
      · by_cases hik : k = i
        · subst hik
          rw [hst] at hi; cases hi
          rw [List.getElem?_set_self hlt]
          simp [ha]
        · simp [hik, hi]
      · constructor
        · intro hu
          refine ⟨hu, ?_⟩
          by_cases hut : u = t
          · subst hut
            rw [hg] at hu; cases hu
            rw [hst] at hi; cases hi
            exact .inl ha
          · exact .inr hut
        · exact And.left
    · obtain ⟨s', b, hs', hc', -, hm', hsn, hget⟩ := unsubscribe_spec h t
      simp only [ha, hs', Except.map]
      refine ⟨s', rfl, hc', hsn, by rw [hm'], fun i st' hi => ?_, fun u i st' hi => ?_⟩
      · rw [hm', hi]
        by_cases hik : k = i
        · subst hik
          rw [hst] at hi; cases hi
          rw [if_neg (fun hx => ha hx.1)]
        · simp only [Option.some.injEq, hik, and_false, if_false]
      · rw [hget u]
        by_cases hut : u = t
        · subst hut
          simp only [if_true, ne_eq, not_true_eq_false, or_false]
          constructor
          · intro h0; cases h0
          · rintro ⟨h1, h2⟩
            rw [hg] at h1; cases h1
            rw [hst] at hi; cases hi
            exact absurd h2 ha
        · simp [hut]

theorem sendAll_spec (m : PubMsg) (ts : List Topic) : ∀ {s : PubSt}, PubCore s → ∃ s', s.sendAll m ts = .ok s' ∧
    PubCore s' ∧ SameNet s s' ∧ s'.made.length = s.made.length ∧
    (∀ (i : Nat) (st : PubStream), s.made[i]? = some st → s'.made[i]? = some { st with
      inbox := if st.alive = true ∧ AMap.get s.streams st.topic = some i
        then st.inbox ++ List.replicate (ts.count st.topic) m else st.inbox }) ∧
    (∀ (u : Topic) (i : Nat) (st : PubStream), s.made[i]? = some st →
      (AMap.get s'.streams u = some i ↔ AMap.get s.streams u = some i ∧ (st.alive = true ∨ u ∉ ts))) := by
  induction ts with
  | nil =>
    intro s h
    exact ⟨s, rfl, h, .refl s, rfl, fun i st hi => by simp [hi], fun u i st hi => by simp⟩
  | cons t ts ih =>
    intro s h
    obtain ⟨s1, h1, hc1, hn1, hl1, hm1, hs1⟩ := send_spec h m t
    obtain ⟨s2, h2, hc2, hn2, hl2, hm2, hs2⟩ := ih hc1
    refine ⟨s2, by simp [PubSt.sendAll, h1, h2], hc2, hn1.trans hn2, hl2.trans hl1, fun i st hi => ?_, fun u i st hi => ?_⟩
    · have ha := hm1 i st hi
      have hb := hm2 i _ ha
      rw [hb]
      have hreg := hs1 st.topic i st hi
      simp only [hreg]
      by_cases hal : st.alive = true
      · simp only [hal, true_or, and_true, true_and]
        by_cases hr : AMap.get s.streams st.topic = some i
        · simp only [hr, if_true]
          by_cases htt : t = st.topic
          · subst htt
            simp [hr, List.count_cons_self, List.replicate_succ]
          · have : AMap.get s.streams t ≠ some i := by
              intro hx
              obtain ⟨st', hs', ht', -⟩ := h.owner t i hx
              rw [hi] at hs'; cases hs'
              exact htt ht'.symm
            rw [List.count_cons_of_ne htt]
            simp [this]
        · have : AMap.get s.streams t ≠ some i := by
            intro hx
            obtain ⟨st', hs', ht', -⟩ := h.owner t i hx
            rw [hi] at hs'; cases hs'
            exact hr (ht' ▸ hx)
          simp [hr, this]
      · simp [hal]
    · have ha := hm1 i st hi
      have hb := hs2 u i _ ha
      rw [hb, hs1 u i st hi]
      simp only [List.mem_cons, not_or]
      constructor
      · rintro ⟨⟨h1, h2⟩, h3⟩
        refine ⟨h1, ?_⟩
        rcases h2 with h2 | h2
        · exact .inl h2
        · rcases h3 with h3 | h3
          · exact .inl h3
          · exact .inr ⟨h2, h3⟩
      · rintro ⟨h1, h2 | h2⟩
        · exact ⟨⟨h1, .inl h2⟩, .inl h2⟩
        · exact ⟨⟨h1, .inr h2.1⟩, .inr h2.2⟩

/-- What holds after every history. -/
structure PubInv (s : PubSt) : Prop where
  core : PubCore s
  notice : ∀ t i st, AMap.get s.streams t = some i → s.made[i]? = some st → st.alive = false → t ∈ s.drops
  uniq : AMap.Uniq s.peers
  full : ∀ p ts, AMap.get s.peers p = some ts → ts ≠ [] ∧ ts.Nodup

theorem PubInv.init : PubInv PubSt.init :=
  ⟨⟨List.nodup_nil, fun _ => by simp [PubSt.init, AMap.get], fun _ _ h => by simp [PubSt.init, AMap.get] at h⟩,
    fun _ _ _ h => by simp [PubSt.init, AMap.get] at h, AMap.uniq_nil, fun _ _ h => by simp [PubSt.init, AMap.get] at h⟩

/-- What a step handles of the queue. -/
def handledBy (s : PubSt) : PubOp → List FloodEv
  | .serve => s.queue.head?.toList
  | _ => []

/-- What a step does to one stream, to the notices and to the queue. -/
structure PubStep (s : PubSt) (op : PubOp) (s' : PubSt) (a : PubAns) : Prop where
  inv : PubInv s'
  queue : s.queue ++ arrivals [op] = handledBy s op ++ s'.queue
  drops : ∀ t, t ∈ s'.drops → t ∈ s.drops ∨ ∃ i st, op = .dropStream i ∧ s.made[i]? = some st ∧ st.topic = t
  stream : ∀ (i : Nat) (st : PubStream), s.made[i]? = some st → ∃ st', s'.made[i]? = some st' ∧ st'.topic = st.topic ∧
    (st'.alive = true ↔ st.alive = true ∧ op ≠ .dropStream i) ∧
    (st'.alive = true → readFrom i [a] ++ st'.inbox =
      st.inbox ++ if AMap.get s.streams st.topic = some i then mentions st.topic (handledBy s op) else []) ∧
    (AMap.get s'.streams st.topic = some i → AMap.get s.streams st.topic = some i) ∧
    (AMap.get s.streams st.topic = some i → st'.alive = true → op ≠ .unsubscribe st.topic →
      ¬ (op = .drain ∧ s.drops.head? = some st.topic) → AMap.get s'.streams st.topic = some i)

theorem pub_step {s : PubSt} (h : PubInv s) (op : PubOp) : ∃ s' a, s.step op = .ok (s', a) ∧ PubStep s op s' a := by
  have hlt : ∀ t i, AMap.get s.streams t = some i → i < s.made.length := by
    intro t i hi
    obtain ⟨st, hst, -⟩ := h.core.owner t i hi
    exact (List.getElem?_eq_some_iff.1 hst).1
  cases op with
  | subscribe t =>
    cases hg : AMap.get s.streams t with
    | some i =>
      refine ⟨s, .stream none, by simp [PubSt.step, PubSt.subscribe, hg, Except.map], h, by simp [arrivals, handledBy], fun t => .inl, ?_⟩
      intro i st hi
      exact ⟨st, hi, rfl, by simp, by simp [readFrom, mentions, handledBy], id, fun x _ _ _ => x⟩
    | none =>
      have hm : t ∉ s.topics := by rw [h.core.same t]; simp [hg]
      refine ⟨{ s with topics := s.topics ++ [t], streams := AMap.set s.streams t s.made.length, made := s.made ++ [⟨t, true, true, []⟩] }, .stream (some s.made.length), by simp [PubSt.step, PubSt.subscribe, hg, Except.map, floodSubscribe, hm], ⟨⟨?_, ?_, ?_⟩, ?_, h.uniq, h.full⟩, by simp [arrivals, handledBy], fun t => .inl, ?_⟩
      · exact List.nodup_append.2 ⟨h.core.nodup, by simp, by
          intro a ha b hb hab
          simp only [List.mem_singleton] at hb
          subst hb; subst hab; exact hm ha⟩
      · intro u
        simp only [List.mem_append, List.mem_singleton, h.core.same u, AMap.get_set]
        by_cases hu : u = t <;> simp [hu]
      · intro u i hu
        simp only [AMap.get_set] at hu
        split at hu
        · next he =>
          cases hu; subst he
          exact ⟨⟨u, true, true, []⟩, by simp, rfl, fun _ => rfl⟩
        · obtain ⟨st, h1, h2⟩ := h.core.owner u i hu
          exact ⟨st, by rw [List.getElem?_append_left (hlt u i hu)]; exact h1, h2⟩
      · intro u i st hu hs hd
        simp only [AMap.get_set] at hu
        split at hu
        · next he =>
          cases hu
          simp at hs
          subst hs
          simp at hd
        · simp only [List.getElem?_append_left (hlt u i hu)] at hs
          exact h.notice u i st hu hs hd
      · intro i st hi
        have hil : i < s.made.length := (List.getElem?_eq_some_iff.1 hi).1
        have hne : ∀ u, AMap.get (AMap.set s.streams t s.made.length) u = some i ↔ AMap.get s.streams u = some i := by
          intro u
          rw [AMap.get_set]
          by_cases hu : u = t
          · subst hu
            simp only [if_true, hg, Option.some.injEq, reduceCtorEq, iff_false]
            omega
          · simp [hu]
        refine ⟨st, by simp only; rw [List.getElem?_append_left hil]; exact hi, rfl, by simp, by simp [readFrom, mentions, handledBy], (hne _).1, fun x _ _ _ => (hne _).2 x⟩
  | unsubscribe t =>
    obtain ⟨s', b, hs', hc, hb, hm, hn, hget⟩ := unsubscribe_spec h.core t
    refine ⟨s', .was b, by simp [PubSt.step, hs', Except.map], ⟨hc, ?_, hn.peers ▸ h.uniq, hn.peers ▸ h.full⟩, ?_, ?_, ?_⟩
    · intro u i st hu hi hd
      rw [hget u] at hu
      split at hu
      · cases hu
      · rw [hn.drops]; exact h.notice u i st hu (hm ▸ hi) hd
    · simp [arrivals, handledBy, hn.queue]
    · intro u hu; rw [hn.drops] at hu; exact .inl hu
    · intro i st hi
      refine ⟨st, by rw [hm]; exact hi, rfl, by simp, by simp [readFrom, mentions, handledBy], ?_, ?_⟩
      · rw [hget]; split
        · intro hx; cases hx
        · exact id
      · intro hr _ hne _
        rw [hget, if_neg (by rintro rfl; exact hne rfl)]
        exact hr
  | dropStream k =>
    refine ⟨s.dropStream k, .nothing, rfl, ?_⟩
    unfold PubSt.dropStream
    cases hk : s.made[k]? with
    | none =>
      refine ⟨h, by simp [arrivals, handledBy], fun t => .inl, fun i st hi => ?_⟩
      have : k ≠ i := by rintro rfl; rw [hk] at hi; cases hi
      exact ⟨st, hi, rfl, by simp [this], by simp [readFrom, mentions, handledBy], id, fun x _ _ _ => x⟩
    | some sk =>
      simp only
      by_cases ha : sk.alive = true
      · have hkl : k < s.made.length := (List.getElem?_eq_some_iff.1 hk).1
        simp only [ha, if_true]
        refine ⟨⟨⟨h.core.nodup, h.core.same, ?_⟩, ?_, h.uniq, h.full⟩, by simp [arrivals, handledBy], ?_, ?_⟩
        · intro u i hu
          obtain ⟨st, h1, h2, h3⟩ := h.core.owner u i hu
          by_cases hik : k = i
          · subst hik
            rw [hk] at h1; cases h1
            exact ⟨_, List.getElem?_set_self hkl, h2, fun hx => by simp at hx⟩
          · exact ⟨st, by simp [hik, h1], h2, h3⟩
        · intro u i st hu hi hd
          obtain ⟨st0, h1, h2, h3⟩ := h.core.owner u i hu
          by_cases hik : k = i
          · subst hik
            rw [hk] at h1; cases h1
            simp [h3 ha, h2]
          · simp only [List.getElem?_set_ne hik] at hi
            have := h.notice u i st hu hi hd
            simp only
            split <;> simp [this]
        · intro u hu
          simp only at hu
          split at hu
          · rcases List.mem_append.1 hu with hu | hu
            · exact .inl hu
            · exact .inr ⟨k, sk, rfl, hk, (List.mem_singleton.1 hu).symm⟩
          · exact .inl hu
        · intro i st hi
          by_cases hik : k = i
          · subst hik
            rw [hk] at hi; cases hi
            exact ⟨_, List.getElem?_set_self hkl, rfl, by simp, by simp, id, fun _ hx _ _ => by simp at hx⟩
          · exact ⟨st, by simp [hik, hi], rfl, by simp [hik], by simp [readFrom, mentions, handledBy], id, fun x _ _ _ => x⟩
      · simp only [ha]
        refine ⟨h, by simp [arrivals, handledBy], fun t => .inl, fun i st hi => ?_⟩
        refine ⟨st, hi, rfl, ?_, by simp [readFrom, mentions, handledBy], id, fun x _ _ _ => x⟩
        constructor
        · intro hx
          refine ⟨hx, ?_⟩
          rintro ⟨⟩
          rw [hk] at hi; cases hi
          exact ha hx
        · exact And.left
  | readStream k =>
    refine ⟨(s.readStream k).1, .read k (s.readStream k).2, rfl, ?_⟩
    unfold PubSt.readStream
    have same : ∀ r : PubRead, (∀ m, r ≠ .item m) → PubStep s (.readStream k) s (.read k r) := by
      intro r hr
      refine ⟨h, by simp [arrivals, handledBy], fun t => .inl, fun i st hi => ⟨st, hi, rfl, by simp, ?_, id, fun x _ _ _ => x⟩⟩
      cases r with
      | item m => exact absurd rfl (hr m)
      | _ => simp [readFrom, mentions, handledBy]
    cases hk : s.made[k]? with
    | none => exact same _ (by simp)
    | some sk =>
      simp only
      by_cases ha : sk.alive = true
      · have hkl : k < s.made.length := (List.getElem?_eq_some_iff.1 hk).1
        simp only [ha, if_true]
        have upd : ∀ (sk' : PubStream) (r : PubRead), sk'.topic = sk.topic → sk'.alive = true →
            (AMap.get s.streams sk.topic = some k → sk'.onDrop = sk.onDrop) →
            readFrom k [.read k r] ++ sk'.inbox = sk.inbox →
            PubStep s (.readStream k) { s with made := s.made.set k sk' } (.read k r) := by
          intro sk' r ht hal hon hrd
          refine ⟨⟨⟨h.core.nodup, h.core.same, ?_⟩, ?_, h.uniq, h.full⟩, by simp [arrivals, handledBy], fun t => .inl, ?_⟩
          · intro u i hu
            obtain ⟨st, h1, h2, h3⟩ := h.core.owner u i hu
            by_cases hik : k = i
            · subst hik
              rw [hk] at h1; cases h1
              subst h2
              exact ⟨_, List.getElem?_set_self hkl, ht, fun _ => (hon hu).trans (h3 ha)⟩
            · exact ⟨st, by simp [hik, h1], h2, h3⟩
          · intro u i st hu hi hd
            by_cases hik : k = i
            · subst hik
              simp only [List.getElem?_set_self hkl] at hi
              cases hi
              rw [hal] at hd; cases hd
            · simp only [List.getElem?_set_ne hik] at hi
              exact h.notice u i st hu hi hd
          · intro i st hi
            by_cases hik : k = i
            · subst hik
              rw [hk] at hi; cases hi
              refine ⟨_, List.getElem?_set_self hkl, ht, by simp [hal, ha], ?_, id, fun x _ _ _ => x⟩
              intro _
              rw [hrd]; simp [mentions, handledBy]
            · refine ⟨st, by simp [hik, hi], rfl, by simp, ?_, id, fun x _ _ _ => x⟩
              intro _
              cases r <;> simp [readFrom, mentions, handledBy, hik]
        cases hin : sk.inbox with
        | cons m rest =>
          refine upd _ _ rfl rfl (fun _ => rfl) ?_
          simp [readFrom, hin]
        | nil =>
          simp only
          by_cases hr : AMap.get s.streams sk.topic = some k
          · simp only [hr, if_true]
            exact same _ (by simp)
          · simp only [hr, if_false]
            refine upd _ _ rfl rfl (fun hx => absurd hx hr) ?_
            simp [readFrom, hin]
      · simp only [ha]
        exact same _ (by simp)
  | addNode p =>
    exact ⟨_, _, rfl, ⟨⟨h.core.nodup, h.core.same, h.core.owner⟩, h.notice, h.uniq, h.full⟩, by simp [arrivals, handledBy], fun t => .inl,
      fun i st hi => ⟨st, hi, rfl, by simp, by simp [readFrom, mentions, handledBy], id, fun x _ _ _ => x⟩⟩
  | removeNode p =>
    exact ⟨_, _, rfl, ⟨⟨h.core.nodup, h.core.same, h.core.owner⟩, h.notice, h.uniq, h.full⟩, by simp [arrivals, handledBy], fun t => .inl,
      fun i st hi => ⟨st, hi, rfl, by simp, by simp [readFrom, mentions, handledBy], id, fun x _ _ _ => x⟩⟩
  | arrive e =>
    exact ⟨_, _, rfl, ⟨⟨h.core.nodup, h.core.same, h.core.owner⟩, h.notice, h.uniq, h.full⟩, by simp [arrivals, handledBy], fun t => .inl,
      fun i st hi => ⟨st, hi, rfl, by simp, by simp [readFrom, mentions, handledBy], id, fun x _ _ _ => x⟩⟩
  | drain =>
    cases hd : s.drops with
    | nil =>
      refine ⟨s, .nothing, by simp [PubSt.step, hd], h, by simp [arrivals, handledBy], fun t => .inl, ?_⟩
      intro i st hi
      exact ⟨st, hi, rfl, by simp, by simp [readFrom, mentions, handledBy], id, fun x _ _ _ => x⟩
    | cons t ts =>
      have hcore : PubCore { s with drops := ts } := ⟨h.core.nodup, h.core.same, h.core.owner⟩
      obtain ⟨s', b, hs', hc, hb, hm, hn, hget⟩ := unsubscribe_spec hcore t
      refine ⟨s', .nothing, by simp [PubSt.step, hd, hs', Except.map], ⟨hc, ?_, hn.peers ▸ h.uniq, hn.peers ▸ h.full⟩, ?_, ?_, ?_⟩
      · intro u i st hu hi hdd
        rw [hget u] at hu
        split at hu
        · cases hu
        · next hut =>
          have := h.notice u i st hu (hm ▸ hi) hdd
          rw [hd] at this
          rw [hn.drops]
          exact (List.mem_cons.1 this).resolve_left hut
      · simp [arrivals, handledBy, hn.queue]
      · intro u hu; rw [hn.drops] at hu; exact .inl (by rw [hd]; exact List.mem_cons_of_mem _ hu)
      · intro i st hi
        refine ⟨st, by rw [hm]; exact hi, rfl, by simp, by simp [readFrom, mentions, handledBy], ?_, ?_⟩
        · rw [hget]; split
          · intro hx; cases hx
          · exact id
        · intro hr _ _ hne
          rw [hget, if_neg (by rintro rfl; exact hne ⟨rfl, by simp [hd]⟩)]
          exact hr
  | serve =>
    cases hq : s.queue with
    | nil =>
      refine ⟨s, .nothing, by simp [PubSt.step, hq], h, by simp [arrivals, handledBy, hq], fun t => .inl, ?_⟩
      intro i st hi
      exact ⟨st, hi, rfl, by simp, by simp [readFrom, mentions, handledBy, hq], id, fun x _ _ _ => x⟩
    | cons e q =>
      have hcore : PubCore { s with queue := q } := ⟨h.core.nodup, h.core.same, h.core.owner⟩
      cases e with
      | action n =>
        exact ⟨{ s with queue := q }, .polled (some n), by simp [PubSt.step, hq, PubSt.handle, Except.map], ⟨hcore, h.notice, h.uniq, h.full⟩, by simp [arrivals, handledBy, hq], fun t => .inl,
          fun i st hi => ⟨st, hi, rfl, by simp, by simp [readFrom, mentions, handledBy, hq], id, fun x _ _ _ => x⟩⟩
      | subscribed p t =>
        refine ⟨PubSt.peerSubscribed { s with queue := q } p t, .polled none, by simp [PubSt.step, hq, PubSt.handle, Except.map], ⟨⟨h.core.nodup, h.core.same, h.core.owner⟩, h.notice, h.uniq.set _ _, ?_⟩, by simp [arrivals, handledBy, hq, PubSt.peerSubscribed], fun t => .inl,
          fun i st hi => ⟨st, hi, rfl, by simp, by simp [readFrom, mentions, handledBy, hq], id, fun x _ _ _ => x⟩⟩
        intro p' ts hp
        simp only [PubSt.peerSubscribed, AMap.get_set] at hp
        split at hp
        · cases hp
          have hnd : ((AMap.get s.peers p).getD []).Nodup := by
            cases hg : AMap.get s.peers p with
            | none => simp
            | some l => exact (h.full p l hg).2
          split
          · next hm => exact ⟨List.ne_nil_of_mem hm, hnd⟩
          · next hm =>
            refine ⟨by simp, List.nodup_append.2 ⟨hnd, by simp, ?_⟩⟩
            intro a ha b hb hab
            simp only [List.mem_singleton] at hb
            subst hb; subst hab; exact hm ha
        · exact h.full p' ts hp
      | unsubscribed p t =>
        have hpu : PubInv { s with queue := q } := ⟨hcore, h.notice, h.uniq, h.full⟩
        have key : PubInv (PubSt.peerUnsubscribed { s with queue := q } p t) ∧
            (PubSt.peerUnsubscribed { s with queue := q } p t).streams = s.streams ∧
            (PubSt.peerUnsubscribed { s with queue := q } p t).made = s.made ∧
            (PubSt.peerUnsubscribed { s with queue := q } p t).drops = s.drops ∧
            (PubSt.peerUnsubscribed { s with queue := q } p t).queue = q := by
          unfold PubSt.peerUnsubscribed
          cases hg : AMap.get s.peers p with
          | none => exact ⟨hpu, rfl, rfl, rfl, rfl⟩
          | some ts =>
            simp only
            split
            · refine ⟨⟨⟨h.core.nodup, h.core.same, h.core.owner⟩, h.notice, h.uniq.erase _, ?_⟩, rfl, rfl, rfl, rfl⟩
              intro p' ts' hp'
              simp only [AMap.get_erase] at hp'
              split at hp'
              · cases hp'
              · exact h.full p' ts' hp'
            · next hne =>
              refine ⟨⟨⟨h.core.nodup, h.core.same, h.core.owner⟩, h.notice, h.uniq.set _ _, ?_⟩, rfl, rfl, rfl, rfl⟩
              intro p' ts' hp'
              simp only [AMap.get_set] at hp'
              split at hp'
              · cases hp'
                refine ⟨by simpa using hne, ?_⟩
                by_cases hm : t ∈ ts
                · exact (List.nodup_cons.1 ((swapRemove_perm hm).nodup_iff.2 (h.full p ts hg).2)).2
                · rw [swapRemove_absent hm]; exact (h.full p ts hg).2
              · exact h.full p' ts' hp'
        obtain ⟨k1, k2, k3, k4, k5⟩ := key
        refine ⟨_, .polled none, by simp only [PubSt.step, hq, PubSt.handle, Except.map], k1, by simp [arrivals, handledBy, hq, k5], fun t ht => .inl (k4 ▸ ht),
          fun i st hi => ⟨st, by rw [k3]; exact hi, rfl, by simp, by simp [readFrom, mentions, handledBy, hq], by rw [k2]; exact id, fun x _ _ _ => by rw [k2]; exact x⟩⟩
      | message m =>
        obtain ⟨s', hs', hc, hn, hl, hmd, hst⟩ := sendAll_spec m m.topics hcore
        refine ⟨s', .polled none, by simp [PubSt.step, hq, PubSt.handle, Except.map, hs'], ⟨hc, ?_, hn.peers ▸ h.uniq, hn.peers ▸ h.full⟩, by simp [arrivals, handledBy, hq, hn.queue], fun t ht => .inl (by simpa [hn.drops] using ht), ?_⟩
        · intro u i st hu hi hd
          have hil : i < s.made.length := hl ▸ (List.getElem?_eq_some_iff.1 hi).1
          obtain ⟨st0, h0⟩ : ∃ st0, s.made[i]? = some st0 := ⟨_, List.getElem?_eq_getElem hil⟩
          have h1 := hmd i st0 h0
          rw [hi] at h1; cases h1
          rw [hn.drops]
          exact h.notice u i st0 ((hst u i st0 h0).1 hu).1 h0 hd
        · intro i st hi
          refine ⟨_, hmd i st hi, rfl, by simp, ?_, fun hx => ((hst _ i st hi).1 hx).1, fun hr ha _ _ => (hst _ i st hi).2 ⟨hr, .inl ha⟩⟩
          intro ha
          simp only at ha
          simp only [readFrom, List.nil_append, ha, true_and, handledBy, hq, List.head?_cons, Option.toList_some, mentions, List.append_nil]
          split <;> simp

theorem pub_run {s : PubSt} (h : PubInv s) (ops : List PubOp) : ∃ s' as, s.run ops = .ok (s', as) ∧ PubInv s' := by
  induction ops generalizing s with
  | nil => exact ⟨s, [], rfl, h⟩
  | cons op ops ih =>
    obtain ⟨s1, a, h1, hs1⟩ := pub_step h op
    obtain ⟨s2, as, h2, hi2⟩ := ih hs1.inv
    exact ⟨s2, a :: as, by simp [PubSt.run, h1, h2], hi2⟩

theorem reach_inv {s : PubSt} (h : PubReach s) : PubInv s := by
  obtain ⟨ops, as, hr⟩ := h
  obtain ⟨s', as', hr', hi⟩ := pub_run PubInv.init ops
  rw [hr] at hr'; cases hr'
  exact hi

theorem pub_run_cons {s s' : PubSt} {op : PubOp} {ops : List PubOp} {as : List PubAns} (h : PubInv s)
    (hr : s.run (op :: ops) = .ok (s', as)) : ∃ s1 a as', s.step op = .ok (s1, a) ∧ PubStep s op s1 a ∧
      s1.run ops = .ok (s', as') ∧ as = a :: as' := by
  obtain ⟨s1, a, h1, hs1⟩ := pub_step h op
  obtain ⟨s2, as', h2, -⟩ := pub_run hs1.inv ops
  simp only [PubSt.run, h1, h2] at hr
  cases hr
  exact ⟨s1, a, as', h1, hs1, h2, rfl⟩

theorem pub_run_append {a b : List PubOp} : ∀ {s s1 s2 : PubSt} {x y : List PubAns}, s.run a = .ok (s1, x) →
    s1.run b = .ok (s2, y) → s.run (a ++ b) = .ok (s2, x ++ y) := by
  induction a with
  | nil => intro s s1 s2 x y h1 h2; cases h1; exact h2
  | cons op a ih =>
    intro s s1 s2 x y h1 h2
    simp only [PubSt.run, List.cons_append] at h1 ⊢
    cases hs : s.step op with
    | error e => rw [hs] at h1; cases h1
    | ok r =>
      obtain ⟨s0, a0⟩ := r
      rw [hs] at h1
      simp only at h1 ⊢
      cases hr : s0.run a with
      | error e => rw [hr] at h1; cases h1
      | ok r =>
        obtain ⟨s0', as'⟩ := r
        rw [hr] at h1; cases h1
        rw [ih hr h2]; rfl

/-! ### `poll` as a sequence of its rounds -/

theorem unsubscribe_drops (s : PubSt) (x : List Topic) (t : Topic) :
    PubSt.unsubscribe { s with drops := x } t = (s.unsubscribe t).map (fun r => ({ r.1 with drops := x }, r.2)) := by
  unfold PubSt.unsubscribe
  cases AMap.get s.streams t with
  | none => rfl
  | some i =>
    simp only
    cases hf : floodUnsubscribe s.topics t with
    | mk a b => cases b <;> rfl

theorem handleDrops_drops (x : List Topic) (ts : List Topic) : ∀ s : PubSt,
    PubSt.handleDrops { s with drops := x } ts = (s.handleDrops ts).map (fun r => { r with drops := x }) := by
  induction ts with
  | nil => intro s; rfl
  | cons t ts ih =>
    intro s
    simp only [PubSt.handleDrops, unsubscribe_drops]
    cases s.unsubscribe t with
    | error e => rfl
    | ok r => exact ih r.1

theorem drains_run (ds : List Topic) : ∀ {s s0 : PubSt}, s.drops = ds → s.handleDrops ds = .ok s0 →
    ∃ as, s.run (List.replicate ds.length .drain) = .ok ({ s0 with drops := [] }, as) := by
  induction ds with
  | nil =>
    intro s s0 hd h
    cases h
    refine ⟨[], ?_⟩
    cases s
    simp only at hd
    subst hd; rfl
  | cons t ts ih =>
    intro s s0 hd h
    simp only [PubSt.handleDrops] at h
    cases hu : s.unsubscribe t with
    | error e => rw [hu] at h; cases h
    | ok r =>
      rw [hu] at h
      simp only at h
      have h2 : PubSt.handleDrops { r.1 with drops := ts } ts = .ok { s0 with drops := ts } := by
        rw [handleDrops_drops, h]; rfl
      obtain ⟨as, has⟩ := ih rfl h2
      refine ⟨.nothing :: as, ?_⟩
      simp only [List.length_cons, List.replicate_succ, PubSt.run, PubSt.step, hd]
      rw [unsubscribe_drops, hu]
      simp only [Except.map]
      rw [has]

theorem handle_ok {s : PubSt} (h : PubInv s) {e : FloodEv} {q : List FloodEv} (hq : s.queue = e :: q) :
    ∃ s' n, PubSt.handle { s with queue := q } e = .ok (s', n) ∧ s.step .serve = .ok (s', .polled n) ∧
      PubInv s' ∧ s'.queue = q ∧ s'.drops = s.drops ∧ (n = none ∨ ∃ k, e = .action k) := by
  obtain ⟨s', a, hs, hst⟩ := pub_step h .serve
  have hqq := hst.queue
  simp only [arrivals, handledBy, hq, List.append_nil, List.head?_cons, Option.toList_some,
    List.singleton_append, List.cons.injEq, true_and] at hqq
  have hs' := hs
  simp only [PubSt.step, hq] at hs'
  cases hh : PubSt.handle { s with queue := q } e with
  | error x => rw [hh] at hs'; cases hs'
  | ok r =>
    obtain ⟨r1, n⟩ := r
    rw [hh] at hs'
    simp only [Except.map, Except.ok.injEq, Prod.mk.injEq] at hs'
    obtain ⟨rfl, rfl⟩ := hs'
    refine ⟨r1, n, rfl, hs, hst.inv, hqq.symm, ?_, ?_⟩
    · cases e with
      | action k => cases hh; rfl
      | subscribed p t => cases hh; rfl
      | unsubscribed p t =>
        simp only [PubSt.handle, Except.ok.injEq, Prod.mk.injEq] at hh
        obtain ⟨rfl, -⟩ := hh
        unfold PubSt.peerUnsubscribed
        cases AMap.get s.peers p with
        | none => rfl
        | some ts => simp only; split <;> rfl
      | message m =>
        have hcore : PubCore { s with queue := q } := ⟨h.core.nodup, h.core.same, h.core.owner⟩
        obtain ⟨s2, hs2, -, hn, -⟩ := sendAll_spec m m.topics hcore
        simp only [PubSt.handle, hs2, Except.map, Except.ok.injEq, Prod.mk.injEq] at hh
        obtain ⟨rfl, -⟩ := hh
        exact hn.drops
    · cases e with
      | action k => exact .inr ⟨k, rfl⟩
      | subscribed p t => cases hh; exact .inl rfl
      | unsubscribed p t => cases hh; exact .inl rfl
      | message m =>
        simp only [PubSt.handle] at hh
        cases hx : PubSt.sendAll { s with queue := q } m m.topics with
        | error y => rw [hx] at hh; cases hh
        | ok y => rw [hx] at hh; cases hh; exact .inl rfl

theorem serves_run (q : List FloodEv) : ∀ {s : PubSt}, PubInv s → s.queue = q →
    ∃ s' n k as, s.handleQueue q = .ok (s', n) ∧ s.run (List.replicate k .serve) = .ok (s', as) ∧
      s'.drops = s.drops ∧ (n = none → s'.queue = []) := by
  induction q with
  | nil =>
    intro s h hq
    have : ({ s with queue := [] } : PubSt) = s := by cases s; simp only at hq; subst hq; rfl
    exact ⟨s, none, 0, [], by simp [PubSt.handleQueue, this], rfl, rfl, fun _ => hq⟩
  | cons e q ih =>
    intro s h hq
    obtain ⟨s1, n, hh, hs, hi, hq1, hd, -⟩ := handle_ok h hq
    cases n with
    | some n =>
      refine ⟨s1, some n, 1, [.polled (some n)], by simp [PubSt.handleQueue, hh], ?_, hd, by simp⟩
      simp [PubSt.run, List.replicate_succ, hs]
    | none =>
      obtain ⟨s2, n2, k, as, h1, h2, h3, h4⟩ := ih hi hq1
      refine ⟨s2, n2, k + 1, .polled none :: as, by simp [PubSt.handleQueue, hh, h1], ?_, h3.trans hd, h4⟩
      simp [PubSt.run, List.replicate_succ, hs, h2]

theorem handleDrops_ok (ds : List Topic) : ∀ {s : PubSt}, PubCore s → ∃ s', s.handleDrops ds = .ok s' ∧ SameNet s s' := by
  induction ds with
  | nil => intro s _; exact ⟨s, rfl, .refl s⟩
  | cons t ts ih =>
    intro s h
    obtain ⟨s1, b, h1, hc, -, -, hn, -⟩ := unsubscribe_spec h t
    obtain ⟨s2, h2, hn2⟩ := ih hc
    exact ⟨s2, by simp [PubSt.handleDrops, h1, h2], hn.trans hn2⟩

theorem poll_run {s : PubSt} (h : PubInv s) : ∃ s' n k l as, s.poll = .ok (s', n) ∧
    s.run (List.replicate k .drain ++ List.replicate l .serve) = .ok (s', as) ∧ s'.drops = [] ∧
    (n = none → s'.queue = []) := by
  obtain ⟨s0, h0, hn⟩ := handleDrops_ok s.drops h.core
  obtain ⟨x, hx⟩ := drains_run s.drops rfl h0
  obtain ⟨s1, y, h1, hi⟩ := pub_run h (List.replicate s.drops.length .drain)
  rw [hx] at h1; cases h1
  obtain ⟨s2, n, k, as, h2, h3, h4, h5⟩ := serves_run s.queue hi hn.queue
  exact ⟨s2, n, _, k, _, by simp [PubSt.poll, h0, h2], pub_run_append hx h3, h4, h5⟩

/-! ## C47 -/

/-- No assertion fails, in any history nor in a `poll` after it, which is a history of its rounds. -/
theorem C47_no_abort : (∀ ops, ∃ s as, PubSt.init.run ops = .ok (s, as)) ∧
    ∀ s, PubReach s → ∃ s' n, s.poll = .ok (s', n) ∧ PubReach s' := by
  constructor
  · intro ops
    obtain ⟨s, as, h, -⟩ := pub_run PubInv.init ops
    exact ⟨s, as, h⟩
  · intro s hs
    obtain ⟨ops, as, hr⟩ := hs
    obtain ⟨s', n, k, l, as', h1, h2, -⟩ := poll_run (reach_inv ⟨ops, as, hr⟩)
    exact ⟨s', n, h1, _, _, pub_run_append hr h2⟩

/-- `subscribe` gives a stream exactly when the topic is not registered; then it is registered for the new
stream, which is empty. The others stay as they were. -/
theorem C47_subscribe (s : PubSt) (hs : PubReach s) (t : Topic) : ∃ s' r, s.step (.subscribe t) = .ok (s', .stream r) ∧
    (r.isSome = true ↔ t ∉ s.subscribedTopics) ∧ (r = none → s' = s) ∧
    ∀ i, r = some i → s.made[i]? = none ∧ s'.made[i]? = some ⟨t, true, true, []⟩ ∧
      AMap.get s'.streams t = some i ∧ ∀ u, u ≠ t → AMap.get s'.streams u = AMap.get s.streams u := by
  have h := reach_inv hs
  have hk : t ∈ s.subscribedTopics ↔ (AMap.get s.streams t).isSome = true := AMap.mem_keys_iff _ _
  cases hg : AMap.get s.streams t with
  | some i =>
    refine ⟨s, none, by simp [PubSt.step, PubSt.subscribe, hg, Except.map], ?_, fun _ => rfl, by simp⟩
    simp [hk, hg]
  | none =>
    have hm : t ∉ s.topics := by rw [h.core.same t]; simp [hg]
    refine ⟨{ s with topics := s.topics ++ [t], streams := AMap.set s.streams t s.made.length, made := s.made ++ [⟨t, true, true, []⟩] },
      some s.made.length, by simp [PubSt.step, PubSt.subscribe, hg, Except.map, floodSubscribe, hm], ?_, by simp, ?_⟩
    · simp [hk, hg]
    · intro i hi
      cases hi
      refine ⟨by simp, by simp, by simp [AMap.get_set_eq], fun u hu => by simp [AMap.get_set_ne _ _ hu]⟩

/-- `unsubscribe` tells whether the topic was registered; it is not any more, nothing else changes, and its
stream ends once it has been read. -/
theorem C47_unsubscribe (s : PubSt) (hs : PubReach s) (t : Topic) : ∃ s', s.step (.unsubscribe t) =
      .ok (s', .was (decide (t ∈ s.subscribedTopics))) ∧
    (∀ u, u ∈ s'.subscribedTopics ↔ u ∈ s.subscribedTopics ∧ u ≠ t) ∧
    (∀ u, u ≠ t → AMap.get s'.streams u = AMap.get s.streams u) ∧ s'.made = s.made ∧
    ∀ (i : Nat) (st : PubStream), s.made[i]? = some st → st.topic = t → st.alive = true → st.inbox = [] →
      (s'.readStream i).2 = .ended := by
  obtain ⟨s', b, hs', hc, hb, hm, hn, hget⟩ := unsubscribe_spec (reach_inv hs).core t
  have hk : ∀ (s : PubSt) t, t ∈ s.subscribedTopics ↔ (AMap.get s.streams t).isSome = true :=
    fun s t => AMap.mem_keys_iff _ _
  refine ⟨s', ?_, ?_, fun u hu => by rw [hget, if_neg hu], hm, ?_⟩
  · simp only [PubSt.step, hs', Except.map, hb, hk]
    simp
  · intro u
    rw [hk, hk, hget]
    by_cases hu : u = t <;> simp [hu]
  · intro i st hi ht ha hin
    subst ht
    simp [PubSt.readStream, hm, hi, ha, hin, hget]

/-- What a read gives: the oldest message, `Pending` while the stream is registered, the end otherwise. -/
theorem C47_read (s : PubSt) (i : Nat) (st : PubStream) (hi : s.made[i]? = some st) (ha : st.alive = true) :
    (s.readStream i).2 = match st.inbox with
      | m :: _ => .item m
      | [] => if AMap.get s.streams st.topic = some i then .pending else .ended := by
  simp only [PubSt.readStream, hi, ha, if_true]
  cases st.inbox with
  | cons m rest => rfl
  | nil => simp only; split <;> rfl

theorem pub_kept {ops : List PubOp} : ∀ {s s' : PubSt} {as : List PubAns}, PubInv s → s.run ops = .ok (s', as) →
    ∀ (j : Nat) (sj : PubStream), s.made[j]? = some sj → ∃ sj', s'.made[j]? = some sj' ∧ sj'.topic = sj.topic ∧
      (sj'.alive = true → sj.alive = true) := by
  induction ops with
  | nil => intro s s' as _ hr j sj hj; cases hr; exact ⟨sj, hj, rfl, id⟩
  | cons op ops ih =>
    intro s s' as h hr j sj hj
    obtain ⟨s1, a, as', h1, hs1, hr', -⟩ := pub_run_cons h hr
    obtain ⟨s1j, a1, a2, a3, -⟩ := hs1.stream j sj hj
    obtain ⟨sj', b1, b2, b3⟩ := ih hs1.inv hr' j s1j a1
    exact ⟨sj', b1, b2.trans a2, fun hx => (a3.1 (b3 hx)).1⟩

theorem readFrom_cons (i : Nat) (a : PubAns) (as : List PubAns) : readFrom i (a :: as) = readFrom i [a] ++ readFrom i as := by
  cases a with
  | read j r => cases r <;> simp [readFrom]
  | _ => simp [readFrom]

theorem mentions_append (t : Topic) (a b : List FloodEv) : mentions t (a ++ b) = mentions t a ++ mentions t b := by
  induction a with
  | nil => rfl
  | cons e a ih => cases e <;> simp [mentions, ih]

theorem arrivals_append (a b : List PubOp) : arrivals (a ++ b) = arrivals a ++ arrivals b := by
  induction a with
  | nil => rfl
  | cons e a ih => cases e <;> simp [arrivals, ih]

theorem pub_others {i : Nat} {s' : PubSt} {st' : PubStream} (hi' : s'.made[i]? = some st') (ha : st'.alive = true)
    (ops : List PubOp) : ∀ (s : PubSt) (as : List PubAns) (st : PubStream), PubInv s → s.run ops = .ok (s', as) →
      s.made[i]? = some st → AMap.get s.streams st.topic ≠ some i →
      readFrom i as ++ st'.inbox = st.inbox ∧ AMap.get s'.streams st.topic ≠ some i := by
  induction ops with
  | nil =>
    intro s as st _ hr hi hn
    cases hr
    rw [hi] at hi'; cases hi'
    exact ⟨rfl, hn⟩
  | cons op ops ih =>
    intro s as st h hr hi hn
    obtain ⟨s1, a, as', h1, hs1, hr', rfl⟩ := pub_run_cons h hr
    obtain ⟨st1, a1, a2, a3, a4, a5, a6⟩ := hs1.stream i st hi
    obtain ⟨z, b1, b2, b3⟩ := pub_kept hs1.inv hr' i st1 a1
    rw [hi'] at b1; cases b1
    have c4 := a4 (b3 ha)
    rw [if_neg hn, List.append_nil] at c4
    obtain ⟨d1, d2⟩ := ih s1 as' st1 hs1.inv hr' a1 (by rw [a2]; exact fun hx => hn (a5 hx))
    rw [a2] at d2
    refine ⟨?_, d2⟩
    rw [readFrom_cons, List.append_assoc, d1, c4]

/-- A stream that is not registered for its topic gets nothing and never will. -/
theorem C47_others (s : PubSt) (hs : PubReach s) (ops : List PubOp) (s' : PubSt) (as : List PubAns)
    (hr : s.run ops = .ok (s', as)) (i : Nat) (st st' : PubStream) (hi : s.made[i]? = some st)
    (hi' : s'.made[i]? = some st') (ha : st'.alive = true) (hn : AMap.get s.streams st.topic ≠ some i) :
    readFrom i as ++ st'.inbox = st.inbox ∧ AMap.get s'.streams st.topic ≠ some i :=
  pub_others hi' ha ops s as st (reach_inv hs) hr hi hn

/-- What a registered stream got, read or not, is what was handled of the queue until it was no longer
registered: every message as often as it mentions the topic, in order. -/
theorem C47_delivered (s : PubSt) (hs : PubReach s) (ops : List PubOp) (s' : PubSt) (as : List PubAns)
    (hr : s.run ops = .ok (s', as)) (i : Nat) (st st' : PubStream) (hi : s.made[i]? = some st)
    (hi' : s'.made[i]? = some st') (ha : st'.alive = true) (hreg : AMap.get s.streams st.topic = some i) :
    ∃ during after, s.queue ++ arrivals ops = during ++ after ++ s'.queue ∧
      readFrom i as ++ st'.inbox = st.inbox ++ mentions st.topic during ∧
      (AMap.get s'.streams st.topic = some i → after = []) := by
  have h := reach_inv hs
  have key : ∀ (ops : List PubOp) (s : PubSt) (as : List PubAns), PubInv s → s.run ops = .ok (s', as) →
      ∃ done, s.queue ++ arrivals ops = done ++ s'.queue := by
    intro ops
    induction ops with
    | nil => intro s as _ hr; cases hr; exact ⟨[], by simp [arrivals]⟩
    | cons op ops ih =>
      intro s as h hr
      obtain ⟨s1, a, as', h1, hs1, hr', rfl⟩ := pub_run_cons h hr
      obtain ⟨d, hd⟩ := ih s1 as' hs1.inv hr'
      refine ⟨handledBy s op ++ d, ?_⟩
      have := arrivals_append [op] ops
      rw [List.singleton_append] at this
      rw [this, ← List.append_assoc, hs1.queue, List.append_assoc, hd, List.append_assoc]
  clear hs
  induction ops generalizing s as st with
  | nil =>
    cases hr
    rw [hi] at hi'; cases hi'
    exact ⟨[], [], by simp [arrivals], by simp [readFrom, mentions], fun _ => rfl⟩
  | cons op ops ih =>
    obtain ⟨s1, a, as', h1, hs1, hr', rfl⟩ := pub_run_cons h hr
    obtain ⟨st1, a1, a2, a3, a4, a5, a6⟩ := hs1.stream i st hi
    obtain ⟨z, b1, b2, b3⟩ := pub_kept hs1.inv hr' i st1 a1
    rw [hi'] at b1; cases b1
    have c4 := a4 (b3 ha)
    rw [if_pos hreg] at c4
    have harr : s.queue ++ arrivals (op :: ops) = handledBy s op ++ (s1.queue ++ arrivals ops) := by
      have := arrivals_append [op] ops
      rw [List.singleton_append] at this
      rw [this, ← List.append_assoc, hs1.queue, List.append_assoc]
    by_cases hreg1 : AMap.get s1.streams st1.topic = some i
    · obtain ⟨d, e, d1, d2, d3⟩ := ih s1 as' hr' st1 a1 hreg1 hs1.inv
      rw [a2] at d2 d3
      refine ⟨handledBy s op ++ d, e, ?_, ?_, d3⟩
      · rw [harr, d1]; simp
      · rw [readFrom_cons, List.append_assoc, d2, mentions_append, ← List.append_assoc, c4, List.append_assoc]
    · obtain ⟨d, hd⟩ := key ops s1 as' hs1.inv hr'
      have hoth := pub_others hi' ha ops s1 as' st1 hs1.inv hr' a1 hreg1
      refine ⟨handledBy s op, d, ?_, ?_, ?_⟩
      · rw [harr, hd]; simp
      · rw [readFrom_cons, List.append_assoc, hoth.1, c4]
      · intro hx
        rw [a2] at hoth
        exact absurd hx hoth.2

theorem mentions_once {t : Topic} {es : List FloodEv} (h : ∀ m, .message m ∈ es → m.topics.Nodup) :
    mentions t es = onTopic t es := by
  induction es with
  | nil => rfl
  | cons e es ih =>
    have ih := ih (fun m hm => h m (List.mem_cons_of_mem _ hm))
    cases e with
    | message m =>
      simp only [mentions, onTopic, ih]
      have hn := h m (List.mem_cons_self ..)
      by_cases hm : t ∈ m.topics
      · have : m.topics.count t = 1 := by rw [hn.count]; simp [hm]
        simp [this, hm]
      · simp [List.count_eq_zero_of_not_mem hm, hm]
    | _ => simpa [mentions, onTopic] using ih

/-- A message that does not repeat a topic is delivered exactly once to the stream of each of its topics:
while a stream is registered it gets, in order, the messages on its topic, and reads each once. -/
theorem C47_once (s : PubSt) (hs : PubReach s) (ops : List PubOp) (s' : PubSt) (as : List PubAns)
    (hr : s.run ops = .ok (s', as)) (i : Nat) (st st' : PubStream) (hi : s.made[i]? = some st)
    (hi' : s'.made[i]? = some st') (ha : st'.alive = true) (hreg : AMap.get s'.streams st.topic = some i)
    (hne : ∀ m, .message m ∈ s.queue ++ arrivals ops → m.topics.Nodup) :
    ∃ done, s.queue ++ arrivals ops = done ++ s'.queue ∧
      readFrom i as ++ st'.inbox = st.inbox ++ onTopic st.topic done := by
  by_cases h0 : AMap.get s.streams st.topic = some i
  · obtain ⟨d, e, h1, h2, h3⟩ := C47_delivered s hs ops s' as hr i st st' hi hi' ha h0
    have := h3 hreg
    subst this
    rw [List.append_nil] at h1
    refine ⟨d, h1, ?_⟩
    rw [h2, mentions_once]
    intro m hm
    exact hne m (by rw [h1]; exact List.mem_append_left _ hm)
  · exact absurd hreg (C47_others s hs ops s' as hr i st st' hi hi' ha h0).2

/-- A stream stays registered until its topic is unsubscribed or it is dropped, if in the meantime no other
stream of the topic is dropped and none was before whose notice is still to be read.
Without these the claim fails, see `C47_stale_drop`. -/
theorem C47_kept_partial (s : PubSt) (hs : PubReach s) (ops : List PubOp) (s' : PubSt) (as : List PubAns)
    (hr : s.run ops = .ok (s', as)) (i : Nat) (st : PubStream) (hi : s.made[i]? = some st)
    (ha : st.alive = true) (hreg : AMap.get s.streams st.topic = some i) (hd : st.topic ∉ s.drops)
    (hu : .unsubscribe st.topic ∉ ops)
    (hdr : ∀ j, .dropStream j ∈ ops → ∀ sj, s'.made[j]? = some sj → sj.topic ≠ st.topic) :
    AMap.get s'.streams st.topic = some i := by
  have h := reach_inv hs
  clear hs
  induction ops generalizing s as st with
  | nil => cases hr; exact hreg
  | cons op ops ih =>
    obtain ⟨s1, a, as', h1, hs1, hr', rfl⟩ := pub_run_cons h hr
    obtain ⟨st1, a1, a2, a3, a4, a5, a6⟩ := hs1.stream i st hi
    have hal : st1.alive = true := by
      refine a3.2 ⟨ha, ?_⟩
      rintro rfl
      obtain ⟨z, b1, b2, -⟩ := pub_kept hs1.inv hr' i st1 a1
      exact hdr i (List.mem_cons_self ..) z b1 (b2.trans a2)
    have hreg1 := a6 hreg hal (fun he => hu (he ▸ List.mem_cons_self ..)) (fun hx => hd (List.mem_of_mem_head? hx.2))
    rw [← a2] at hreg1 ⊢
    refine ih s1 as' hr' st1 a1 hal hreg1 ?_ ?_ ?_ hs1.inv
    · rw [a2]
      intro hx
      rcases hs1.drops _ hx with hx | ⟨j, sj, rfl, hj, hjt⟩
      · exact hd hx
      · obtain ⟨s1j, c1, c2, -⟩ := hs1.stream j sj hj
        obtain ⟨z, b1, b2, -⟩ := pub_kept hs1.inv hr' j s1j c1
        exact hdr j (List.mem_cons_self ..) z b1 ((b2.trans c2).trans hjt)
    · rw [a2]; exact fun hx => hu (List.mem_cons_of_mem _ hx)
    · rw [a2]; exact fun j hj => hdr j (List.mem_cons_of_mem _ hj)

/-- After `poll` no dropped stream is registered, so that its topic can be subscribed to again, and if it
gave no action nothing is left to be handled. -/
theorem C47_dropped (s : PubSt) (hs : PubReach s) (s' : PubSt) (n : Option Nat) (hp : s.poll = .ok (s', n)) :
    (∀ t i, AMap.get s'.streams t = some i → ∃ st, s'.made[i]? = some st ∧ st.topic = t ∧ st.alive = true) ∧
    (n = none → s'.queue = []) := by
  obtain ⟨x, m, k, l, as, h1, h2, h3, h4⟩ := poll_run (reach_inv hs)
  rw [hp] at h1; cases h1
  obtain ⟨y, z, h5, hi⟩ := pub_run (reach_inv hs) (List.replicate k .drain ++ List.replicate l .serve)
  rw [h2] at h5; cases h5
  refine ⟨fun t i hti => ?_, h4⟩
  obtain ⟨st, e1, e2, e3⟩ := hi.core.owner t i hti
  refine ⟨st, e1, e2, ?_⟩
  cases hal : st.alive with
  | true => rfl
  | false =>
    have := hi.notice t i st hti e1 hal
    rw [h3] at this; cases this

def exTopicA : Topic := [97]
def exTopicB : Topic := [98]
def exNote (ts : List Topic) : PubMsg := ⟨exPeerA, [1, 2], [0], ts⟩

/-- Two topics with a stream each, a message on both and one on another, and the first stream is read. -/
def exNotes : List PubOp :=
  [.subscribe exTopicA, .subscribe exTopicB, .arrive (.message (exNote [exTopicB, exTopicA])),
   .arrive (.message (exNote [[99]])), .serve, .serve, .readStream 0, .readStream 0, .subscribe exTopicA]

example : (PubSt.init.run exNotes).map (fun x => (x.1.made.map PubStream.inbox, x.2)) =
    .ok ([[], [exNote [exTopicB, exTopicA]]],
      [.stream (some 0), .stream (some 1), .nothing, .nothing, .polled none, .polled none,
        .read 0 (.item (exNote [exTopicB, exTopicA])), .read 0 .pending, .stream none]) := by decide

/-- The hypotheses of `C47_once` and `C47_kept_partial` hold of it from the third step on. -/
example : ∃ s s' as as', PubSt.init.run (exNotes.take 2) = .ok (s, as) ∧ s.run (exNotes.drop 2) = .ok (s', as') ∧
    s.made[0]? = some ⟨exTopicA, true, true, []⟩ ∧ AMap.get s.streams exTopicA = some 0 ∧ exTopicA ∉ s.drops ∧
    s'.made[0]? = some ⟨exTopicA, true, true, []⟩ ∧ AMap.get s'.streams exTopicA = some 0 ∧
    .unsubscribe exTopicA ∉ exNotes.drop 2 ∧ s.queue ++ arrivals (exNotes.drop 2) =
      [.message (exNote [exTopicB, exTopicA]), .message (exNote [[99]])] :=
  ⟨_, _, _, _, rfl, rfl, by decide, by decide, by decide, by decide, by decide, by decide, by decide⟩

/-- A dropped stream is unregistered by the next `poll`, also when a message comes first. -/
example : ((PubSt.init.run [.subscribe exTopicA, .dropStream 0, .arrive (.message (exNote [exTopicA]))]).map
      (fun x => x.1.poll.map (fun y => (y.1.subscribedTopics, y.1.topics)))) = .ok (.ok ([], [])) ∧
    (PubSt.init.run [.subscribe exTopicA, .dropStream 0, .arrive (.message (exNote [exTopicA, exTopicA])), .serve]).map
      (fun x => (x.1.subscribedTopics, x.1.topics)) = .ok ([], []) := by decide

/-- **Not once**: a message which names a topic twice is delivered twice. -/
theorem C47_repeated : (PubSt.init.run [.subscribe exTopicA, .arrive (.message (exNote [exTopicA, exTopicA])), .serve]).map
    (fun x => x.1.made.map PubStream.inbox) = .ok [[exNote [exTopicA, exTopicA], exNote [exTopicA, exTopicA]]] := by
  decide

/-- **Not kept**: unsubscribing, subscribing again and dropping the first stream before it has seen its end
makes the next `poll` unsubscribe the second stream, which ends though nobody asked for it, and messages on
the topic are lost. -/
theorem C47_stale_drop : ∃ s as s' n, PubSt.init.run [.subscribe exTopicA, .unsubscribe exTopicA,
      .subscribe exTopicA, .dropStream 0, .arrive (.message (exNote [exTopicA]))] = .ok (s, as) ∧
    AMap.get s.streams exTopicA = some 1 ∧ s.made[1]? = some ⟨exTopicA, true, true, []⟩ ∧
    s.poll = .ok (s', n) ∧ s'.subscribedTopics = [] ∧ (s'.readStream 1).2 = .ended :=
  ⟨_, _, _, _, rfl, by decide, by decide, rfl, by decide, by decide⟩

/-! ## C48 -/

theorem lastNotice_snoc (p : PeerId) (t : Topic) (es : List FloodEv) (e : FloodEv) :
    lastNotice p t (es ++ [e]) = match e with
      | .subscribed q u => if q = p ∧ u = t then true else lastNotice p t es
      | .unsubscribed q u => if q = p ∧ u = t then false else lastNotice p t es
      | _ => lastNotice p t es := by
  simp only [lastNotice, List.foldl_append, List.foldl_cons, List.foldl_nil]

theorem pub_step_peers {s s' : PubSt} {op : PubOp} {a : PubAns} (h : PubInv s) (hs : s.step op = .ok (s', a)) :
    s'.peers = s.peers ∧ handledBy s op = [] ∨
    ∃ e q, op = .serve ∧ s.queue = e :: q ∧ handledBy s op = [e] ∧ match e with
      | .subscribed p t => s'.peers = (s.peerSubscribed p t).peers
      | .unsubscribed p t => s'.peers = (s.peerUnsubscribed p t).peers
      | _ => s'.peers = s.peers := by
  cases op with
  | subscribe t =>
    left
    refine ⟨?_, rfl⟩
    simp only [PubSt.step, PubSt.subscribe] at hs
    cases hg : AMap.get s.streams t with
    | some i => rw [hg] at hs; cases hs; rfl
    | none =>
      rw [hg] at hs
      simp only at hs
      cases hf : floodSubscribe s.topics t with
      | mk x b => rw [hf] at hs; cases b <;> cases hs; rfl
  | unsubscribe t =>
    left
    obtain ⟨s1, b, h1, -, -, -, hn, -⟩ := unsubscribe_spec h.core t
    simp only [PubSt.step, h1, Except.map] at hs
    cases hs
    exact ⟨hn.peers, rfl⟩
  | dropStream i =>
    left
    cases hs
    refine ⟨?_, rfl⟩
    unfold PubSt.dropStream
    split
    · rfl
    · split <;> rfl
  | readStream i =>
    left
    cases hs
    refine ⟨?_, rfl⟩
    unfold PubSt.readStream
    split
    · rfl
    · split
      · split
        · rfl
        · split <;> rfl
      · rfl
  | addNode p => cases hs; exact .inl ⟨rfl, rfl⟩
  | removeNode p => cases hs; exact .inl ⟨rfl, rfl⟩
  | arrive e => cases hs; exact .inl ⟨rfl, rfl⟩
  | drain =>
    left
    refine ⟨?_, rfl⟩
    simp only [PubSt.step] at hs
    cases hd : s.drops with
    | nil => rw [hd] at hs; cases hs; rfl
    | cons t ts =>
      rw [hd] at hs
      have hcore : PubCore { s with drops := ts } := ⟨h.core.nodup, h.core.same, h.core.owner⟩
      obtain ⟨s1, b, h1, -, -, -, hn, -⟩ := unsubscribe_spec hcore t
      simp only [h1, Except.map] at hs
      cases hs
      exact hn.peers
  | serve =>
    cases hq : s.queue with
    | nil =>
      left
      simp only [PubSt.step, hq] at hs
      cases hs
      exact ⟨rfl, by simp [handledBy, hq]⟩
    | cons e q =>
      right
      refine ⟨e, q, rfl, rfl, by simp [handledBy, hq], ?_⟩
      simp only [PubSt.step, hq] at hs
      cases e with
      | action n => cases hs; rfl
      | message m =>
        have hcore : PubCore { s with queue := q } := ⟨h.core.nodup, h.core.same, h.core.owner⟩
        obtain ⟨s2, hs2, -, hn, -⟩ := sendAll_spec m m.topics hcore
        simp only [PubSt.handle, hs2, Except.map] at hs
        cases hs
        exact hn.peers
      | subscribed p t => cases hs; rfl
      | unsubscribed p t =>
        cases hs
        simp only [PubSt.peerUnsubscribed]
        cases AMap.get s.peers p with
        | none => rfl
        | some ts => simp only; split <;> rfl

/-- The table of peers lists exactly the topics whose last notice was a subscription. -/
def PeersNoticed (s : PubSt) (done : List FloodEv) : Prop :=
  ∀ p t, t ∈ (AMap.get s.peers p).getD [] ↔ lastNotice p t done = true

theorem noticed_step {s s' : PubSt} {op : PubOp} {a : PubAns} {done : List FloodEv} (h : PubInv s)
    (hs : s.step op = .ok (s', a)) (hn : PeersNoticed s done) : PeersNoticed s' (done ++ handledBy s op) := by
  rcases pub_step_peers h hs with ⟨h1, h2⟩ | ⟨e, q, rfl, hq, h2, h3⟩
  · intro p t; rw [h1, h2, List.append_nil]; exact hn p t
  · rw [h2]
    intro p t
    rw [lastNotice_snoc]
    cases e with
    | action n => simp only at h3; rw [h3]; exact hn p t
    | message m => simp only at h3; rw [h3]; exact hn p t
    | subscribed p' t' =>
      simp only at h3
      rw [h3]
      simp only [PubSt.peerSubscribed, AMap.get_set]
      by_cases hp : p = p'
      · subst hp
        simp only [if_true, Option.getD_some, true_and]
        rw [show (t ∈ if t' ∈ (AMap.get s.peers p).getD [] then (AMap.get s.peers p).getD []
            else (AMap.get s.peers p).getD [] ++ [t']) ↔ t ∈ (AMap.get s.peers p).getD [] ∨ t = t' from ?_, hn p t]
        · by_cases ht : t' = t
          · simp [ht]
          · simp [ht, Ne.symm ht]
        · split
          · next hm =>
            constructor
            · exact .inl
            · rintro (hx | rfl)
              · exact hx
              · exact hm
          · simp
      · simp only [hp, if_false, Ne.symm hp, false_and]
        exact hn p t
    | unsubscribed p' t' =>
      simp only at h3
      rw [h3]
      simp only [PubSt.peerUnsubscribed]
      cases hg : AMap.get s.peers p' with
      | none =>
        simp only
        by_cases hx : p' = p ∧ t' = t
        · obtain ⟨rfl, rfl⟩ := hx
          simp [hg]
        · simp only [hx, if_false]; exact hn p t
      | some ts =>
        have hts := (h.full p' ts hg).2
        have hmem : ∀ u, u ∈ swapRemove ts t' ↔ u ∈ ts ∧ u ≠ t' := by
          intro u
          by_cases hm : t' ∈ ts
          · have hp := swapRemove_perm hm
            have hnd := List.nodup_cons.1 (hp.nodup_iff.2 hts)
            have hu := hp.mem_iff (a := u)
            simp only [List.mem_cons] at hu
            constructor
            · intro hx
              exact ⟨hu.1 (.inr hx), by rintro rfl; exact hnd.1 hx⟩
            · rintro ⟨hx, hne⟩
              exact (hu.2 hx).resolve_left hne
          · rw [swapRemove_absent hm]
            exact ⟨fun hx => ⟨hx, by rintro rfl; exact hm hx⟩, And.left⟩
        have hnew : ∀ q u, u ∈ (AMap.get (if (swapRemove ts t').isEmpty then
              { s with peers := AMap.erase s.peers p', view := s.view.filter (fun q => decide (q ≠ p')) }
            else { s with peers := AMap.set s.peers p' (swapRemove ts t') } : PubSt).peers q).getD [] ↔
            if q = p' then u ∈ ts ∧ u ≠ t' else u ∈ (AMap.get s.peers q).getD [] := by
          intro q u
          by_cases he : (swapRemove ts t').isEmpty = true
          · simp only [he, if_true, AMap.get_erase]
            by_cases hq : q = p'
            · simp only [hq, if_true, Option.getD_none]
              rw [← hmem u, List.isEmpty_iff.1 he]
            · simp [hq]
          · rw [if_neg he]
            simp only [AMap.get_set]
            by_cases hq : q = p'
            · simp [hq, hmem u]
            · simp [hq]
        simp only
        rw [hnew p t]
        by_cases hp : p = p'
        · subst hp
          simp only [if_true, true_and]
          have := hn p t
          rw [hg, Option.getD_some] at this
          by_cases ht : t' = t
          · simp [ht]
          · simp [ht, Ne.symm ht, this]
        · simp only [hp, if_false, Ne.symm hp, false_and]
          exact hn p t

theorem noticed_run {ops : List PubOp} : ∀ {s s' : PubSt} {as : List PubAns} {done : List FloodEv}, PubInv s →
    s.run ops = .ok (s', as) → PeersNoticed s done →
    ∃ more, s.queue ++ arrivals ops = more ++ s'.queue ∧ PeersNoticed s' (done ++ more) := by
  induction ops with
  | nil => intro s s' as done _ hr hn; cases hr; exact ⟨[], by simp [arrivals], by simpa using hn⟩
  | cons op ops ih =>
    intro s s' as done h hr hn
    obtain ⟨s1, a, as', h1, hs1, hr', rfl⟩ := pub_run_cons h hr
    obtain ⟨m, hm1, hm2⟩ := ih hs1.inv hr' (noticed_step h h1 hn)
    refine ⟨handledBy s op ++ m, ?_, by rw [← List.append_assoc]; exact hm2⟩
    have := arrivals_append [op] ops
    rw [List.singleton_append] at this
    rw [this, ← List.append_assoc, hs1.queue, List.append_assoc, hm1, List.append_assoc]

/-- Of the notices, those that have been handled: the peers of a topic are exactly those whose last notice on
it was a subscription, the known peers those with some such topic, and none is listed twice. -/
theorem C48_peers (ops : List PubOp) (s : PubSt) (as : List PubAns) (hr : PubSt.init.run ops = .ok (s, as)) :
    ∃ done, arrivals ops = done ++ s.queue ∧
      (∀ t p, p ∈ s.subscribedPeers t ↔ lastNotice p t done = true) ∧
      (∀ p, p ∈ s.knownPeers ↔ ∃ t, lastNotice p t done = true) ∧
      (∀ t, (s.subscribedPeers t).Nodup) ∧ s.knownPeers.Nodup := by
  obtain ⟨done, h1, h2⟩ := noticed_run (done := []) PubInv.init hr (fun p t => by simp [PubSt.init, AMap.get, lastNotice])
  have h := reach_inv ⟨ops, as, hr⟩
  rw [List.nil_append] at h2
  refine ⟨done, by simpa [PubSt.init] using h1, ?_, ?_, ?_, h.uniq⟩
  · intro t p
    rw [← h2 p t]
    simp only [PubSt.subscribedPeers, List.mem_filterMap]
    constructor
    · rintro ⟨⟨q, ts⟩, hm, hx⟩
      simp only at hx
      split at hx
      · next ht =>
        cases hx
        rw [(AMap.mem_iff_get h.uniq p ts).1 hm]
        exact ht
      · cases hx
    · intro ht
      cases hg : AMap.get s.peers p with
      | none => rw [hg] at ht; simp at ht
      | some ts =>
        rw [hg] at ht
        exact ⟨(p, ts), AMap.mem_of_get hg, if_pos ht⟩
  · intro p
    simp only [PubSt.knownPeers, AMap.mem_keys_iff]
    constructor
    · intro hx
      cases hg : AMap.get s.peers p with
      | none => rw [hg] at hx; cases hx
      | some ts =>
        cases hts : ts with
        | nil => exact absurd hts (h.full p ts hg).1
        | cons t l =>
          refine ⟨t, (h2 p t).1 ?_⟩
          rw [hg, hts]; simp
    · rintro ⟨t, ht⟩
      have := (h2 p t).2 ht
      cases hg : AMap.get s.peers p with
      | none => rw [hg] at this; simp at this
      | some ts => rfl
  · intro t
    have : (s.subscribedPeers t).Sublist (AMap.keys s.peers) := by
      simp only [PubSt.subscribedPeers, AMap.keys]
      generalize s.peers = l
      induction l with
      | nil => simp
      | cons e l ih =>
        by_cases he : t ∈ e.2
        · simp only [List.filterMap_cons, he, if_true, List.map_cons]
          exact ih.cons_cons _
        · simp only [List.filterMap_cons, he, if_false, List.map_cons]
          exact ih.cons _
    exact this.nodup h.uniq

/-- Two peers, one of which leaves a topic it was on twice and one it was not on. -/
def exNotices : List PubOp :=
  [.arrive (.subscribed exPeerA exTopicA), .arrive (.subscribed exPeerA exTopicA), .arrive (.subscribed exPeerB exTopicA),
   .arrive (.subscribed exPeerB exTopicB), .arrive (.unsubscribed exPeerA exTopicB), .arrive (.unsubscribed exPeerA exTopicA),
   .arrive (.unsubscribed exPeerB exTopicA), .arrive (.subscribed exPeerA exTopicB),
   .serve, .serve, .serve, .serve, .serve, .serve, .serve]

example : (PubSt.init.run exNotices).map (fun x => (x.1.knownPeers, x.1.subscribedPeers exTopicA,
    x.1.subscribedPeers exTopicB, x.1.queue)) = .ok ([exPeerB], [], [exPeerB], [.subscribed exPeerA exTopicB]) := by
  decide

example : (PubSt.init.run (exNotices.take 11)).map (fun x => (x.1.subscribedPeers exTopicA)) = .ok [exPeerA, exPeerB] := by
  decide

/-- A `poll` that gives no action leaves no notice unhandled. -/
theorem C48_polled (ops : List PubOp) (s s' : PubSt) (as : List PubAns) (hr : PubSt.init.run ops = .ok (s, as))
    (hp : s.poll = .ok (s', none)) :
    (∀ t p, p ∈ s'.subscribedPeers t ↔ lastNotice p t (arrivals ops) = true) ∧
    (∀ p, p ∈ s'.knownPeers ↔ ∃ t, lastNotice p t (arrivals ops) = true) := by
  obtain ⟨x, m, k, l, as', h1, h2, h3, h4⟩ := poll_run (reach_inv ⟨ops, as, hr⟩)
  rw [hp] at h1; cases h1
  obtain ⟨done, a1, a2, a3, -⟩ := C48_peers _ _ _ (pub_run_append hr h2)
  have hq := h4 rfl
  have hz : arrivals (List.replicate k PubOp.drain ++ List.replicate l .serve) = [] := by
    rw [arrivals_append]
    have e1 : arrivals (List.replicate k PubOp.drain) = [] := by
      clear h2 a1
      induction k with
      | zero => rfl
      | succ k ih => simpa [List.replicate_succ, arrivals] using ih
    have e2 : arrivals (List.replicate l PubOp.serve) = [] := by
      clear h2 a1
      induction l with
      | zero => rfl
      | succ k ih => simpa [List.replicate_succ, arrivals] using ih
    rw [e1, e2]; rfl
  rw [arrivals_append, hz, hq, List.append_nil, List.append_nil] at a1
  subst a1
  exact ⟨a2, a3⟩

example : (PubSt.init.run exNotices).map (fun x => x.1.poll.map (fun y => (y.2, y.1.subscribedPeers exTopicB))) =
    .ok (.ok (none, [exPeerB, exPeerA])) := by decide

theorem view_step {s s' : PubSt} {op : PubOp} {a : PubAns} {p : PeerId} (h : PubInv s) (hs : s.step op = .ok (s', a))
    (hne : op ≠ .removeNode p) (hv : p ∈ s.knownPeers → p ∈ s.view) : p ∈ s'.knownPeers → p ∈ s'.view := by
  have frame : s'.peers = s.peers → s'.view = s.view → p ∈ s'.knownPeers → p ∈ s'.view := by
    intro h1 h2
    unfold PubSt.knownPeers at hv ⊢
    rw [h1, h2]; exact hv
  cases op with
  | subscribe t =>
    simp only [PubSt.step, PubSt.subscribe] at hs
    cases hg : AMap.get s.streams t with
    | some i => rw [hg] at hs; cases hs; exact hv
    | none =>
      rw [hg] at hs
      simp only at hs
      cases hf : floodSubscribe s.topics t with
      | mk x b => rw [hf] at hs; cases b <;> cases hs; exact hv
  | unsubscribe t =>
    obtain ⟨s1, b, h1, -, -, -, hn, -⟩ := unsubscribe_spec h.core t
    simp only [PubSt.step, h1, Except.map] at hs
    cases hs
    exact frame hn.peers hn.view
  | dropStream i =>
    cases hs
    apply frame <;> unfold PubSt.dropStream
    · split
      · rfl
      · split <;> rfl
    · split
      · rfl
      · split <;> rfl
  | readStream i =>
    cases hs
    apply frame <;> unfold PubSt.readStream
    · split
      · rfl
      · split
        · split
          · rfl
          · split <;> rfl
        · rfl
    · split
      · rfl
      · split
        · split
          · rfl
          · split <;> rfl
        · rfl
  | addNode q => cases hs; exact fun hk => mem_insertSet.2 (.inl (hv hk))
  | removeNode q =>
    cases hs
    intro hk
    refine List.mem_filter.2 ⟨hv hk, ?_⟩
    simp only [decide_eq_true_eq]
    rintro rfl
    exact hne rfl
  | arrive e => cases hs; exact hv
  | drain =>
    simp only [PubSt.step] at hs
    cases hd : s.drops with
    | nil => rw [hd] at hs; cases hs; exact hv
    | cons t ts =>
      rw [hd] at hs
      have hcore : PubCore { s with drops := ts } := ⟨h.core.nodup, h.core.same, h.core.owner⟩
      obtain ⟨s1, b, h1, -, -, -, hn, -⟩ := unsubscribe_spec hcore t
      simp only [h1, Except.map] at hs
      cases hs
      exact frame hn.peers hn.view
  | serve =>
    simp only [PubSt.step] at hs
    cases hq : s.queue with
    | nil => rw [hq] at hs; cases hs; exact hv
    | cons e q =>
      rw [hq] at hs
      cases e with
      | action n => cases hs; exact hv
      | message m =>
        have hcore : PubCore { s with queue := q } := ⟨h.core.nodup, h.core.same, h.core.owner⟩
        obtain ⟨s2, hs2, -, hn, -⟩ := sendAll_spec m m.topics hcore
        simp only [PubSt.handle, hs2, Except.map] at hs
        cases hs
        exact frame hn.peers hn.view
      | subscribed p' t =>
        cases hs
        intro hk
        refine mem_insertSet.2 ?_
        by_cases hp : p = p'
        · exact .inr hp
        · left
          apply hv
          simp only [PubSt.knownPeers, PubSt.peerSubscribed, AMap.mem_keys_iff, AMap.get_set, hp, if_false] at hk
          exact (AMap.mem_keys_iff _ _).2 hk
      | unsubscribed p' t =>
        cases hs
        simp only [PubSt.peerUnsubscribed]
        cases hg : AMap.get s.peers p' with
        | none => exact hv
        | some ts =>
          simp only
          intro hk
          split
          · next he =>
            rw [if_pos he] at hk
            simp only [PubSt.knownPeers, AMap.mem_keys_iff, AMap.get_erase] at hk
            by_cases hp : p = p'
            · simp [hp] at hk
            · rw [if_neg hp] at hk
              exact List.mem_filter.2 ⟨hv ((AMap.mem_keys_iff _ _).2 hk), by simp [hp]⟩
          · next he =>
            rw [if_neg he] at hk
            simp only [PubSt.knownPeers, AMap.mem_keys_iff, AMap.get_set] at hk
            apply hv
            refine (AMap.mem_keys_iff _ _).2 ?_
            by_cases hp : p = p'
            · rw [hp, hg]; rfl
            · rwa [if_neg hp] at hk

/-- Messages are sent to every known peer: it is in floodsub's view, unless it was removed from there by
`remove_node_from_partial_view`. -/
theorem C48_view (ops : List PubOp) (s : PubSt) (as : List PubAns) (hr : PubSt.init.run ops = .ok (s, as))
    (p : PeerId) (hno : .removeNode p ∉ ops) (hp : p ∈ s.knownPeers) : p ∈ s.view := by
  have gen : ∀ (ops : List PubOp) (s0 : PubSt) (as : List PubAns), PubInv s0 → s0.run ops = .ok (s, as) →
      .removeNode p ∉ ops → (p ∈ s0.knownPeers → p ∈ s0.view) → p ∈ s.knownPeers → p ∈ s.view := by
    intro ops
    induction ops with
    | nil => intro s0 as _ hr _ hv; cases hr; exact hv
    | cons op ops ih =>
      intro s0 as h hr hno hv
      obtain ⟨s1, a, as', h1, hs1, hr', rfl⟩ := pub_run_cons h hr
      exact ih s1 as' hs1.inv hr' (fun hx => hno (List.mem_cons_of_mem _ hx))
        (view_step h h1 (fun he => hno (he ▸ List.mem_cons_self ..)) hv)
  exact gen ops PubSt.init as PubInv.init hr hno (fun hx => by simp [PubSt.init, PubSt.knownPeers, AMap.keys] at hx) hp

example : (PubSt.init.run exNotices).map (fun x => x.1.view) = .ok [exPeerB] := by decide

/-- A peer added by hand is dropped from the view when its last topic goes, though it is still there. -/
theorem C48_view_lost : (PubSt.init.run [.addNode exPeerA, .arrive (.subscribed exPeerA exTopicA),
    .arrive (.unsubscribed exPeerA exTopicA), .serve, .serve]).map (fun x => x.1.view) = .ok [] := by decide

end Verif.Props
