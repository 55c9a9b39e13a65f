import Verif.Http.PubsubHttp
import Verif.Props.HttpSwarm
import Verif.Props.JsonLines
import Verif.Props.Pubsub
import Verif.Props.PubsubSub
import Verif.Props.Publish

/-!
# C82: what a subscriber reads over HTTP is what was published

Specification: `readMessage` is what a client makes of one line, by the names of the fields; `cutLines` and `readLines` are how it cuts
the body.
-/

namespace Verif.Props

open Verif Verif.Http Verif.Ipfs Verif.Net

/-- A field with bytes. -/
def jsonBytes (name : String) (j : Json) : Option Bytes := ((jsonField name j).bind jsonText).bind unbase64

/-- A message, by the names of its fields. -/
def readMessage (j : Json) : Option PubMsg :=
  ((jsonBytes "from" j).bind PeerId.ofBytes).bind (fun source => (jsonBytes "data" j).bind (fun data =>
    (jsonBytes "seqno" j).bind (fun seq => ((jsonField "topicIDs" j).bind jsonTexts).map (fun topics => ⟨source, data, seq, topics⟩))))

/-- One line as a message. -/
def readMsgLine (l : Bytes) : Option PubMsg :=
  match readJson l with
  | some (j, []) => readMessage j
  | _ => none

/-- A message as it may come from the network: its source is a peer id and its topics are texts. -/
def SoundMsg (m : PubMsg) : Prop := m.source.Valid ∧ ∀ t ∈ m.topics, utf8Ok t = true

theorem utf8Ok_base64 (b : Bytes) : utf8Ok (base64 b) = true :=
  utf8Ok_ascii (fun c hc => by
    have := (base64_plain b c hc).1.2
    rw [UInt8.lt_iff_toNat_lt]; exact this)

theorem pubObject_ok (m : PubMsg) (h : SoundMsg m) : Writable (pubObject m) ∧ nesting (pubObject m) ≤ 127 := by
  have hn := nesting_texts (fun t : Bytes => t) m.topics
  have hw := writable_texts (fun t : Bytes => t) m.topics h.2
  have e : m.topics.map (fun t => Json.str t) = m.topics.map Json.str := rfl
  rw [e] at hn hw
  refine ⟨⟨by decide +kernel, utf8Ok_base64 _, by decide +kernel, utf8Ok_base64 _, by decide +kernel, utf8Ok_base64 _, by decide +kernel, hw, trivial⟩, ?_⟩
  simp only [pubObject, nesting, nestingMap] at hn ⊢
  omega

theorem peerId_ofBytes_toBytes (p : PeerId) (h : p.Valid) : PeerId.ofBytes p.toBytes = some p := by
  obtain ⟨code, d⟩ := p
  obtain ⟨h1, h2⟩ := h
  have h3 := PeerId.ofText_toText ⟨code, d⟩ ⟨h1, h2⟩
  unfold PeerId.ofText PeerId.toText at h3
  rw [unbase58_base58] at h3
  exact h3

theorem readMessage_object (m : PubMsg) (h : SoundMsg m) : readMessage (pubObject m) = some m := by
  have f1 : jsonField "from" (pubObject m) = some (.str (base64 m.source.toBytes)) := by
    simp only [jsonField, pubObject, AMap.get]; rw [if_pos trivial]
  have f2 : jsonField "data" (pubObject m) = some (.str (base64 m.data)) := by
    simp only [jsonField, pubObject, AMap.get]; rw [if_neg (by decide +kernel), if_pos trivial]
  have f3 : jsonField "seqno" (pubObject m) = some (.str (base64 m.seq)) := by
    simp only [jsonField, pubObject, AMap.get]; rw [if_neg (by decide +kernel), if_neg (by decide +kernel), if_pos trivial]
  have f4 : jsonField "topicIDs" (pubObject m) = some (.arr (m.topics.map Json.str)) := by
    simp only [jsonField, pubObject, AMap.get]
    rw [if_neg (by decide +kernel), if_neg (by decide +kernel), if_neg (by decide +kernel), if_pos trivial]
  simp only [readMessage, jsonBytes, f1, f2, f3, f4, Option.bind_some, jsonText, unbase64_base64, jsonTexts_str, Option.map_some,
    peerId_ofBytes_toBytes m.source h.1]

/-- **C82**: a client that has the whole body so far reads exactly the messages, in order: who sent them, what they say, their numbers
and all their topics. -/
theorem C82_body (msgs : List PubMsg) (h : ∀ m ∈ msgs, SoundMsg m) :
    ∃ js, readLines (subBody msgs) = some js ∧ readAll readMessage js = some msgs := by
  refine ⟨msgs.map pubObject, ?_, ?_⟩
  · have h1 := C65_lines (msgs.map pubObject) (by
      intro j hj
      obtain ⟨m, hm, rfl⟩ := List.mem_map.mp hj
      exact pubObject_ok m (h m hm))
    rw [List.map_map] at h1
    exact h1
  · have := readAll_map readMessage pubObject (fun m => m) msgs (fun m hm => readMessage_object m (h m hm))
    simpa using this

/-- Two messages: one with bytes that are no text and two topics, and one that is empty. -/
def exHeard : List PubMsg :=
  [⟨⟨0, [1, 2]⟩, [0xff, 10, 0], [7], ["a\nb".toUTF8.toList, "ü".toUTF8.toList]⟩, ⟨⟨mhSha256, List.replicate 32 5⟩, [], [], []⟩]

example : (∀ m ∈ exHeard, SoundMsg m) ∧ (cutLines (subBody exHeard)).1.length = 2 := by
  constructor
  · intro m hm
    simp only [exHeard, List.mem_cons, List.not_mem_nil, or_false] at hm
    rcases hm with rfl | rfl
    · exact ⟨⟨Or.inr ⟨rfl, by decide⟩, by decide⟩, by decide +kernel⟩
    · exact ⟨⟨Or.inl rfl, by decide +kernel⟩, by simp⟩
  · decide +kernel

theorem preformat_line (m : PubMsg) (h : SoundMsg m) : 10 ∉ (pubObject m).write := by
  intro hb
  have := write_graph _ (pubObject_ok m h).1 10 hb
  exact absurd this (by decide)

theorem readMsgLine_write (m : PubMsg) (h : SoundMsg m) : readMsgLine (pubObject m).write = some m := by
  obtain ⟨hw, hn⟩ := pubObject_ok m h
  have h1 := readJson_write (pubObject m) hw hn (by simp [pubObject])
  simp only [readMsgLine, h1]
  exact readMessage_object m h

theorem cutLines_rest (l : Bytes) (h : 10 ∉ l) : cutLines l = ([], l) := by
  induction l with
  | nil => rfl
  | cons c l ih =>
    have hc : c ≠ 10 := fun hc => h (by simp [hc])
    simp only [cutLines, if_neg hc, ih (fun hh => h (by simp [hh]))]

/-- **C82**: at any time, wherever the connection has cut the body, the lines that are complete are exactly the first messages, and none
whose bytes are all there is missing. -/
theorem C82_cut (msgs : List PubMsg) (h : ∀ m ∈ msgs, SoundMsg m) (k : Nat) :
    ∃ n, n ≤ msgs.length ∧ readAll readMsgLine (cutLines ((subBody msgs).take k)).1 = some (msgs.take n) ∧
      ∀ j, (subBody (msgs.take j)).length ≤ k → j ≤ n ∨ msgs.length ≤ n := by
  induction msgs generalizing k with
  | nil => exact ⟨0, by simp, by simp [subBody, cutLines, readAll], fun j _ => .inr (by simp)⟩
  | cons m msgs ih =>
    have hm := h m List.mem_cons_self
    have hsb : ∀ l, subBody (m :: l) = (pubObject m).write ++ 10 :: subBody l := by
      intro l; simp [subBody, preformat, List.append_assoc]
    by_cases hk : (pubObject m).write.length + 1 ≤ k
    · obtain ⟨n, h1, h2, h3⟩ := ih (fun x hx => h x (List.mem_cons_of_mem _ hx)) (k - ((pubObject m).write.length + 1))
      refine ⟨n + 1, by simp only [List.length_cons]; omega, ?_, ?_⟩
      · have ht : (subBody (m :: msgs)).take k = (pubObject m).write ++ 10 :: (subBody msgs).take (k - ((pubObject m).write.length + 1)) := by
          obtain ⟨d, rfl⟩ := Nat.exists_eq_add_of_le hk
          rw [hsb, show (pubObject m).write ++ 10 :: subBody msgs = ((pubObject m).write ++ [10]) ++ subBody msgs by simp,
            List.take_append, List.take_of_length_le (by simp)]
          simp [Nat.add_sub_cancel_left]
        rw [ht, cutLines_line (fun b hb he => preformat_line m hm (he ▸ hb))]
        simp only [readAll, readMsgLine_write m hm, Option.bind_some, h2, Option.map_some, List.take_succ_cons]
      · intro j hj
        cases j with
        | zero => exact .inl (Nat.zero_le _)
        | succ j =>
          rw [List.take_succ_cons, hsb] at hj
          simp only [List.length_append, List.length_cons] at hj
          rcases h3 j (by omega) with hh | hh
          · exact .inl (by omega)
          · exact .inr (by simp only [List.length_cons]; omega)
    · refine ⟨0, Nat.zero_le _, ?_, ?_⟩
      · have ht : (subBody (m :: msgs)).take k = (pubObject m).write.take k := by
          rw [hsb, List.take_append_of_le_length (by omega)]
        rw [ht, cutLines_rest _ (fun hh => preformat_line m hm (List.mem_of_mem_take hh))]
        simp [readAll]
      · intro j hj
        cases j with
        | zero => exact .inl (Nat.le_refl _)
        | succ j =>
          rw [List.take_succ_cons, hsb] at hj
          simp only [List.length_append, List.length_cons] at hj
          omega

/-- The first message of the example is complete after its own bytes and not before. -/
example : readAll readMsgLine (cutLines ((subBody exHeard).take (subBody (exHeard.take 1)).length)).1 = some (exHeard.take 1) ∧
    readAll readMsgLine (cutLines ((subBody exHeard).take ((subBody (exHeard.take 1)).length - 1))).1 = some [] := by decide +kernel

/-- **C82**: in every history of requests, messages, tasks and clients, whoever asked for a topic reads only messages of the topic that
reached the node, in the order in which the node handled them. -/
theorem mentions_mem {t : Topic} {es : List FloodEv} {m : PubMsg} (h : m ∈ mentions t es) : .message m ∈ es := by
  induction es with
  | nil => simp [mentions] at h
  | cons e es ih =>
    cases e with
    | message x =>
      simp only [mentions, List.mem_append] at h
      rcases h with h | h
      · rw [List.eq_of_mem_replicate h]; exact List.mem_cons_self
      · exact List.mem_cons_of_mem _ (ih h)
    | _ => exact List.mem_cons_of_mem _ (ih h)

theorem C82_heard (ops : List SubOp) (hs : ∀ m, FloodEv.message m ∈ subArrivals ops → SoundMsg m) :
    ∃ done, subArrivals ops = done ++ (SubHub.init.run ops).ps.queue ∧
      ∀ (i : Nat) (r : SubReq), (SubHub.init.run ops).reqs[i]? = some r → ∃ js msgs, readLines (subBody r.out) = some js ∧
        readAll readMessage js = some msgs ∧ msgs.Sublist (mentions r.topic done) := by
  obtain ⟨done, h1, h2, -⟩ := C62_output ops
  refine ⟨done, h1, fun i r hr => ?_⟩
  have hsub := h2 i r hr
  obtain ⟨js, e1, e2⟩ := C82_body r.out (fun m hm => by
    have hm' := hsub.subset hm
    refine hs m ?_
    rw [h1]
    refine List.mem_append.2 (.inl ?_)
    exact mentions_mem hm')
  exact ⟨js, r.out, e1, e2, hsub⟩

/-- Two clients of a topic and three messages: the first client has read the first message of the topic. -/
example : ((SubHub.init.run (exSub ++ exSubGoes)).reqs.map (fun r => (readLines (subBody r.out)).bind (readAll readMessage))) =
    [some [exNote [exTopicB, exTopicA]], some []] := by decide +kernel

example : ∀ m, FloodEv.message m ∈ subArrivals (exSub ++ exSubGoes) → SoundMsg m := by
  intro m hm
  simp only [exSub, exSubGoes, subArrivals, List.cons_append, List.nil_append, List.mem_cons, FloodEv.message.injEq, List.not_mem_nil,
    or_false] at hm
  rcases hm with rfl | rfl | rfl <;>
    exact ⟨⟨Or.inl (by decide +kernel), by decide +kernel⟩, by decide +kernel⟩

/-! ### Peers and topics -/

/-- The texts of a list answered. -/
def readStrings (j : Json) : Option (List Bytes) := (jsonField "Strings" j).bind jsonTexts

theorem stringList_heard (lt : NodeFail → Bytes) (l : List Bytes) (h : ∀ t ∈ l, utf8Ok t = true) :
    ∃ j, heardJson (nodeAnswer lt (.json (stringList l))) = some j ∧ readStrings j = some l := by
  have hn := nesting_texts (fun t : Bytes => t) l
  obtain ⟨j, h1, h2⟩ := heard_single lt "Strings" (.arr (l.map Json.str)) (by decide +kernel) (writable_texts (fun t : Bytes => t) l h)
    (Nat.le_trans hn (by decide))
  exact ⟨j, h1, by simp only [readStrings, h2, Option.bind_some, jsonTexts_str]⟩

theorem lastNotice_mem {p : PeerId} {t : Topic} {es : List FloodEv} (h : lastNotice p t es = true) : .subscribed p t ∈ es := by
  induction es using snocInd with
  | nil => simp [lastNotice] at h
  | snoc es e ih =>
    rw [lastNotice_snoc] at h
    cases e with
    | subscribed q u =>
      simp only at h
      split at h
      · next hh => obtain ⟨rfl, rfl⟩ := hh; simp
      · exact List.mem_append.2 (.inl (ih h))
    | unsubscribed q u =>
      simp only at h
      split at h
      · cases h
      · exact List.mem_append.2 (.inl (ih h))
    | message m => exact List.mem_append.2 (.inl (ih h))
    | action n => exact List.mem_append.2 (.inl (ih h))

/-- The peers a client is told. -/
def peersTold (answer : Option (Nat × Bytes)) : Option (List PeerId) :=
  (heardJson answer).bind (fun j => (readStrings j).bind (readAll PeerId.ofText))

theorem peersTold_list (lt : NodeFail → Bytes) (l : List PeerId) (h : ∀ p ∈ l, p.Valid) :
    peersTold (nodeAnswer lt (.json (stringList (l.map PeerId.toText)))) = some l := by
  obtain ⟨j, h1, h2⟩ := stringList_heard lt (l.map PeerId.toText) (fun t ht => by
    obtain ⟨p, -, rfl⟩ := List.mem_map.1 ht
    exact utf8Ok_peer p)
  have := readAll_map PeerId.ofText PeerId.toText (fun p => p) l (fun p hp => PeerId.ofText_toText p (h p hp))
  simp only [peersTold, h1, Option.bind_some, h2, this, List.map_id']

/-- **C82**: who asks for the peers of a topic reads, after every history, each peer whose last notice on the topic that the node has
handled was a subscription, once; who names no topic reads those that have a topic; a query with two topics is refused. -/
theorem C82_peers (q : QueryEnv) (lt : NodeFail → Bytes) (ops : List PubOp) (s : PubSt) (as : List PubAns)
    (hr : PubSt.init.run ops = .ok (s, as)) (hv : ∀ p t, .subscribed p t ∈ arrivals ops → p.Valid) :
    ∃ done, arrivals ops = done ++ s.queue ∧ ∀ query ps, Decoded q query ps →
      (∀ t, GivenOnce "arg".toUTF8.toList t ps → ∃ told, peersTold (nodeAnswer lt (pubsubPeers q (some s) query)) = some told ∧
        told.Nodup ∧ ∀ p, p ∈ told ↔ lastNotice p t done = true) ∧
      ((∀ e ∈ ps, e.1 ≠ "arg".toUTF8.toList) → ∃ told, peersTold (nodeAnswer lt (pubsubPeers q (some s) query)) = some told ∧
        told.Nodup ∧ ∀ p, p ∈ told ↔ ∃ t, lastNotice p t done = true) ∧
      ((∃ e ∈ ps, e.1 = "arg".toUTF8.toList) → (∀ t, ¬ GivenOnce "arg".toUTF8.toList t ps) →
        ∀ node, pubsubPeers q node query = .failed .badQuery) := by
  obtain ⟨done, h1, h2, h3, h4, h5⟩ := C48_peers ops s as hr
  refine ⟨done, h1, fun query ps hd => ?_⟩
  have hp := (decoded_iff _ _ _).mp hd
  have hval : ∀ p t, lastNotice p t done = true → p.Valid := fun p t hl =>
    hv p t (by rw [h1]; exact List.mem_append.2 (.inl (lastNotice_mem hl)))
  rw [← kArg_eq]
  refine ⟨fun t ht => ⟨s.subscribedPeers t, ?_, h4 t, h2 t⟩, fun ht => ⟨s.knownPeers, ?_, h5, h3⟩, fun ⟨e, he, hk⟩ hn node => ?_⟩
  · have hq : queryField some kArg ps = .ok (some t) := queryField_iff.mpr ⟨t, ht, rfl⟩
    simp only [pubsubPeers, hp, hq, peersOf]
    exact peersTold_list lt _ (fun p hpt => hval p t ((h2 t p).1 hpt))
  · have hq : queryField some kArg ps = .ok none := queryField_iff.mpr ht
    simp only [pubsubPeers, hp, hq, peersOf]
    exact peersTold_list lt _ (fun p hpt => by
      obtain ⟨t, hl⟩ := (h3 p).1 hpt
      exact hval p t hl)
  · cases hq : queryField some kArg ps with
    | error e => simp only [pubsubPeers, hp, hq]
    | ok x =>
      have hg := queryField_iff.mp hq
      cases x with
      | none => exact absurd hk (hg e he)
      | some v =>
        obtain ⟨w, hw, -⟩ := hg
        exact absurd hw (hn w)

theorem unsubscribe_streams {s s' : PubSt} {t : Topic} {b : Bool} (h : s.unsubscribe t = .ok (s', b)) (hu : AMap.Uniq s.streams) :
    AMap.Uniq s'.streams ∧ ∀ u ∈ AMap.keys s'.streams, u ∈ AMap.keys s.streams := by
  unfold PubSt.unsubscribe at h
  split at h
  · cases h; exact ⟨hu, fun u hh => hh⟩
  · split at h
    · cases h
    · cases h
      refine ⟨hu.erase _, fun u hh => ?_⟩
      simp only [AMap.keys_erase] at hh
      exact (List.mem_filter.1 hh).1

theorem send_streams {s s' : PubSt} {m : PubMsg} {t : Topic} (h : s.send m t = .ok s') (hu : AMap.Uniq s.streams) :
    AMap.Uniq s'.streams ∧ ∀ u ∈ AMap.keys s'.streams, u ∈ AMap.keys s.streams := by
  have key : (s.unsubscribe t).map Prod.fst = .ok s' → AMap.Uniq s'.streams ∧ ∀ u ∈ AMap.keys s'.streams, u ∈ AMap.keys s.streams := by
    intro h
    cases hh : s.unsubscribe t with
    | error p => rw [hh] at h; cases h
    | ok x => rw [hh] at h; cases h; exact unsubscribe_streams (b := x.2) hh hu
  unfold PubSt.send at h
  split at h
  · cases h; exact ⟨hu, fun u hh => hh⟩
  · split at h
    · split at h
      · cases h; exact ⟨hu, fun u hh => hh⟩
      · exact key h
    · exact key h

theorem sendAll_streams (m : PubMsg) (ts : List Topic) : ∀ {s s' : PubSt}, s.sendAll m ts = .ok s' → AMap.Uniq s.streams →
    AMap.Uniq s'.streams ∧ ∀ u ∈ AMap.keys s'.streams, u ∈ AMap.keys s.streams := by
  induction ts with
  | nil => intro s s' h hu; cases h; exact ⟨hu, fun u hh => hh⟩
  | cons t ts ih =>
    intro s s' h hu
    simp only [PubSt.sendAll] at h
    split at h
    · cases h
    · next s1 h1 =>
      obtain ⟨a1, a2⟩ := send_streams h1 hu
      obtain ⟨b1, b2⟩ := ih h a1
      exact ⟨b1, fun u hh => a2 u (b2 u hh)⟩

theorem streams_step {s s' : PubSt} {op : PubOp} {a : PubAns} (h : s.step op = .ok (s', a)) (hu : AMap.Uniq s.streams) :
    AMap.Uniq s'.streams ∧ ∀ t ∈ AMap.keys s'.streams, t ∈ AMap.keys s.streams ∨ op = .subscribe t := by
  have same : s'.streams = s.streams → AMap.Uniq s'.streams ∧ ∀ t ∈ AMap.keys s'.streams, t ∈ AMap.keys s.streams ∨ op = .subscribe t :=
    fun e => by rw [e]; exact ⟨hu, fun t ht => .inl ht⟩
  cases op with
  | subscribe t =>
    simp only [PubSt.step, PubSt.subscribe] at h
    split at h
    · cases h; exact same rfl
    · split at h
      · cases h
      · cases h
        refine ⟨hu.set _ _, fun u hh => ?_⟩
        rw [AMap.mem_keys_iff, AMap.get_set] at hh
        by_cases hut : u = t
        · exact .inr (by rw [hut])
        · rw [if_neg hut] at hh
          exact .inl ((AMap.mem_keys_iff _ _).2 hh)
  | unsubscribe t =>
    simp only [PubSt.step] at h
    cases hh : s.unsubscribe t with
    | error p => rw [hh] at h; cases h
    | ok x =>
      rw [hh] at h; cases h
      obtain ⟨a1, a2⟩ := unsubscribe_streams (b := x.2) hh hu
      exact ⟨a1, fun u hu => .inl (a2 u hu)⟩
  | dropStream i =>
    simp only [PubSt.step] at h
    cases h
    refine same ?_
    unfold PubSt.dropStream
    split
    · rfl
    · split <;> rfl
  | readStream i =>
    simp only [PubSt.step] at h
    cases h
    refine same ?_
    unfold PubSt.readStream
    split
    · rfl
    · split
      · split
        · rfl
        · split <;> rfl
      · rfl
  | addNode p => cases h; exact same rfl
  | removeNode p => cases h; exact same rfl
  | arrive e => cases h; exact same rfl
  | drain =>
    simp only [PubSt.step] at h
    split at h
    · cases h; exact same rfl
    · next t ts hd =>
      cases hh : PubSt.unsubscribe { s with drops := ts } t with
      | error p => rw [hh] at h; cases h
      | ok x =>
        rw [hh] at h; cases h
        obtain ⟨a1, a2⟩ := unsubscribe_streams (s := { s with drops := ts }) (b := x.2) hh hu
        exact ⟨a1, fun u hu => .inl (a2 u hu)⟩
  | serve =>
    simp only [PubSt.step] at h
    split at h
    · cases h; exact same rfl
    · next e q hq =>
      cases e with
      | action n => cases h; exact same rfl
      | subscribed p t => cases h; exact same rfl
      | unsubscribed p t =>
        cases h
        refine same ?_
        simp only [PubSt.peerUnsubscribed]
        split
        · rfl
        · split <;> rfl
      | message m =>
        simp only [PubSt.handle] at h
        cases hh : PubSt.sendAll { s with queue := q } m m.topics with
        | error p => rw [hh] at h; cases h
        | ok x =>
          rw [hh] at h; cases h
          obtain ⟨a1, a2⟩ := sendAll_streams m m.topics (s := { s with queue := q }) hh hu
          exact ⟨a1, fun u hu => .inl (a2 u hu)⟩

theorem streams_run (ops : List PubOp) : ∀ {s s' : PubSt} {as : List PubAns}, s.run ops = .ok (s', as) → AMap.Uniq s.streams →
    AMap.Uniq s'.streams ∧ ∀ t ∈ AMap.keys s'.streams, t ∈ AMap.keys s.streams ∨ .subscribe t ∈ ops := by
  induction ops with
  | nil => intro s s' as h hu; cases h; exact ⟨hu, fun t ht => .inl ht⟩
  | cons op ops ih =>
    intro s s' as h hu
    simp only [PubSt.run] at h
    split at h
    · cases h
    · next s1 a h1 =>
      split at h
      · cases h
      · next s2 as2 h2 =>
        cases h
        obtain ⟨a1, a2⟩ := streams_step h1 hu
        obtain ⟨b1, b2⟩ := ih h2 a1
        refine ⟨b1, fun t ht => ?_⟩
        rcases b2 t ht with hh | hh
        · rcases a2 t hh with hh | hh
          · exact .inl hh
          · exact .inr (by rw [hh]; exact List.mem_cons_self)
        · exact .inr (List.mem_cons_of_mem _ hh)

/-- **C82**: who asks for the topics reads, after every history, each topic that nobody else may subscribe to now, once. Each of them was
subscribed to by somebody. -/
theorem C82_topics (lt : NodeFail → Bytes) (ops : List PubOp) (s : PubSt) (as : List PubAns) (hr : PubSt.init.run ops = .ok (s, as))
    (hv : ∀ t, .subscribe t ∈ ops → utf8Ok t = true) :
    ∃ j told, heardJson (nodeAnswer lt (pubsubLs (some s))) = some j ∧ readStrings j = some told ∧ told.Nodup ∧
      ∀ t, (t ∈ told → .subscribe t ∈ ops) ∧ (t ∈ told ↔ s.step (.subscribe t) = .ok (s, .stream none)) := by
  obtain ⟨h1, h2⟩ := streams_run ops hr AMap.uniq_nil
  have h3 : ∀ t, t ∈ s.subscribedTopics → .subscribe t ∈ ops := fun t ht => (h2 t ht).resolve_left (by simp [PubSt.init, AMap.keys])
  obtain ⟨j, e1, e2⟩ := stringList_heard lt s.subscribedTopics (fun t ht => hv t (h3 t ht))
  refine ⟨j, _, e1, e2, h1, fun t => ⟨h3 t, ?_⟩⟩
  obtain ⟨s', r, c1, c2, c3, -⟩ := C47_subscribe s ⟨ops, as, hr⟩ t
  constructor
  · intro ht
    have hn : r = none := by
      cases r with
      | none => rfl
      | some i => exact absurd ht (c2.1 rfl)
    rw [c1, hn, c3 hn]
  · intro hs
    rw [hs] at c1
    cases c1
    refine Decidable.byContradiction fun hn => ?_
    have := c2.2 hn
    cases this

/-- After the history of C48's example, with two streams. -/
example : (PubSt.init.run [.subscribe exTopicA, .subscribe exTopicB, .unsubscribe exTopicA, .arrive (.subscribed exPeerA exTopicA),
      .arrive (.subscribed exPeerB exTopicB), .serve, .serve]).map (fun x =>
    (peersTold (nodeAnswer (fun _ => []) (pubsubPeers ⟨id, fun _ => none, fun _ _ => none⟩ (some x.1) "arg=a".toUTF8.toList)),
      peersTold (nodeAnswer (fun _ => []) (pubsubPeers ⟨id, fun _ => none, fun _ _ => none⟩ (some x.1) [])),
      ((heardJson (nodeAnswer (fun _ => []) (pubsubLs (some x.1)))).bind readStrings))) =
    .ok (some [exPeerA], some [exPeerA, exPeerB], some [exTopicB]) := by decide +kernel

/-- A node whose background task is gone has no answer. -/
theorem C82_down (q : QueryEnv) (query : Bytes) : pubsubLs none = .failed .down ∧
    ∀ j, pubsubPeers q none query ≠ .json j := by
  refine ⟨rfl, fun j => ?_⟩
  unfold pubsubPeers
  split <;> simp

end Verif.Props
