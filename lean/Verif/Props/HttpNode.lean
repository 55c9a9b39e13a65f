import Verif.Http.Node
import Verif.Props.HttpBootstrap
import Verif.Props.HttpRefs
import Verif.Props.HttpResolve
import Verif.Props.Ipns

/-!
# C75: requests about peers and names over HTTP
-/

namespace Verif.Props

open Verif Verif.Http Verif.Ipfs Verif.Net

/-! ### Specification: what a client reads -/

/-- The document of an answer with the status 200. -/
def heardJson (answer : Option (Nat × Bytes)) : Option Json :=
  match answer with
  | some (200, body) =>
    match readJson body with
    | some (j, []) => some j
    | _ => none
  | _ => none

/-- The status and the message of an answer. -/
def complaint (answer : Option (Nat × Bytes)) : Option (Nat × Bytes) :=
  match answer with
  | some (status, body) =>
    match readJson body with
    | some (.obj ((k, .str m) :: _), []) => if k = "Message".toUTF8.toList then some (status, m) else none
    | _ => none
  | none => none

/-- A field of an object. -/
def jsonField (name : String) : Json → Option Json
  | .obj m => AMap.get m name.toUTF8.toList
  | _ => none

def jsonText : Json → Option Bytes
  | .str s => some s
  | _ => none

def jsonList : Json → Option (List Json)
  | .arr l => some l
  | _ => none

/-- All of them, if each can be read. -/
def readAll {α β : Type} (f : α → Option β) : List α → Option (List β)
  | [] => some []
  | x :: l => (f x).bind (fun y => (readAll f l).map (y :: ·))

/-- A list of texts. -/
def jsonTexts (j : Json) : Option (List Bytes) := (jsonList j).bind (readAll jsonText)

/-- A peer and its addresses in an answer of the DHT. -/
def readMember (j : Json) : Option (PeerId × List Bytes) :=
  ((jsonField "ID" j).bind jsonText).bind (fun id => (PeerId.ofText id).bind (fun p =>
    ((jsonField "Addrs" j).bind jsonTexts).map (fun addrs => (p, addrs))))

/-- The `ID` and the peers of an answer of the DHT. -/
def readDht (j : Json) : Option (Bytes × List (PeerId × List Bytes)) :=
  ((jsonField "ID" j).bind jsonText).bind (fun id =>
    (((jsonField "Responses" j).bind jsonList).bind (readAll readMember)).map (fun l => (id, l)))

/-- A cid in an object. -/
def readSlash (mb : UInt8 → Bytes → Option Bytes) (j : Json) : Option Cid :=
  ((jsonField "/" j).bind jsonText).bind (Cid.ofText mb)

/-- A connection: the peer, the text of its address, and the latency. -/
def readConn (j : Json) : Option (PeerId × Bytes × Json) :=
  ((jsonField "Peer" j).bind jsonText).bind (fun id => (PeerId.ofText id).bind (fun p =>
    ((jsonField "Addr" j).bind jsonText).bind (fun a => (jsonField "Latency" j).map (fun l => (p, a, l)))))

/-! ### Specification: queries -/

/-- The query of a request of the DHT: what it is about and the timeout. -/
def DhtAsked {α : Type} (parse : Bytes → Option α) (q : QueryEnv) (ps : List (Bytes × Bytes)) (a : α) (t : Option Nat) : Prop :=
  Given parse "arg".toUTF8.toList ps (some a) ∧ (∃ v, Given readBool "verbose".toUTF8.toList ps v) ∧
    Given q.duration "timeout".toUTF8.toList ps t

/-- No timeout ends the request. -/
def InTime (t : Option Nat) (elapses : Bool) : Prop := t = none ∨ elapses = false

/-- How the outcome of a call of the node is told: what was found as `good` says, an error with its message, nothing
after a panic, and another error if there was a timeout before. -/
def ToldAs {α : Type} (answer : Option (Nat × Bytes)) (t : Option Nat) (elapses : Bool) (r : DhtRes α) (good : α → Json → Prop) : Prop :=
  (InTime t elapses → ∀ a, r = .ok a → ∃ j, heardJson answer = some j ∧ good a j) ∧
  (InTime t elapses → ∀ m, r = .error m → utf8Ok m = true → complaint answer = some (500, m)) ∧
  (InTime t elapses → r = .panic → answer = none) ∧
  (¬ InTime t elapses → ∃ body, answer = some (500, body))

/-! ### Helpers -/

theorem kVerbose_eq : kVerbose = "verbose".toUTF8.toList := rfl

theorem readAll_map {α β γ : Type} (f : β → Option γ) (g : α → β) (h : α → γ) (l : List α) (he : ∀ x ∈ l, f (g x) = some (h x)) :
    readAll f (l.map g) = some (l.map h) := by
  induction l with
  | nil => rfl
  | cons x l ih =>
    simp only [List.map_cons, readAll]
    rw [he x (by simp), ih (fun y hy => he y (by simp [hy]))]
    rfl

theorem jsonTexts_map {α : Type} (g : α → Bytes) (l : List α) : jsonTexts (.arr (l.map (fun x => .str (g x)))) = some (l.map g) :=
  readAll_map jsonText _ g l (fun _ _ => rfl)

theorem jsonTexts_str (l : List Bytes) : jsonTexts (.arr (l.map Json.str)) = some l := by
  have := jsonTexts_map id l
  simpa using this

theorem heard_write {j : Json} (h : Writable j) (hd : nesting j ≤ 127) (ho : ∀ n, j ≠ .num n) : heardJson (some (200, j.write)) = some j := by
  simp only [heardJson]
  rw [readJson_write j h hd ho]

theorem heard_json (lt : NodeFail → Bytes) {j : Json} (h : Writable j) (hd : nesting j ≤ 127) (ho : ∀ n, j ≠ .num n) :
    heardJson (nodeAnswer lt (.json j)) = some j := heard_write h hd ho

theorem complaint_message (status : Nat) {m : Bytes} (h : utf8Ok m = true) :
    complaint (some (status, (messageResponse m).write)) = some (status, m) := by
  have hw : Writable (messageResponse m) :=
    ⟨by decide +kernel, h, by decide +kernel, ofInt_number 0, by decide +kernel,
      (by show utf8Ok "error".toUTF8.toList = true; decide +kernel), trivial⟩
  simp only [complaint]
  rw [readJson_write _ hw (by simp [messageResponse, nesting, nestingMap]) (by simp [messageResponse])]
  rw [messageResponse]
  simp

theorem peerText_ascii (p : PeerId) : ∀ x ∈ p.toText, x < 0x80 := by
  have h58 : ∀ d < 58, char58 d < 0x80 := by decide +kernel
  intro x hx
  unfold PeerId.toText base58 at hx
  obtain ⟨d, hd, rfl⟩ := List.mem_map.mp hx
  exact h58 d (convert_lt (by decide) _ d hd)

theorem utf8Ok_peer (p : PeerId) : utf8Ok p.toText = true := utf8Ok_ascii (peerText_ascii p)

theorem utf8Ok_addr {show' : Ipfs.Comp → Bytes} (hs : ∀ c, utf8Ok (show' c) = true) (a : Maddr) : utf8Ok (Maddr.text show' a) = true := by
  unfold Maddr.text
  rw [← List.flatMap_def]
  refine utf8Ok_flatMap _ _ (fun c _ => ?_)
  cases c with
  | p2p code d =>
    rw [Comp.text, utf8Ok_append (by decide +kernel)]
    exact utf8Ok_peer ⟨code, d⟩
  | p2pCircuit => show utf8Ok sCircuit = true; decide +kernel
  | _ => exact hs _

theorem dhtQuery_iff {α : Type} (parse : Bytes → Option α) (q : QueryEnv) (query : Bytes) (ps : List (Bytes × Bytes))
    (hd : Decoded q query ps) (a : α) (t : Option Nat) : dhtQuery parse q query = .ok (a, t) ↔ DhtAsked parse q ps a t := by
  have hp := (decoded_iff _ _ _).mp hd
  unfold DhtAsked
  rw [← kArg_eq, ← kTimeout_eq, ← kVerbose_eq, ← parseBool_eq]
  simp only [← queryField_iff, dhtQuery, hp]
  constructor
  · intro h
    split at h
    · rename_i h1 h2 h3
      cases h
      exact ⟨h1, ⟨_, h2⟩, h3⟩
    · cases h
  · rintro ⟨h1, ⟨v, h2⟩, h3⟩
    rw [h1, h2, h3]

theorem dhtQuery_none {α : Type} (parse : Bytes → Option α) (q : QueryEnv) (query : Bytes) (ps : List (Bytes × Bytes))
    (hd : Decoded q query ps) (hn : ∀ a t, ¬ DhtAsked parse q ps a t) : dhtQuery parse q query = .error () := by
  cases h : dhtQuery parse q query with
  | error e => rfl
  | ok x => exact absurd ((dhtQuery_iff parse q query ps hd x.1 x.2).mp h) (hn _ _)

theorem awaited_told {α : Type} (lt : NodeFail → Bytes) (t : Option Nat) (elapses : Bool) (r : DhtRes α) (reply : α → Json)
    (good : α → Json → Prop) (hg : ∀ a, r = .ok a → good a (reply a))
    (hw : ∀ a, r = .ok a → Writable (reply a) ∧ nesting (reply a) ≤ 127 ∧ ∀ n, reply a ≠ .num n) :
    ToldAs (nodeAnswer lt (awaited t elapses r reply)) t elapses r good := by
  have hi : InTime t elapses → ∀ (x : DhtRes α), awaited t elapses x reply =
      (match x with | .ok a => .json (reply a) | .error e => .failed (.call e) | .panic => .closed) := by
    rintro (rfl | rfl) x
    · cases elapses <;> rfl
    · cases t <;> rfl
  refine ⟨fun h a ha => ?_, fun h m hm hu => ?_, fun h hp => ?_, fun h => ?_⟩
  · obtain ⟨h1, h2, h3⟩ := hw a ha
    rw [hi h, ha]
    exact ⟨_, heard_json lt h1 h2 h3, hg a ha⟩
  · rw [hi h, hm]
    exact complaint_message 500 hu
  · rw [hi h, hp]
    rfl
  · unfold InTime at h
    cases t with
    | none => exact absurd (Or.inl rfl) h
    | some d =>
      cases elapses with
      | false => exact absurd (Or.inr rfl) h
      | true => exact ⟨_, rfl⟩

theorem nesting_arr_le {l : List Json} {d : Nat} (h : ∀ j ∈ l, nesting j ≤ d) : nesting (.arr l) ≤ d + 1 := by
  rw [nesting]
  exact Nat.add_le_add_right ((nestingList_le l d).mpr h) 1

theorem nesting_texts {α : Type} (g : α → Bytes) (l : List α) : nesting (.arr (l.map (fun x => .str (g x)))) ≤ 1 := by
  refine nesting_arr_le (d := 0) (fun j hj => ?_)
  obtain ⟨x, -, rfl⟩ := List.mem_map.mp hj
  simp [nesting]

theorem writable_texts {α : Type} (g : α → Bytes) (l : List α) (h : ∀ x ∈ l, utf8Ok (g x) = true) :
    Writable (.arr (l.map (fun x => .str (g x)))) := by
  show WritableList _
  rw [writableList_iff]
  intro j hj
  obtain ⟨x, hx, rfl⟩ := List.mem_map.mp hj
  exact h x hx

theorem member_ok {addrs : List Bytes} {id : Bytes} (ha : ∀ a ∈ addrs, utf8Ok a = true) (hi : utf8Ok id = true) :
    Writable (memberObject addrs id) ∧ nesting (memberObject addrs id) ≤ 2 := by
  have h1 := writable_texts (fun a => a) addrs ha
  have h2 : nesting (.arr (addrs.map Json.str)) ≤ 1 := nesting_texts (fun a => a) addrs
  refine ⟨⟨by decide +kernel, h1, by decide +kernel, hi, trivial⟩, ?_⟩
  simp only [memberObject, nesting, nestingMap] at h2 ⊢
  omega

theorem dht_ok {id : Bytes} {l : List Json} (hi : utf8Ok id = true) (hl : ∀ j ∈ l, Writable j ∧ nesting j ≤ 2) :
    Writable (dhtObject id l) ∧ nesting (dhtObject id l) ≤ 127 ∧ ∀ n, dhtObject id l ≠ .num n := by
  refine ⟨⟨by decide +kernel, (by show utf8Ok [] = true; decide +kernel), by decide +kernel, hi, by decide +kernel,
    (writableList_iff _).mpr (fun j hj => (hl j hj).1), by decide +kernel, ofInt_number 2, trivial⟩, ?_, by simp [dhtObject]⟩
  have := nesting_arr_le (fun j hj => (hl j hj).2)
  simp only [dhtObject, nesting, nestingMap] at this ⊢
  omega

theorem fields_dht (id : Bytes) (l : List Json) :
    jsonField "ID" (dhtObject id l) = some (.str id) ∧ jsonField "Responses" (dhtObject id l) = some (.arr l) := by
  have h1 : "Extra".toUTF8.toList ≠ "ID".toUTF8.toList := by decide +kernel
  have h2 : "Extra".toUTF8.toList ≠ "Responses".toUTF8.toList := by decide +kernel
  have h3 : "ID".toUTF8.toList ≠ "Responses".toUTF8.toList := by decide +kernel
  simp only [jsonField, dhtObject, AMap.get, if_neg h1, if_neg h2, if_neg h3, if_true, and_self]

theorem readMember_object {p : PeerId} (hp : p.Valid) (addrs : List Bytes) : readMember (memberObject addrs p.toText) = some (p, addrs) := by
  have h1 : "Addrs".toUTF8.toList ≠ "ID".toUTF8.toList := by decide +kernel
  have e1 : jsonField "ID" (memberObject addrs p.toText) = some (.str p.toText) := by
    simp only [jsonField, memberObject, AMap.get, if_neg h1, if_true]
  have e2 : jsonField "Addrs" (memberObject addrs p.toText) = some (.arr (addrs.map Json.str)) := by
    simp [jsonField, memberObject, AMap.get]
  simp only [readMember, e1, e2, Option.bind_some, jsonText, PeerId.ofText_toText p hp, jsonTexts_str, Option.map_some]

theorem readDht_object (id : Bytes) {α : Type} (g : α → Json) (h : α → PeerId × List Bytes) (l : List α)
    (he : ∀ x ∈ l, readMember (g x) = some (h x)) : readDht (dhtObject id (l.map g)) = some (id, l.map h) := by
  simp only [readDht, (fields_dht id _).1, (fields_dht id _).2, Option.bind_some, jsonText, jsonList,
    readAll_map readMember g h l he, Option.map_some]

theorem ofText_valid {s : Bytes} {p : PeerId} (h : PeerId.ofText s = some p) : p.Valid := by
  unfold PeerId.ofText at h
  cases hb : unbase58 s with
  | none => rw [hb] at h; cases h
  | some bs => rw [hb] at h; exact PeerId.ofBytes_valid h

theorem asked_valid {q : QueryEnv} {ps : List (Bytes × Bytes)} {p : PeerId} {t : Option Nat} (h : DhtAsked PeerId.ofText q ps p t) :
    p.Valid := by
  obtain ⟨⟨v, -, hv⟩, -⟩ := h
  exact ofText_valid hv

/-! ### C75: the DHT -/

/-- **C75**: who asks where a peer is reads this peer with the texts of just the addresses the node found, in their
order. -/
theorem C75_find_peer (env : NodeEnv) (hs : ∀ c, utf8Ok (env.show' c) = true) (lt : NodeFail → Bytes)
    (node : PeerId → DhtRes (List Maddr)) (elapses : Bool) (query : Bytes) (ps : List (Bytes × Bytes)) (hd : Decoded env.q query ps) :
    (∀ p t, DhtAsked PeerId.ofText env.q ps p t → ToldAs (nodeAnswer lt (dhtFindPeer env node elapses query)) t elapses (node p)
      (fun addrs j => readDht j = some ([], [(p, addrs.map (Maddr.text env.show'))]))) ∧
    ((∀ p t, ¬ DhtAsked PeerId.ofText env.q ps p t) → dhtFindPeer env node elapses query = .failed .badQuery) := by
  constructor
  · intro p t ha
    have hv := asked_valid ha
    rw [dhtFindPeer, (dhtQuery_iff _ _ _ _ hd _ _).mpr ha]
    refine awaited_told lt t elapses (node p) _ _ (fun addrs _ => ?_) (fun addrs _ => ?_)
    · exact readDht_object [] id (fun _ => (p, addrs.map (Maddr.text env.show')))
        [memberObject (addrs.map (Maddr.text env.show')) p.toText] (fun x hx => by
          rw [List.mem_singleton.mp hx]; exact readMember_object hv _)
    · refine dht_ok (by decide +kernel) (fun j hj => ?_)
      rw [List.mem_singleton.mp hj]
      refine member_ok (fun a ha => ?_) (utf8Ok_peer p)
      obtain ⟨m, -, rfl⟩ := List.mem_map.mp ha
      exact utf8Ok_addr hs m
  · intro hn
    rw [dhtFindPeer, dhtQuery_none _ _ _ _ hd hn]

theorem peers_told {l : List PeerId} : ∀ j ∈ l.map (fun x => memberObject [] x.toText), Writable j ∧ nesting j ≤ 2 := by
  intro j hj
  obtain ⟨x, -, rfl⟩ := List.mem_map.mp hj
  exact member_ok (by simp) (utf8Ok_peer x)

/-- **C75**: who asks for the peers closest to one reads this peer and just the peers the node found, in their order,
without addresses. -/
theorem C75_closest (env : NodeEnv) (lt : NodeFail → Bytes) (node : PeerId → DhtRes (List PeerId))
    (hv : ∀ p l, node p = .ok l → ∀ x ∈ l, x.Valid) (elapses : Bool) (query : Bytes) (ps : List (Bytes × Bytes))
    (hd : Decoded env.q query ps) :
    (∀ p t, DhtAsked PeerId.ofText env.q ps p t → ToldAs (nodeAnswer lt (dhtClosest env node elapses query)) t elapses (node p)
      (fun found j => ∃ id, readDht j = some (id, found.map (fun x => (x, []))) ∧ PeerId.ofText id = some p)) ∧
    ((∀ p t, ¬ DhtAsked PeerId.ofText env.q ps p t) → dhtClosest env node elapses query = .failed .badQuery) := by
  constructor
  · intro p t ha
    rw [dhtClosest, (dhtQuery_iff _ _ _ _ hd _ _).mpr ha]
    refine awaited_told lt t elapses (node p) _ _ (fun l hl => ?_) (fun l hl => dht_ok (utf8Ok_peer p) peers_told)
    exact ⟨p.toText, readDht_object _ _ _ l (fun x hx => readMember_object (hv p l hl x hx) []),
      PeerId.ofText_toText p (asked_valid ha)⟩
  · intro hn
    rw [dhtClosest, dhtQuery_none _ _ _ _ hd hn]

/-- **C75**: providing a block is answered with the cid it was asked for, and no peers. -/
theorem C75_provide (env : NodeEnv) (lt : NodeFail → Bytes) (node : Cid → DhtRes Unit) (elapses : Bool) (query : Bytes)
    (ps : List (Bytes × Bytes)) (hd : Decoded env.q query ps) :
    (∀ c t, DhtAsked (Cid.ofText env.q.mb) env.q ps c t → ToldAs (nodeAnswer lt (dhtProvide env node elapses query)) t elapses (node c)
      (fun _ j => readDht j = some (c.toText, []))) ∧
    ((∀ c t, ¬ DhtAsked (Cid.ofText env.q.mb) env.q ps c t) → dhtProvide env node elapses query = .failed .badQuery) := by
  constructor
  · intro c t ha
    rw [dhtProvide, (dhtQuery_iff _ _ _ _ hd _ _).mpr ha]
    exact awaited_told lt t elapses (node c) _ _
      (fun _ _ => readDht_object c.toText (α := PeerId) (fun x => memberObject [] x.toText) (fun x => (x, [])) [] (by simp))
      (fun _ _ => dht_ok (utf8Ok_toText c) (by simp))
  · intro hn
    rw [dhtProvide, dhtQuery_none _ _ _ _ hd hn]

/-- **C75**: who asks for the providers of a block reads as many of the peers the node found, from the first on, as they
asked for, and at most 20 if they named no number. -/
theorem C75_find_providers (env : NodeEnv) (lt : NodeFail → Bytes) (node : Cid → DhtRes (List PeerId))
    (hv : ∀ c l, node c = .ok l → ∀ x ∈ l, x.Valid) (elapses : Bool) (query : Bytes) (ps : List (Bytes × Bytes))
    (hd : Decoded env.q query ps) :
    (∀ c t n, DhtAsked (Cid.ofText env.q.mb) env.q ps c t → Given parseU64 "num-providers".toUTF8.toList ps n →
      ToldAs (nodeAnswer lt (dhtFindProvs env node elapses query)) t elapses (node c)
        (fun found j => ∃ told, readDht j = some ([], told.map (fun x => (x, []))) ∧ told <+: found ∧
          told.length = min found.length (match n with | some k => k | none => 20))) ∧
    ((∀ c t n, ¬ (DhtAsked (Cid.ofText env.q.mb) env.q ps c t ∧ Given parseU64 "num-providers".toUTF8.toList ps n)) →
      dhtFindProvs env node elapses query = .failed .badQuery) := by
  have hp := (decoded_iff _ _ _).mp hd
  have hk : kNumProviders = "num-providers".toUTF8.toList := rfl
  constructor
  · intro c t n ha hn
    rw [← hk, ← queryField_iff] at hn
    rw [dhtFindProvs, findProvsQuery, (dhtQuery_iff _ _ _ _ hd _ _).mpr ha, hp, hn]
    refine awaited_told lt t elapses (node c) _ _ (fun l hl => ?_) (fun l hl => dht_ok (by decide +kernel) peers_told)
    refine ⟨l.take (n.getD 20), readDht_object _ _ _ _ (fun x hx => readMember_object (hv c l hl x (List.mem_of_mem_take hx)) []),
      List.take_prefix _ _, ?_⟩
    rw [List.length_take, Nat.min_comm]
    cases n <;> rfl
  · intro hn
    rw [dhtFindProvs, findProvsQuery, hp]
    cases h1 : dhtQuery (Cid.ofText env.q.mb) env.q query with
    | error e => rfl
    | ok x =>
      cases h2 : queryField parseU64 kNumProviders ps with
      | error e => rfl
      | ok n => exact absurd ⟨(dhtQuery_iff _ _ _ _ hd x.1 x.2).mp h1, queryField_iff.mp h2⟩ (hn _ _ _)

end Verif.Props
