import Verif.Props.HttpNode

/-!
# C75: the peers, the wantlists and the names of a node over HTTP
-/

namespace Verif.Props

open Verif Verif.Http Verif.Ipfs Verif.Net

/-! ### Helpers -/

theorem given_via {α : Type} {parse : Bytes → Option α} {name : Bytes} {ps : List (Bytes × Bytes)} {x : Option α}
    (h : Given parse name ps x) : ∃ s, queryField some name ps = .ok s ∧ s.map parse = x.map some := by
  cases x with
  | none => exact ⟨none, queryField_iff.mpr h, rfl⟩
  | some a =>
    obtain ⟨v, hv, hp⟩ := h
    exact ⟨some v, queryField_iff.mpr ⟨v, hv, rfl⟩, by simp [hp]⟩

theorem slash_ok (c : Cid) : Writable (slashObject c) ∧ nesting (slashObject c) ≤ 1 := by
  refine ⟨⟨by decide +kernel, utf8Ok_toText c, trivial⟩, ?_⟩
  simp [slashObject, nesting, nestingMap]

theorem slashes_ok (l : List Cid) : Writable (.arr (l.map slashObject)) ∧ nesting (.arr (l.map slashObject)) ≤ 2 := by
  have key : ∀ j ∈ l.map slashObject, Writable j ∧ nesting j ≤ 1 := by
    intro j hj
    obtain ⟨c, -, rfl⟩ := List.mem_map.mp hj
    exact slash_ok c
  exact ⟨(writableList_iff _).mpr (fun j hj => (key j hj).1), nesting_arr_le (fun j hj => (key j hj).2)⟩

theorem readSlash_object (mb : UInt8 → Bytes → Option Bytes) {c : Cid} (h : c.Valid) : readSlash mb (slashObject c) = some c := by
  have e : jsonField "/" (slashObject c) = some (.str c.toText) := by simp only [jsonField, slashObject, AMap.get, if_true]
  simp only [readSlash, e, Option.bind_some, jsonText, Cid.ofText_toText mb c h]

/-- An object with a single field is read as that. -/
theorem heard_single (lt : NodeFail → Bytes) (name : String) (j : Json) (hn : utf8Ok name.toUTF8.toList = true) (h : Writable j)
    (hd : nesting j ≤ 126) : ∃ o, heardJson (nodeAnswer lt (.json (.obj [(name.toUTF8.toList, j)]))) = some o ∧ jsonField name o = some j := by
  refine ⟨_, heard_json lt ⟨hn, h, trivial⟩ ?_ (by simp), ?_⟩
  · simp only [nesting, nestingMap]
    omega
  · simp only [jsonField, AMap.get, if_true]

/-! ### C75: wantlists -/

/-- What a client reads of a wantlist. -/
def readKeys (mb : UInt8 → Bytes → Option Bytes) (j : Json) : Option (List Cid) :=
  ((jsonField "Keys" j).bind jsonList).bind (readAll (readSlash mb))

/-- **C75**: who asks for the wantlist of the node, or of a peer, reads just the cids the node told; a text that is no
peer id is refused with the status 400. -/
theorem C75_wantlist (env : NodeEnv) (lt : NodeFail → Bytes) (node : Option PeerId → Option (List Cid))
    (hv : ∀ p l, node p = some l → ∀ c ∈ l, c.Valid) (query : Bytes) (ps : List (Bytes × Bytes)) (hd : Decoded env.q query ps) :
    (∀ peer, Given PeerId.ofText "peer".toUTF8.toList ps peer →
      (∀ cids, node peer = some cids → ∃ j, heardJson (nodeAnswer lt (bitswapWantlist env node query)) = some j ∧
        readKeys env.q.mb j = some cids) ∧
      (node peer = none → bitswapWantlist env node query = .failed .down)) ∧
    (∀ text, GivenOnce "peer".toUTF8.toList text ps → PeerId.ofText text = none →
      complaint (nodeAnswer lt (bitswapWantlist env node query)) = some (400, "invalid peer id".toUTF8.toList)) ∧
    ((∀ x, ¬ Given some "peer".toUTF8.toList ps x) → bitswapWantlist env node query = .failed .badQuery) := by
  have hp := (decoded_iff _ _ _).mp hd
  have hk : kPeer = "peer".toUTF8.toList := rfl
  rw [← hk]
  refine ⟨fun peer h => ?_, fun text h1 h2 => ?_, fun hn => ?_⟩
  · obtain ⟨s, hs, hm⟩ := given_via h
    have e : bitswapWantlist env node query = bitswapWantlist.answer (node peer) := by
      simp only [bitswapWantlist, hp, hs, hm]
      cases peer <;> rfl
    rw [e]
    refine ⟨fun cids hc => ?_, fun hc => by rw [hc]; rfl⟩
    rw [hc]
    obtain ⟨w, n⟩ := slashes_ok cids
    obtain ⟨o, ho, hf⟩ := heard_single lt "Keys" (.arr (cids.map slashObject)) (by decide +kernel) w (by omega)
    refine ⟨o, ho, ?_⟩
    simp only [readKeys, hf, Option.bind_some, jsonList]
    have := readAll_map (readSlash env.q.mb) slashObject (fun c => c) cids (fun c hc' => readSlash_object _ (hv _ _ hc c hc'))
    simpa using this
  · have hs : queryField some kPeer ps = .ok (some text) := queryField_iff.mpr ⟨text, h1, rfl⟩
    have e : bitswapWantlist env node query = .failed .invalidPeerId := by
      simp only [bitswapWantlist, hp, hs, Option.map_some, h2]
    rw [e]
    exact complaint_message 400 (by decide +kernel)
  · cases hq : queryField some kPeer ps with
    | error e => simp only [bitswapWantlist, hp, hq]
    | ok x => exact absurd (queryField_iff.mp hq) (hn x)

/-- **C75**: who asks for the counters of the exchange of blocks reads each of them by its name, the peers and the
wantlist. -/
theorem C75_stat (mb : UInt8 → Bytes → Option Bytes) (lt : NodeFail → Bytes) (s : BitswapStats) (hp : ∀ p ∈ s.peers, p.Valid)
    (hc : ∀ c ∈ s.wantlist, c.Valid) :
    ∃ j, heardJson (nodeAnswer lt (bitswapStat (some s))) = some j ∧
      jsonField "BlocksReceived" j = some (.num (JNum.ofInt s.blocksReceived)) ∧
      jsonField "BlocksSent" j = some (.num (JNum.ofInt s.blocksSent)) ∧
      jsonField "DataReceived" j = some (.num (JNum.ofInt s.dataReceived)) ∧
      jsonField "DataSent" j = some (.num (JNum.ofInt s.dataSent)) ∧
      jsonField "DupBlksReceived" j = some (.num (JNum.ofInt s.dupBlksReceived)) ∧
      jsonField "DupDataReceived" j = some (.num (JNum.ofInt s.dupDataReceived)) ∧
      jsonField "MessagesReceived" j = some (.num (JNum.ofInt 0)) ∧
      jsonField "ProvideBufLen" j = some (.num (JNum.ofInt 0)) ∧
      (((jsonField "Peers" j).bind jsonTexts).bind (readAll PeerId.ofText)) = some s.peers ∧
      (((jsonField "Wantlist" j).bind jsonList).bind (readAll (readSlash mb))) = some s.wantlist := by
  have hn : ∀ n : Nat, Writable (natJson n) := fun n => ofInt_number n
  obtain ⟨w1, n1⟩ := slashes_ok s.wantlist
  have w2 := writable_texts PeerId.toText s.peers (fun p _ => utf8Ok_peer p)
  have n2 := nesting_texts PeerId.toText s.peers
  have hw : Writable (statObject s) :=
    ⟨by decide +kernel, hn _, by decide +kernel, hn _, by decide +kernel, hn _, by decide +kernel, hn _, by decide +kernel, hn _,
      by decide +kernel, hn _, by decide +kernel, hn _, by decide +kernel, w2, by decide +kernel, hn _, by decide +kernel, w1, trivial⟩
  have hnest : nesting (statObject s) ≤ 127 := by
    simp only [statObject, nesting, nestingMap, natJson] at n1 n2 ⊢
    omega
  refine ⟨_, heard_json lt hw hnest (by simp [statObject]), ?_⟩
  have step : ∀ (k k' : String) (v : Json) (m : List (Bytes × Json)), k.toUTF8.toList ≠ k'.toUTF8.toList →
      AMap.get ((k.toUTF8.toList, v) :: m) k'.toUTF8.toList = AMap.get m k'.toUTF8.toList := by
    intro k k' v m h
    rw [AMap.get, if_neg h]
  have here : ∀ (k : String) (v : Json) (m : List (Bytes × Json)), AMap.get ((k.toUTF8.toList, v) :: m) k.toUTF8.toList = some v := by
    intro k v m
    rw [AMap.get, if_pos rfl]
  simp only [jsonField, statObject]
  refine ⟨here _ _ _, ?_, ?_, ?_, ?_, ?_, ?_, ?_, ?_, ?_⟩
  · rw [step _ _ _ _ (by decide +kernel), here, natJson]
  · rw [step _ _ _ _ (by decide +kernel), step _ _ _ _ (by decide +kernel), here, natJson]
  · rw [step _ _ _ _ (by decide +kernel), step _ _ _ _ (by decide +kernel), step _ _ _ _ (by decide +kernel), here, natJson]
  · rw [step _ _ _ _ (by decide +kernel), step _ _ _ _ (by decide +kernel), step _ _ _ _ (by decide +kernel),
      step _ _ _ _ (by decide +kernel), here, natJson]
  · rw [step _ _ _ _ (by decide +kernel), step _ _ _ _ (by decide +kernel), step _ _ _ _ (by decide +kernel),
      step _ _ _ _ (by decide +kernel), step _ _ _ _ (by decide +kernel), here, natJson]
  · rw [step _ _ _ _ (by decide +kernel), step _ _ _ _ (by decide +kernel), step _ _ _ _ (by decide +kernel),
      step _ _ _ _ (by decide +kernel), step _ _ _ _ (by decide +kernel), step _ _ _ _ (by decide +kernel), here, natJson]
    rfl
  · rw [step _ _ _ _ (by decide +kernel), step _ _ _ _ (by decide +kernel), step _ _ _ _ (by decide +kernel),
      step _ _ _ _ (by decide +kernel), step _ _ _ _ (by decide +kernel), step _ _ _ _ (by decide +kernel),
      step _ _ _ _ (by decide +kernel), step _ _ _ _ (by decide +kernel), here, natJson]
    rfl
  · rw [step _ _ _ _ (by decide +kernel), step _ _ _ _ (by decide +kernel), step _ _ _ _ (by decide +kernel),
      step _ _ _ _ (by decide +kernel), step _ _ _ _ (by decide +kernel), step _ _ _ _ (by decide +kernel),
      step _ _ _ _ (by decide +kernel), here]
    simp only [Option.bind_some, jsonTexts_map]
    have := readAll_map PeerId.ofText PeerId.toText (fun p => p) s.peers (fun p h => PeerId.ofText_toText p (hp p h))
    simpa using this
  · rw [step _ _ _ _ (by decide +kernel), step _ _ _ _ (by decide +kernel), step _ _ _ _ (by decide +kernel),
      step _ _ _ _ (by decide +kernel), step _ _ _ _ (by decide +kernel), step _ _ _ _ (by decide +kernel),
      step _ _ _ _ (by decide +kernel), step _ _ _ _ (by decide +kernel), step _ _ _ _ (by decide +kernel), here]
    simp only [Option.bind_some, jsonList]
    have := readAll_map (readSlash mb) slashObject (fun c => c) s.wantlist (fun c h => readSlash_object mb (hc c h))
    simpa using this

/-! ### C75: connections -/

/-- The latency of a connection that is told: only who asks for details is told it, as half of the round trip in
milliseconds, rounded down, if it is known. -/
def latencyTold (verbose : Option Bool) : Option Nat → Json
  | some ms => if verbose = some true then .str (decimal (ms / 2) ++ "ms".toUTF8.toList) else .null
  | none => if verbose = some true then .str "n/a".toUTF8.toList else .null

theorem peerObject_ok {show' : Ipfs.Comp → Bytes} (hs : ∀ c, utf8Ok (show' c) = true) (verbose : Bool) (c : AddrPeer × Option Nat) :
    Writable (peerObject show' verbose c) ∧ nesting (peerObject show' verbose c) ≤ 1 := by
  refine ⟨⟨by decide +kernel, utf8Ok_addr hs _, by decide +kernel, utf8Ok_peer _, by decide +kernel, ?_, trivial⟩, ?_⟩
  · cases verbose with
    | false => exact trivial
    | true =>
      show utf8Ok (latencyText c.2) = true
      cases c.2 with
      | none => decide +kernel
      | some ms =>
        refine utf8Ok_ascii (fun x hx => ?_)
        rcases List.mem_append.mp hx with h | h
        · have := decimal_isDigits _ x h
          exact Nat.lt_of_le_of_lt this.2 (by decide)
        · have key : ∀ y ∈ "ms".toUTF8.toList, y < 0x80 := by decide +kernel
          exact key x h
  · cases verbose <;> simp [peerObject, nesting, nestingMap]

theorem readConn_object (show' : Ipfs.Comp → Bytes) (verbose : Option Bool) (c : AddrPeer × Option Nat) (hv : c.1.peer.Valid) :
    readConn (peerObject show' (verbose == some true) c) =
      some (c.1.peer, Maddr.text show' c.1.multiaddr.addr, latencyTold verbose c.2) := by
  have h1 : "Addr".toUTF8.toList ≠ "Peer".toUTF8.toList := by decide +kernel
  have h2 : "Addr".toUTF8.toList ≠ "Latency".toUTF8.toList := by decide +kernel
  have h3 : "Peer".toUTF8.toList ≠ "Latency".toUTF8.toList := by decide +kernel
  simp only [readConn, jsonField, peerObject, AMap.get, if_neg h1, if_neg h2, if_neg h3, if_true, Option.bind_some, jsonText,
    PeerId.ofText_toText _ hv, Option.map_some, Option.some.injEq, Prod.mk.injEq, true_and]
  obtain ⟨a, r⟩ := c
  cases r <;> rcases verbose with _ | _ | _ <;> simp [latencyTold, latencyText]

/-- **C75**: who asks for the connections reads each that the node told, with its peer and the text of its address. -/
theorem C75_peers (env : NodeEnv) (hs : ∀ c, utf8Ok (env.show' c) = true) (lt : NodeFail → Bytes)
    (conns : List (AddrPeer × Option Nat)) (hv : ∀ c ∈ conns, c.1.peer.Valid) (query : Bytes) (ps : List (Bytes × Bytes))
    (hd : Decoded env.q query ps) :
    (∀ v, Given readBool "verbose".toUTF8.toList ps v → ∃ j, heardJson (nodeAnswer lt (swarmPeers env (some conns) query)) = some j ∧
      ((jsonField "Peers" j).bind jsonList).bind (readAll readConn) =
        some (conns.map (fun c => (c.1.peer, Maddr.text env.show' c.1.multiaddr.addr, latencyTold v c.2)))) ∧
    ((∀ v, ¬ Given readBool "verbose".toUTF8.toList ps v) → ∀ node, swarmPeers env node query = .failed .badQuery) := by
  have hp := (decoded_iff _ _ _).mp hd
  rw [← kVerbose_eq, ← parseBool_eq]
  refine ⟨fun v h => ?_, fun hn node => ?_⟩
  · rw [← queryField_iff] at h
    simp only [swarmPeers, hp, h]
    have key : ∀ j ∈ conns.map (peerObject env.show' (v == some true)), Writable j ∧ nesting j ≤ 1 := by
      intro j hj
      obtain ⟨c, -, rfl⟩ := List.mem_map.mp hj
      exact peerObject_ok hs _ c
    have n := nesting_arr_le (fun j hj => (key j hj).2)
    obtain ⟨o, ho, hf⟩ := heard_single lt "Peers" (.arr (conns.map (peerObject env.show' (v == some true)))) (by decide +kernel)
      ((writableList_iff _).mpr (fun j hj => (key j hj).1)) (by omega)
    refine ⟨o, ho, ?_⟩
    rw [hf]
    exact readAll_map readConn _ _ conns (fun c hc => readConn_object env.show' v c (hv c hc))
  · cases hq : queryField RefsOptions.parseBool kVerbose ps with
    | error e => simp only [swarmPeers, hp, hq]
    | ok x => exact absurd (queryField_iff.mp hq) (hn x)

/-- **C75**: who asks for a connection, or for its end, has to give an address that names a peer. They read an empty
list if the node did it, and get its error otherwise; an address that does not name a peer is an error with the status
500. -/
theorem C75_connect (env : NodeEnv) (lt : NodeFail → Bytes) (node : AddrPeer → Option NodeFail) (query : Bytes)
    (ps : List (Bytes × Bytes)) (hd : Decoded env.q query ps) :
    (∀ text, GivenOnce "arg".toUTF8.toList text ps →
      (∀ m a, env.parseAddr text = some m → AddrPeer.ofAddr env.debug m = .ok a →
        (node a = none → heardJson (nodeAnswer lt (swarmCall env node query)) = some (.arr [])) ∧
        ∀ e, node a = some e → swarmCall env node query = .failed e) ∧
      ((env.parseAddr text = none ∨ ∃ m, env.parseAddr text = some m ∧ ¬ NamesPeer m) → swarmCall env node query = .failed .badAddr) ∧
      (∀ m, env.parseAddr text = some m → AddrPeer.ofAddr env.debug m = .error .debugAssert → swarmCall env node query = .closed)) ∧
    ((∀ text, ¬ GivenOnce "arg".toUTF8.toList text ps) → swarmCall env node query = .failed .badQuery) := by
  have hp := (decoded_iff _ _ _).mp hd
  rw [← kArg_eq]
  refine ⟨fun text h => ?_, fun hn => ?_⟩
  · have hq : queryField some kArg ps = .ok (some text) := queryField_iff.mpr ⟨text, h, rfl⟩
    refine ⟨fun m a hm ha => ?_, fun hb => ?_, fun m hm ha => by simp only [swarmCall, hp, hq, parseBoot, hm, ha]⟩
    · have e : parseBoot env.debug env.parseAddr text = .ok a := by simp only [parseBoot, hm, ha]
      refine ⟨fun hno => ?_, fun x hx => ?_⟩
      · simp only [swarmCall, hp, hq, e, hno]
        exact heard_json lt trivial (by simp [nesting, nestingList]) (by simp)
      · simp only [swarmCall, hp, hq, e, hx]
    · have e : parseBoot env.debug env.parseAddr text = .bad := by
        rcases hb with h | ⟨m, hm, hn⟩
        · simp only [parseBoot, h]
        · simp only [parseBoot, hm, (C49_missing env.debug m).mpr hn]
      simp only [swarmCall, hp, hq, e]
  · cases hq : queryField some kArg ps with
    | error e => simp only [swarmCall, hp, hq]
    | ok x =>
      cases x with
      | none => simp only [swarmCall, hp, hq]
      | some text =>
        obtain ⟨v, hv, -⟩ := queryField_iff.mp hq
        exact absurd hv (hn v)

/-! ### C75: addresses -/

theorem insert_perm {ν : Type} (m : BMap ν) (k : Bytes) (v : ν) (h : ∀ e ∈ m, e.1 ≠ k) : (m.insert k v).Perm ((k, v) :: m) := by
  induction m with
  | nil => exact .refl _
  | cons e m ih =>
    obtain ⟨k', v'⟩ := e
    simp only [BMap.insert]
    split
    · exact .refl _
    · split
      · rename_i h2
        exact absurd h2.symm (h (k', v') (by simp))
      · exact ((ih (fun e he => h e (by simp [he]))).cons _).trans (.swap _ _ _)

theorem peerText_inj {a b : PeerId} (ha : a.Valid) (hb : b.Valid) (h : a.toText = b.toText) : a = b := by
  have h1 := PeerId.ofText_toText a ha
  rw [h, PeerId.ofText_toText b hb] at h1
  exact (Option.some.inj h1).symm

theorem addrsMap_perm (show' : Ipfs.Comp → Bytes) (l : List (PeerId × List Maddr)) (hv : ∀ e ∈ l, e.1.Valid)
    (hn : (l.map Prod.fst).Nodup) (m : BMap (List Bytes)) (hm : ∀ e ∈ l, ∀ f ∈ m, f.1 ≠ e.1.toText) :
    (addrsMap show' m l).Perm (l.map (fun e => (e.1.toText, e.2.map (Maddr.text show'))) ++ m) := by
  induction l generalizing m with
  | nil => exact .refl _
  | cons e l ih =>
    obtain ⟨p, addrs⟩ := e
    rw [List.map_cons, List.nodup_cons] at hn
    have hp := insert_perm m p.toText (addrs.map (Maddr.text show')) (fun f hf => hm (p, addrs) (by simp) f hf)
    rw [addrsMap]
    refine (ih (fun e he => hv e (by simp [he])) hn.2 _ ?_).trans ?_
    · intro e he f hf
      rcases List.mem_cons.mp (hp.mem_iff.mp hf) with rfl | hf
      · intro ht
        have := peerText_inj (hv (p, addrs) (by simp)) (hv e (by simp [he])) ht
        refine hn.1 (List.mem_map.mpr ⟨e, he, ?_⟩)
        exact this.symm
      · exact hm e (by simp [he]) f hf
    · refine (hp.append_left _).trans ?_
      exact List.perm_middle

/-- A peer and the texts of its addresses. -/
def readAddrs (e : Bytes × Json) : Option (PeerId × List Bytes) :=
  (PeerId.ofText e.1).bind (fun p => (jsonTexts e.2).map (fun texts => (p, texts)))

/-- The fields of an object. -/
def jsonFields : Json → Option (List (Bytes × Json))
  | .obj m => some m
  | _ => none

/-- **C75**: who asks for all known addresses reads every peer the node told once, with the texts of its addresses. -/
theorem C75_addrs (env : NodeEnv) (hs : ∀ c, utf8Ok (env.show' c) = true) (lt : NodeFail → Bytes) (known : List (PeerId × List Maddr))
    (hv : ∀ e ∈ known, e.1.Valid) (hn : (known.map Prod.fst).Nodup) :
    ∃ j told, heardJson (nodeAnswer lt (swarmAddrs env (some known))) = some j ∧
      ((jsonField "Addrs" j).bind jsonFields).bind (readAll readAddrs) = some told ∧
      told.Perm (known.map (fun e => (e.1, e.2.map (Maddr.text env.show')))) := by
  have hp := addrsMap_perm env.show' known hv hn [] (by simp)
  rw [List.append_nil] at hp
  let m := addrsMap env.show' [] known
  have hm : ∀ e ∈ m, ∃ f ∈ known, e = (f.1.toText, f.2.map (Maddr.text env.show')) := by
    intro e he
    obtain ⟨f, hf, rfl⟩ := List.mem_map.mp (hp.mem_iff.mp he)
    exact ⟨f, hf, rfl⟩
  have w : Writable (.obj (m.map (fun e => (e.1, .arr (e.2.map Json.str))))) := by
    show WritableMap _
    rw [writableMap_iff]
    intro x hx
    obtain ⟨e, he, rfl⟩ := List.mem_map.mp hx
    obtain ⟨f, -, rfl⟩ := hm e he
    refine ⟨utf8Ok_peer _, writable_texts (fun a => a) _ (fun a ha => ?_)⟩
    obtain ⟨a, -, rfl⟩ := List.mem_map.mp ha
    exact utf8Ok_addr hs a
  have n : ∀ l : List (Bytes × List Bytes), nestingMap (l.map (fun e => (e.1, .arr (e.2.map Json.str)))) ≤ 1 := by
    intro l
    induction l with
    | nil => simp [nestingMap]
    | cons e l ih =>
      have : nesting (.arr (e.2.map Json.str)) ≤ 1 := nesting_texts (fun a => a) e.2
      rw [List.map_cons, nestingMap]
      omega
  obtain ⟨o, ho, hf⟩ := heard_single lt "Addrs" (.obj (m.map (fun e => (e.1, .arr (e.2.map Json.str))))) (by decide +kernel) w
    (by rw [nesting]; have := n m; omega)
  refine ⟨o, m.filterMap (fun e => (PeerId.ofText e.1).map (fun p => (p, e.2))), ho, ?_, ?_⟩
  · rw [hf]
    simp only [Option.bind_some, jsonFields]
    have key : ∀ l : List (Bytes × List Bytes), (∀ e ∈ l, ∃ p, PeerId.ofText e.1 = some p) →
        readAll readAddrs (l.map (fun e => (e.1, .arr (e.2.map Json.str)))) =
          some (l.filterMap (fun e => (PeerId.ofText e.1).map (fun p => (p, e.2)))) := by
      intro l hl
      induction l with
      | nil => rfl
      | cons e l ih =>
        obtain ⟨p, hp⟩ := hl e (by simp)
        simp only [List.map_cons, readAll, readAddrs, hp, Option.bind_some, jsonTexts_str, Option.map_some,
          ih (fun e he => hl e (by simp [he])), List.filterMap_cons]
    refine key m (fun e he => ?_)
    obtain ⟨f, hf, rfl⟩ := hm e he
    exact ⟨f.1, PeerId.ofText_toText _ (hv f hf)⟩
  · refine (hp.filterMap _).trans ?_
    rw [List.filterMap_map]
    have : ∀ l : List (PeerId × List Maddr), (∀ e ∈ l, e.1.Valid) →
        l.filterMap ((fun e : Bytes × List Bytes => (PeerId.ofText e.1).map (fun p => (p, e.2))) ∘
          fun e => (e.1.toText, e.2.map (Maddr.text env.show'))) = l.map (fun e => (e.1, e.2.map (Maddr.text env.show'))) := by
      intro l hl
      induction l with
      | nil => rfl
      | cons e l ih =>
        simp only [List.filterMap_cons, Function.comp, PeerId.ofText_toText _ (hl e (by simp)), Option.map_some, List.map_cons]
        rw [← ih (fun e he => hl e (by simp [he]))]
    rw [this known hv]

/-- **C75**: who asks for the addresses of the node reads the texts of just those it told. -/
theorem C75_local (env : NodeEnv) (hs : ∀ c, utf8Ok (env.show' c) = true) (lt : NodeFail → Bytes) (own : List Maddr) (query : Bytes)
    (ps : List (Bytes × Bytes)) (hd : Decoded env.q query ps) :
    ((∃ v, Given readBool "id".toUTF8.toList ps v) → ∃ j, heardJson (nodeAnswer lt (swarmAddrsLocal env (some own) query)) = some j ∧
      (jsonField "Strings" j).bind jsonTexts = some (own.map (Maddr.text env.show'))) ∧
    ((∀ v, ¬ Given readBool "id".toUTF8.toList ps v) → ∀ node, swarmAddrsLocal env node query = .failed .badQuery) := by
  have hp := (decoded_iff _ _ _).mp hd
  have hk : kId = "id".toUTF8.toList := rfl
  rw [← hk, ← parseBool_eq]
  refine ⟨fun ⟨v, h⟩ => ?_, fun hn node => ?_⟩
  · rw [← queryField_iff] at h
    simp only [swarmAddrsLocal, hp, h]
    have n := nesting_texts (Maddr.text env.show') own
    obtain ⟨o, ho, hf⟩ := heard_single lt "Strings" (.arr (own.map (fun a => .str (Maddr.text env.show' a)))) (by decide +kernel)
      (writable_texts _ own (fun a _ => utf8Ok_addr hs a)) (by omega)
    refine ⟨o, ho, ?_⟩
    rw [hf]
    exact jsonTexts_map _ own
  · cases hq : queryField RefsOptions.parseBool kId ps with
    | error e => simp only [swarmAddrsLocal, hp, hq]
    | ok x => exact absurd (queryField_iff.mp hq) (hn x)

/-! ### C75: the identity of the node -/

/-- **C75**: who asks for the identity reads the peer id of the node, its public key, and every address it is reached at
with its peer id behind it. -/
theorem C75_id (env : NodeEnv) (hs : ∀ c, utf8Ok (env.show' c) = true) (lt : NodeFail → Bytes) (key : Bytes) (p : PeerId) (hv : p.Valid)
    (addrs : List Maddr) (query : Bytes) (ps : List (Bytes × Bytes)) (hd : Decoded env.q query ps)
    (ha : Given some "arg".toUTF8.toList ps none) (hf : ∃ x, Given some "format".toUTF8.toList ps x) :
    ∃ j, heardJson (nodeAnswer lt (nodeId env (some (key, p, addrs)) query)) = some j ∧
      ((jsonField "ID" j).bind jsonText).bind PeerId.ofText = some p ∧
      ((jsonField "PublicKey" j).bind jsonText).bind unbase64 = some key ∧
      (jsonField "Addresses" j).bind jsonTexts = some (addrs.map (fun a => AddrPeer.text env.show' ⟨⟨a⟩, p⟩)) ∧
      (jsonField "AgentVersion" j).bind jsonText = some "rust-ipfs/0.1.0".toUTF8.toList ∧
      (jsonField "ProtocolVersion" j).bind jsonText = some "ipfs/0.1.0".toUTF8.toList ∧
      ∀ a ∈ addrs, ¬ NamesPeer a → ¬ Relayed a → AddrPeer.ofAddr env.debug (AddrPeer.toAddr ⟨⟨a⟩, p⟩) = .ok ⟨⟨a⟩, p⟩ := by
  have hp := (decoded_iff _ _ _).mp hd
  obtain ⟨x, hx⟩ := hf
  have hkf : kFormatField = "format".toUTF8.toList := rfl
  rw [← kArg_eq, ← queryField_iff] at ha
  rw [← hkf, ← queryField_iff] at hx
  have ht : (ownAddrs p addrs).map (fun a => Json.str (Maddr.text env.show' a)) =
      addrs.map (fun a => Json.str (AddrPeer.text env.show' ⟨⟨a⟩, p⟩)) := by
    simp only [ownAddrs, List.map_map]
    refine List.map_congr_left (fun a _ => ?_)
    simp only [Function.comp, C49_text]
    rfl
  simp only [nodeId, hp, ha, hx, Option.map_none, ht]
  have n := nesting_texts (fun a => AddrPeer.text env.show' ⟨⟨a⟩, p⟩) addrs
  have w : ∀ a ∈ addrs, utf8Ok (AddrPeer.text env.show' ⟨⟨a⟩, p⟩) = true := by
    intro a _
    rw [C49_text]
    exact utf8Ok_addr hs _
  have h1 : "ID".toUTF8.toList ≠ "PublicKey".toUTF8.toList := by decide +kernel
  have h2 : "ID".toUTF8.toList ≠ "Addresses".toUTF8.toList := by decide +kernel
  have h3 : "PublicKey".toUTF8.toList ≠ "Addresses".toUTF8.toList := by decide +kernel
  refine ⟨_, heard_json lt ⟨by decide +kernel, utf8Ok_peer p, by decide +kernel, base64_utf8 key, by decide +kernel,
    writable_texts _ addrs w, by decide +kernel, (by show utf8Ok _ = true; decide +kernel), by decide +kernel,
    (by show utf8Ok _ = true; decide +kernel), trivial⟩ ?_ (by simp), ?_, ?_, ?_, ?_, ?_, ?_⟩
  · simp only [nesting, nestingMap] at n ⊢
    omega
  · simp only [jsonField, AMap.get, if_true, Option.bind_some, jsonText, PeerId.ofText_toText p hv]
  · simp only [jsonField, AMap.get, if_neg h1, if_true, Option.bind_some, jsonText, unbase64_base64]
  · simp only [jsonField, AMap.get, if_neg h2, if_neg h3, if_true, Option.bind_some, jsonTexts_map]
  · have g1 : "ID".toUTF8.toList ≠ "AgentVersion".toUTF8.toList := by decide +kernel
    have g2 : "PublicKey".toUTF8.toList ≠ "AgentVersion".toUTF8.toList := by decide +kernel
    have g3 : "Addresses".toUTF8.toList ≠ "AgentVersion".toUTF8.toList := by decide +kernel
    simp only [jsonField, AMap.get, if_neg g1, if_neg g2, if_neg g3, if_true, Option.bind_some, jsonText]
  · have g1 : "ID".toUTF8.toList ≠ "ProtocolVersion".toUTF8.toList := by decide +kernel
    have g2 : "PublicKey".toUTF8.toList ≠ "ProtocolVersion".toUTF8.toList := by decide +kernel
    have g3 : "Addresses".toUTF8.toList ≠ "ProtocolVersion".toUTF8.toList := by decide +kernel
    have g4 : "AgentVersion".toUTF8.toList ≠ "ProtocolVersion".toUTF8.toList := by decide +kernel
    simp only [jsonField, AMap.get, if_neg g1, if_neg g2, if_neg g3, if_neg g4, if_true, Option.bind_some, jsonText]
  · intro a _ hn hr
    have hx : AddrOnly.ofAddr a = .ok ⟨a⟩ := (C49_without a ⟨a⟩).mpr ⟨hn, rfl⟩
    exact (C49_round_trip_partial env.debug a p ⟨a⟩ hx hv.1 hr).1

/-- **C75**: the identity of another peer is not implemented, and what is no peer id is refused. -/
theorem C75_other_id (env : NodeEnv) (lt : NodeFail → Bytes) (node : Option (Bytes × PeerId × List Maddr)) (query : Bytes)
    (ps : List (Bytes × Bytes)) (hd : Decoded env.q query ps) (text : Bytes) (ha : GivenOnce "arg".toUTF8.toList text ps)
    (hf : ∃ x, Given some "format".toUTF8.toList ps x) :
    complaint (nodeAnswer lt (nodeId env node query)) =
      (match PeerId.ofText text with
       | some _ => some (501, "Not implemented".toUTF8.toList)
       | none => some (400, "invalid peer id".toUTF8.toList)) := by
  have hp := (decoded_iff _ _ _).mp hd
  obtain ⟨x, hx⟩ := hf
  have hkf : kFormatField = "format".toUTF8.toList := rfl
  have hq : queryField some kArg ps = .ok (some text) := queryField_iff.mpr ⟨text, by rw [kArg_eq]; exact ha, rfl⟩
  rw [← hkf, ← queryField_iff] at hx
  cases ht : PeerId.ofText text with
  | none =>
    simp only [nodeId, hp, hq, hx, Option.map_some, ht]
    exact complaint_message 400 (by decide +kernel)
  | some o =>
    simp only [nodeId, hp, hq, hx, Option.map_some, ht]
    exact complaint_message 501 (by decide +kernel)

/-! ### C75: names -/

theorem parse_text_utf8 {mb : UInt8 → Bytes → Option Bytes} {s : Bytes} {p : IpfsPath} (hu : utf8Ok s = true)
    (h : IpfsPath.parse mb s = some p) : utf8Ok p.text = true := by
  have hparts := parse_parts h
  have hsplit := utf8Ok_split hu
  have hroot : utf8Ok p.root.text = true := by
    cases hr : p.root with
    | ipld c =>
      rw [PathRoot.text, show 47 :: sIpfs ++ 47 :: c.toText = (47 :: sIpfs ++ [47]) ++ c.toText by simp,
        utf8Ok_append (by decide +kernel)]
      exact utf8Ok_toText c
    | ipns q =>
      rw [PathRoot.text, show 47 :: sIpns ++ 47 :: q.toText = (47 :: sIpns ++ [47]) ++ q.toText by simp,
        utf8Ok_append (by decide +kernel)]
      exact utf8Ok_peer q
    | dns d =>
      rw [PathRoot.text, show 47 :: sIpns ++ 47 :: d = (47 :: sIpns ++ [47]) ++ d by simp, utf8Ok_append (by decide +kernel)]
      refine hsplit d ?_
      unfold IpfsPath.parse at h
      cases hpr : parseRoot mb (splitSlash s) with
      | none => rw [hpr] at h; cases h
      | some r =>
        obtain ⟨root, rest⟩ := r
        simp only [hpr] at h
        have e : root = .dns d := by
          cases hps : pushSplit [] rest with
          | mk path ok =>
            rw [hps] at h
            cases ok with
            | false => cases h
            | true => cases h; exact hr
        subst e
        generalize splitSlash s = l at hpr ⊢
        unfold parseRoot at hpr
        split at hpr
        · cases hpr
        · split at hpr
          · obtain ⟨c, _, hc⟩ := Option.map_eq_some_iff.mp hpr
            cases hc
          · split at hpr
            · split at hpr
              · obtain ⟨c, _, hc⟩ := Option.map_eq_some_iff.mp hpr
                cases hc
              · split at hpr
                · split at hpr
                  · cases hpr
                  · cases hpr; simp
                · cases hpr
            · cases hpr
  rw [IpfsPath.text, utf8Ok_append hroot]
  split
  · decide +kernel
  · rw [show (47 : UInt8) :: slashedText p.path = [47] ++ slashedText p.path from rfl, utf8Ok_append (by decide +kernel),
      slashedText_eq, joinSlash_eq]
    exact utf8Ok_withSlashes (fun x hx => hsplit x (hparts x hx))

theorem next_text_utf8 {mb : UInt8 → Bytes → Option Bytes} {txt : Txt} {p q : IpfsPath} (hp : utf8Ok p.text = true)
    (h : Next mb txt p q) : utf8Ok q.text = true := by
  cases h with
  | ipld => exact hp
  | own hr => obtain ⟨b, s, a, -, -, hs, he⟩ := hr; exact parse_text_utf8 hs he
  | sub _ _ hr => obtain ⟨b, s, a, -, -, hs, he⟩ := hr; exact parse_text_utf8 hs he

theorem leads_text_utf8 {mb : UInt8 → Bytes → Option Bytes} {txt : Txt} {p q : IpfsPath} (hp : utf8Ok p.text = true)
    (h : Leads mb txt p q) : utf8Ok q.text = true := by
  induction h with
  | refl => exact hp
  | step _ h2 ih => exact next_text_utf8 ih h2

theorem value_utf8 {q : QueryEnv} (hl : ∀ x, utf8Ok (q.lossy x) = true) {query : Bytes} {ps : List (Bytes × Bytes)}
    (hd : Decoded q query ps) {name text : Bytes} (h : GivenOnce name text ps) : utf8Ok text = true := by
  rw [decoded_iff] at hd
  obtain ⟨a, b, h3, -⟩ := h
  have : (name, text) ∈ formPairs q.lossy query := by rw [hd, h3]; simp
  unfold formPairs at this
  obtain ⟨p, -, hp⟩ := List.mem_map.mp this
  rw [Prod.mk.injEq] at hp
  rw [← hp.2]
  exact hl _

/-- The path that is answered. -/
def readPath (mb : UInt8 → Bytes → Option Bytes) (answer : Option (Nat × Bytes)) : Option IpfsPath :=
  ((heardJson answer).bind (jsonField "Path")).bind jsonText |>.bind (IpfsPath.parse mb)

theorem readPath_answer (mb : UInt8 → Bytes → Option Bytes) (lt : NodeFail → Bytes) {p : IpfsPath} (hu : utf8Ok p.text = true) :
    readPath mb (nodeAnswer lt (.json (pathObject p))) = IpfsPath.parse mb p.text := by
  obtain ⟨o, ho, hf⟩ := heard_single lt "Path" (.str p.text) (by decide +kernel) hu (by simp [nesting])
  simp only [readPath, pathObject, ho, hf, Option.bind_some, jsonText]

/-- **C75**: who asks to resolve a path reads the path one step further, or gets an error if there is none. -/
theorem C75_resolve (env : NodeEnv) (hl : ∀ x, utf8Ok (env.q.lossy x) = true) (lt : NodeFail → Bytes) (txt : Txt) (query : Bytes)
    (ps : List (Bytes × Bytes)) (hd : Decoded env.q query ps) :
    (∀ p, Given (IpfsPath.parse env.q.mb) "arg".toUTF8.toList ps (some p) →
      (∃ n, Given parseU64 "dht-record-count".toUTF8.toList ps n) → (∃ s, Given some "dht-timeout".toUTF8.toList ps s) →
      (∀ q, Next env.q.mb txt p q → ∃ r, nameResolve env txt query = some r ∧
        readPath env.q.mb (nodeAnswer lt r) = IpfsPath.parse env.q.mb q.text) ∧
      ((∀ q, ¬ Next env.q.mb txt p q) → ∃ e, nameResolve env txt query = some (.failed (.name e)))) ∧
    ((∀ p n s, ¬ (Given (IpfsPath.parse env.q.mb) "arg".toUTF8.toList ps (some p) ∧
      Given parseU64 "dht-record-count".toUTF8.toList ps n ∧ Given some "dht-timeout".toUTF8.toList ps s)) →
      nameResolve env txt query = some (.failed .badQuery)) := by
  have hp := (decoded_iff _ _ _).mp hd
  have hk1 : kRecordCount = "dht-record-count".toUTF8.toList := rfl
  have hk2 : kDhtTimeout = "dht-timeout".toUTF8.toList := rfl
  rw [← kArg_eq, ← hk1, ← hk2]
  refine ⟨?_, fun hn => ?_⟩
  · rintro p ha ⟨n, hn⟩ ⟨s, hs⟩
    have hu : utf8Ok p.text = true := by
      obtain ⟨v, hv, hpv⟩ := ha
      exact parse_text_utf8 (value_utf8 hl hd hv) hpv
    rw [← queryField_iff] at ha hn hs
    have e : nameResolve env txt query = pathAnswer (resolveIpns env.q.mb txt 0 p false) := by
      simp only [nameResolve, hp, ha, hn, hs]
    rw [e]
    refine ⟨fun q hq => ?_, fun hq => ?_⟩
    · rw [(C55_single env.q.mb txt 0 p q).mpr hq]
      exact ⟨_, rfl, readPath_answer _ lt (next_text_utf8 hu hq)⟩
    · cases hr : ipnsResolve env.q.mb txt p with
      | ok q => exact absurd (next_iff.mp hr) (hq q)
      | error x => exact ⟨x, by simp [resolveIpns, hr, pathAnswer]⟩
  · simp only [nameResolve, hp]
    split
    · rename_i h1 h2 h3
      exact absurd ⟨queryField_iff.mp h1, queryField_iff.mp h2, queryField_iff.mp h3⟩ (hn _ _ _)
    · rfl

/-- The path a text stands for in a request to `dns`: itself, and otherwise, if it does not begin with a slash, the name
it is. -/
inductive DnsMeans (mb : UInt8 → Bytes → Option Bytes) (text : Bytes) : IpfsPath → Prop
  | path {p} : IpfsPath.parse mb text = some p → DnsMeans mb text p
  | name {p} : IpfsPath.parse mb text = none → (∀ t, text ≠ 47 :: t) →
      IpfsPath.parse mb ("/ipns/".toUTF8.toList ++ text) = some p → DnsMeans mb text p

theorem dnsPath_iff (mb : UInt8 → Bytes → Option Bytes) (text : Bytes) (p : IpfsPath) : dnsPath mb text = some p ↔ DnsMeans mb text p := by
  have hh : text.head? ≠ some 47 ↔ ∀ t, text ≠ 47 :: t := by
    cases text with
    | nil => simp
    | cons c t => simp
  unfold dnsPath
  split
  · rename_i h
    cases he : IpfsPath.parse mb text with
    | some q =>
      simp only [Option.some.injEq]
      constructor
      · rintro rfl; exact .path he
      · intro h'
        cases h' with
        | path h'' => rw [he] at h''; exact Option.some.inj h''
        | name h'' _ _ => rw [he] at h''; cases h''
    | none =>
      dsimp only
      constructor
      · intro h'; exact .name he (hh.mp h) h'
      · intro h'
        cases h' with
        | path h'' => rw [he] at h''; cases h''
        | name _ _ h'' => exact h''
  · rename_i h
    constructor
    · exact .path
    · intro h'
      cases h' with
      | path h'' => exact h''
      | name _ h'' _ => exact absurd (hh.mpr h'') h

theorem dnsMeans_utf8 {mb : UInt8 → Bytes → Option Bytes} {text : Bytes} {p : IpfsPath} (hu : utf8Ok text = true)
    (h : DnsMeans mb text p) : utf8Ok p.text = true := by
  cases h with
  | path h => exact parse_text_utf8 hu h
  | name _ _ h => exact parse_text_utf8 (by rw [utf8Ok_append (by decide +kernel)]; exact hu) h

/-- **C75**: who asks `dns` about a name or a path reads the path one step further, or, if they ask for all steps, the
path with a cid the steps lead to. -/
theorem C75_dns (env : NodeEnv) (hl : ∀ x, utf8Ok (env.q.lossy x) = true) (lt : NodeFail → Bytes) (txt : Txt) (fuel : Nat)
    (query : Bytes) (ps : List (Bytes × Bytes)) (hd : Decoded env.q query ps) (text : Bytes)
    (ha : GivenOnce "arg".toUTF8.toList text ps) (v : Option Bool) (hr : Given readBool "recursive".toUTF8.toList ps v) :
    (∀ p, DnsMeans env.q.mb text p →
      (v ≠ some true →
        (∀ q, Next env.q.mb txt p q → ∃ r, nodeDns env txt fuel query = some r ∧
          readPath env.q.mb (nodeAnswer lt r) = IpfsPath.parse env.q.mb q.text) ∧
        ((∀ q, ¬ Next env.q.mb txt p q) → ∃ e, nodeDns env txt fuel query = some (.failed (.name e)))) ∧
      (v = some true → ∀ sets, FinitelyMany txt sets → sets.length + 3 ≤ fuel →
        (∀ c segs, Leads env.q.mb txt p ⟨.ipld c, segs⟩ → ∃ r, nodeDns env txt fuel query = some r ∧
          readPath env.q.mb (nodeAnswer lt r) = IpfsPath.parse env.q.mb (IpfsPath.text ⟨.ipld c, segs⟩)) ∧
        ((∃ q, Leads env.q.mb txt p q ∧ ∀ r, ¬ Next env.q.mb txt q r) → ∃ e, nodeDns env txt fuel query = some (.failed (.name e))))) ∧
    ((∀ p, ¬ DnsMeans env.q.mb text p) → nodeDns env txt fuel query = some (.failed .badPath)) := by
  have hp := (decoded_iff _ _ _).mp hd
  have hk : kDeep = "recursive".toUTF8.toList := rfl
  have hu := value_utf8 hl hd ha
  have hq : queryField some kArg ps = .ok (some text) := queryField_iff.mpr ⟨text, by rw [kArg_eq]; exact ha, rfl⟩
  rw [← hk, ← parseBool_eq, ← queryField_iff] at hr
  refine ⟨fun p hm => ?_, fun hn => ?_⟩
  · have hpu := dnsMeans_utf8 hu hm
    have e : nodeDns env txt fuel query = pathAnswer (resolveIpns env.q.mb txt fuel p (v.getD false)) := by
      simp only [nodeDns, hp, hq, hr, (dnsPath_iff _ _ _).mpr hm]
    rw [e]
    refine ⟨fun hv => ?_, fun hv sets hfin hfuel => ?_⟩
    · have ev : v.getD false = false := by
        rcases v with _ | _ | _
        · rfl
        · rfl
        · exact absurd rfl hv
      rw [ev]
      refine ⟨fun q hq => ?_, fun hq => ?_⟩
      · rw [(C55_single env.q.mb txt fuel p q).mpr hq]
        exact ⟨_, rfl, readPath_answer _ lt (next_text_utf8 hpu hq)⟩
      · cases hr : ipnsResolve env.q.mb txt p with
        | ok q => exact absurd (next_iff.mp hr) (hq q)
        | error x => exact ⟨x, by simp [resolveIpns, hr, pathAnswer]⟩
    · subst hv
      obtain ⟨r, hr⟩ := C55_terminates env.q.mb txt sets hfin p fuel hfuel
      refine ⟨fun c segs hlead => ?_, fun hq => ?_⟩
      · have := C55_cid env.q.mb txt fuel p c segs r hr hlead
        subst this
        rw [Option.getD_some, hr]
        exact ⟨_, rfl, readPath_answer _ lt (leads_text_utf8 hpu hlead)⟩
      · obtain ⟨x, hx⟩ := (C55_error env.q.mb txt fuel p r hr).1.mpr hq
        subst hx
        rw [Option.getD_some, hr]
        exact ⟨x, rfl⟩
  · have : dnsPath env.q.mb text = none := by
      cases h : dnsPath env.q.mb text with
      | none => rfl
      | some p => exact absurd ((dnsPath_iff _ _ _).mp h) (hn p)
    simp only [nodeDns, hp, hq, hr, this]

/-- **C75**: a request to `dns` without a name, with several, or with a flag that is none, is refused. -/
theorem C75_dns_refused (env : NodeEnv) (txt : Txt) (fuel : Nat) (query : Bytes) (ps : List (Bytes × Bytes)) (hd : Decoded env.q query ps)
    (h : (∀ text, ¬ GivenOnce "arg".toUTF8.toList text ps) ∨ ∀ v, ¬ Given readBool "recursive".toUTF8.toList ps v) :
    nodeDns env txt fuel query = some (.failed .badQuery) := by
  have hp := (decoded_iff _ _ _).mp hd
  have hk : kDeep = "recursive".toUTF8.toList := rfl
  rw [← hk, ← parseBool_eq, ← kArg_eq] at h
  simp only [← queryField_iff] at h
  simp only [nodeDns, hp]
  split
  · rename_i arg v h1 h2
    rcases h with h | h
    · obtain ⟨x, hx, -⟩ := queryField_iff.mp h1
      exact absurd hx (h x)
    · exact absurd h2 (h v)
  · rfl

/-- **C75**: a name that is neither a cid nor a peer id stands for itself in a request to `dns`. -/
theorem C75_dns_name (mb : UInt8 → Bytes → Option Bytes) (name : Bytes) (hs : NoSlash name) (hc : Cid.ofText mb name = none)
    (hp : PeerId.ofText name = none) (p : IpfsPath) : DnsMeans mb name p ↔ p = ⟨.dns name, []⟩ := by
  have h1 : IpfsPath.parse mb ("/ipns/".toUTF8.toList ++ name) = some ⟨.dns name, []⟩ := by
    have := parse_text (mb := mb) (p := ⟨.dns name, []⟩) ⟨hs, hp⟩ (by simp)
    have e : "/ipns/".toUTF8.toList = 47 :: sIpns ++ [47] := by decide +kernel
    rw [e]
    simpa [IpfsPath.text, PathRoot.text] using this
  have h2 : IpfsPath.parse mb name = none := by
    have hsp : splitSlash name = [name] := splitSlash_single hs
    simp only [IpfsPath.parse, hsp, parseRoot]
    by_cases hn : name = []
    · subst hn; rfl
    · simp [hn, hc]
  have h3 : ∀ t, name ≠ 47 :: t := by
    rintro t rfl
    exact hs 47 (by simp) rfl
  constructor
  · intro h
    cases h with
    | path h => rw [h2] at h; cases h
    | name _ _ h => rw [h1] at h; exact (Option.some.inj h).symm
  · rintro rfl
    exact .name h2 h3 h1

/-! ### C75 and C74: errors -/

/-- **C75**: every error is answered as a message: with the status 400 for a query that is not well-formed or a text that
is no peer id, 501 for what is not implemented, and 500 for everything else; errors of the DHT keep their text. -/
theorem C75_errors (lt : NodeFail → Bytes) (hl : ∀ e, utf8Ok (lt e) = true) (e : NodeFail) (he : ∀ m, e = .call m → utf8Ok m = true) :
    ∃ status message, complaint (nodeAnswer lt (.failed e)) = some (status, message) ∧
      (status = 400 ↔ e = .badQuery ∨ e = .invalidPeerId) ∧ (status = 501 ↔ e = .notImplemented) ∧
      (status = 400 ∨ status = 501 ∨ status = 500) ∧ (∀ m, e = .call m → message = m) ∧
      (e = .badQuery ∨ e = .elapsed ∨ e = .down ∨ e = .badAddr ∨ e = .badPath ∨ (∃ x, e = .name x) → message = lt e) := by
  cases e with
  | call m => exact ⟨500, m, complaint_message 500 (he m rfl), by simp⟩
  | notImplemented => exact ⟨501, _, complaint_message 501 (by decide +kernel), by simp⟩
  | invalidPeerId => exact ⟨400, _, complaint_message 400 (by decide +kernel), by simp⟩
  | badQuery => exact ⟨400, _, complaint_message 400 (hl _), by simp⟩
  | _ => exact ⟨500, _, complaint_message 500 (hl _), by simp⟩

/-- **C74**: what a client reads of an answer: the addresses, or a message with a status. -/
theorem C74_read (lt : BootFail → Bytes) (hl : ∀ e, utf8Ok (lt e) = true) :
    (∀ l, (∀ a ∈ l, utf8Ok a = true) → ((heardJson (bootAnswer lt (.peers l))).bind (jsonField "Peers")).bind jsonTexts = some l) ∧
    complaint (bootAnswer lt (.failed .badQuery)) = some (400, lt .badQuery) ∧
    complaint (bootAnswer lt (.failed .invalidQueryString)) = some (500, "invalid query string".toUTF8.toList) ∧
    complaint (bootAnswer lt (.failed .elapsed)) = some (500, lt .elapsed) ∧
    complaint (bootAnswer lt (.failed .down)) = some (500, lt .down) ∧
    bootAnswer lt .closed = none := by
  refine ⟨fun l h => ?_, complaint_message 400 (hl _), complaint_message 500 (by decide +kernel), complaint_message 500 (hl _),
    complaint_message 500 (hl _), rfl⟩
  have n : nesting (.arr (l.map Json.str)) ≤ 1 := nesting_texts (fun a => a) l
  have w : Writable (.arr (l.map Json.str)) := writable_texts (fun a => a) l h
  obtain ⟨o, ho, hf⟩ := heard_single (fun _ => []) "Peers" (.arr (l.map Json.str)) (by decide +kernel) w (by omega)
  have e : heardJson (bootAnswer lt (.peers l)) = some o := ho
  simp only [e, Option.bind_some, hf, jsonTexts_str]

/-! ### Examples -/

/-- The environment of the examples: text is not changed, and the address "A" names a peer. -/
def exNodeEnv : NodeEnv where
  q := ⟨id, fun s => if s = [49, 115] then some 1 else none, fun _ _ => none⟩
  parseAddr := fun s => if s = [65] then some (exHost ++ [.p2p exPeerA.mhCode exPeerA.digest]) else if s = [66] then some exHost else none
  show' := fun c => match c with
    | .ip4 .. => [47, 105]
    | .tcp _ => [47, 116]
    | _ => []
  debug := true

example : ∀ c, utf8Ok (exNodeEnv.show' c) = true := by
  intro c
  cases c <;> rfl

example : exPeerA.Valid ∧ exPeerB.Valid := by
  constructor <;> (unfold PeerId.Valid; decide +kernel)

/-- A query for the providers of a block with a number, and what is answered: the first of two. -/
def exProvs : Bytes := "arg=".toUTF8.toList ++ (Cid.toText ⟨.v1, codecRaw, mhSha256, List.replicate 32 1⟩) ++ "&num-providers=1".toUTF8.toList

example : (heardJson (nodeAnswer (fun _ => []) (dhtFindProvs exNodeEnv (fun _ => .ok [exPeerB, exPeerA]) true exProvs))).bind readDht =
    some ([], [(exPeerB, [])]) := by decide +kernel

example : (heardJson (nodeAnswer (fun _ => []) (dhtFindPeer exNodeEnv (fun _ => .ok [exHost]) true
    ("arg=".toUTF8.toList ++ exPeerB.toText)))).bind readDht = some ([], [(exPeerB, ["/i/t".toUTF8.toList])]) := by decide +kernel

example : DhtAsked PeerId.ofText exNodeEnv.q [("arg".toUTF8.toList, exPeerB.toText), ("timeout".toUTF8.toList, "1s".toUTF8.toList)]
    exPeerB (some 1) := by
  unfold DhtAsked
  rw [← parseBool_eq]
  simp only [← queryField_iff]
  exact ⟨by decide +kernel, ⟨none, by decide +kernel⟩, by decide +kernel⟩

example : ¬ InTime (some 1) true ∧ InTime none true := by simp [InTime]

/-- Connecting to an address with and without a peer. -/
example : ((heardJson (nodeAnswer (fun _ => []) (swarmCall exNodeEnv (fun _ => none) "arg=A".toUTF8.toList))).bind jsonList).map List.length = some 0 ∧
    complaint (nodeAnswer (fun _ => []) (swarmCall exNodeEnv (fun _ => none) "arg=B".toUTF8.toList)) = some (500, []) ∧
    complaint (nodeAnswer (fun _ => []) (swarmCall exNodeEnv (fun _ => none) "a=B".toUTF8.toList)) = some (400, []) := by
  refine ⟨by decide +kernel, by decide +kernel, by decide +kernel⟩

/-- The addresses of two peers. -/
example : ([(exPeerA, [exHost]), (exPeerB, [])].map Prod.fst).Nodup := by decide +kernel

/-- A name with a record. -/
example : (nodeDns exNodeEnv (fun d => if d = "a".toUTF8.toList then some ["dnslink=/ipns/b".toUTF8.toList] else none) 0
    "arg=a".toUTF8.toList).map (fun r => readPath exNodeEnv.q.mb (nodeAnswer (fun _ => []) r)) =
      some (some ⟨.dns "b".toUTF8.toList, []⟩) := by decide +kernel

example : NoSlash "a".toUTF8.toList ∧ Cid.ofText exNodeEnv.q.mb "a".toUTF8.toList = none ∧ PeerId.ofText "a".toUTF8.toList = none := by
  refine ⟨by decide +kernel, by decide +kernel, by decide +kernel⟩

/-- An empty text stands for the empty name. -/
example : dnsPath exNodeEnv.q.mb [] = some ⟨.dns [], []⟩ := by decide +kernel

end Verif.Props
