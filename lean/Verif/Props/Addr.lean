import Verif.Ipfs.Addr

/-!
# C49: addresses with and without a peer id
-/

namespace Verif.Props

open Verif Verif.Ipfs

/-- The address names a peer somewhere. -/
def NamesPeer (a : Maddr) : Prop := ∃ code d, Comp.p2p code d ∈ a

/-- A relay marker. -/
def Relayed (a : Maddr) : Prop := Comp.p2pCircuit ∈ a

/-- `b` is `a` without the components naming peers and the relay markers: the other components, in their
order. -/
inductive Stripped : Maddr → Maddr → Prop where
  | nil : Stripped [] []
  | peer (code d a b) : Stripped a b → Stripped (.p2p code d :: a) b
  | relay (a b) : Stripped a b → Stripped (.p2pCircuit :: a) b
  | keep (c a b) : (∀ code d, c ≠ .p2p code d) → c ≠ .p2pCircuit → Stripped a b → Stripped (c :: a) (c :: b)

/-- The first peer named in `a`. -/
def FirstPeer (a : Maddr) (code : Nat) (d : Bytes) : Prop :=
  ∃ before after, a = before ++ .p2p code d :: after ∧ ¬ NamesPeer before

/-- What can be a peer id (the rule of libp2p). -/
def GoodPeer (code : Nat) (d : Bytes) : Prop := code = 0x12 ∨ (code = 0 ∧ d.length ≤ 42)

/-- The last component names a peer or is a relay marker. -/
def EndsInPeer (a : Maddr) : Prop :=
  (∃ b code d, a = b ++ [.p2p code d]) ∨ ∃ b, a = b ++ [.p2pCircuit]

theorem endsInPeerPart_iff (a : Maddr) : endsInPeerPart a = true ↔ EndsInPeer a := by
  rcases List.eq_nil_or_concat a with rfl | ⟨b, c, rfl⟩
  · simp [endsInPeerPart, EndsInPeer]
  · have : endsInPeerPart (b ++ [c]) = c.isPeerPart := by simp [endsInPeerPart]
    rw [List.concat_eq_append, this]
    have h1 : ∀ x : Comp, (∃ b', b ++ [c] = b' ++ [x]) ↔ c = x := by
      intro x
      constructor
      · rintro ⟨b', e⟩
        exact (List.append_inj' e rfl).2 |> fun h => (List.cons.inj h).1
      · rintro rfl; exact ⟨b, rfl⟩
    unfold EndsInPeer
    rw [show (∃ b' code d, b ++ [c] = b' ++ [Comp.p2p code d]) ↔ ∃ code d, c = Comp.p2p code d from
      ⟨fun ⟨b', code, d, e⟩ => ⟨code, d, (h1 _).mp ⟨b', e⟩⟩,
       fun ⟨code, d, e⟩ => ⟨b, code, d, by rw [e]⟩⟩, h1]
    cases c <;> simp [Comp.isPeerPart]

theorem isP2p_iff (c : Comp) : c.isP2p = true ↔ ∃ code d, c = .p2p code d := by
  cases c <;> simp [Comp.isP2p]

theorem any_p2p_iff (a : Maddr) : a.any Comp.isP2p = true ↔ NamesPeer a := by
  simp only [List.any_eq_true, isP2p_iff, NamesPeer]
  exact ⟨fun ⟨c, hm, code, d, e⟩ => ⟨code, d, e ▸ hm⟩, fun ⟨code, d, hm⟩ => ⟨_, hm, code, d, rfl⟩⟩

theorem firstP2p_none (a : Maddr) : firstP2p a = none ↔ ¬ NamesPeer a := by
  induction a with
  | nil => simp [firstP2p, NamesPeer]
  | cons c a ih =>
    cases c with
    | p2p code d =>
      simp only [firstP2p, reduceCtorEq, false_iff, Classical.not_not]
      exact ⟨code, d, by simp⟩
    | _ => simp_all [firstP2p, NamesPeer]

theorem firstP2p_some (a : Maddr) (code : Nat) (d : Bytes) :
    firstP2p a = some (code, d) ↔ FirstPeer a code d := by
  induction a with
  | nil => simp [firstP2p, FirstPeer]
  | cons c a ih =>
    have key : (∀ co dd, c ≠ .p2p co dd) →
        (FirstPeer (c :: a) code d ↔ FirstPeer a code d) := by
      intro hc
      constructor
      · rintro ⟨b, t, e, hn⟩
        cases b with
        | nil => simp only [List.nil_append, List.cons.injEq] at e; exact absurd e.1 (hc _ _)
        | cons x b =>
          simp only [List.cons_append, List.cons.injEq] at e
          refine ⟨b, t, e.2, ?_⟩
          rintro ⟨co, dd, hm⟩
          exact hn ⟨co, dd, List.mem_cons_of_mem _ hm⟩
      · rintro ⟨b, t, e, hn⟩
        refine ⟨c :: b, t, by rw [e]; rfl, ?_⟩
        rintro ⟨co, dd, hm⟩
        rcases List.mem_cons.mp hm with h | h
        · exact hc _ _ h.symm
        · exact hn ⟨co, dd, h⟩
    cases c with
    | p2p co dd =>
      simp only [firstP2p, Option.some.injEq, Prod.mk.injEq]
      constructor
      · rintro ⟨rfl, rfl⟩
        exact ⟨[], a, rfl, by simp [NamesPeer]⟩
      · rintro ⟨b, t, e, hn⟩
        cases b with
        | nil =>
          simp only [List.nil_append, List.cons.injEq, Comp.p2p.injEq] at e
          exact e.1
        | cons x b =>
          simp only [List.cons_append, List.cons.injEq] at e
          exact absurd ⟨co, dd, by rw [e.1]; simp⟩ hn
    | _ => simpa only [firstP2p, ih] using (key (by simp)).symm

theorem stripped_filter (a : Maddr) : Stripped a (a.filter (fun c => !c.isPeerPart)) := by
  induction a with
  | nil => exact .nil
  | cons c a ih =>
    cases c with
    | p2p code d => exact .peer _ _ _ _ ih
    | p2pCircuit => exact .relay _ _ ih
    | _ => exact .keep _ _ _ (by simp) (by simp) ih

theorem stripped_unique {a b c : Maddr} (h : Stripped a b) (h2 : Stripped a c) : b = c := by
  induction h generalizing c with
  | nil => cases h2; rfl
  | peer code d a b _ ih =>
    cases h2 with
    | peer _ _ _ _ h2 => exact ih h2
    | keep _ _ _ hc => exact absurd rfl (hc _ _)
  | relay a b _ ih =>
    cases h2 with
    | relay _ _ h2 => exact ih h2
    | keep _ _ _ _ hc => exact absurd rfl hc
  | keep x a b h1 h1' _ ih =>
    cases h2 with
    | peer code d => exact absurd rfl (h1 _ _)
    | relay => exact absurd rfl h1'
    | keep _ _ _ _ _ h2 => rw [ih h2]

theorem stripped_self {a : Maddr} (h : ¬ NamesPeer a) (hr : ¬ Relayed a) : Stripped a a := by
  induction a with
  | nil => exact .nil
  | cons c a ih =>
    refine .keep _ _ _ ?_ ?_ (ih ?_ ?_)
    · rintro code d rfl; exact h ⟨code, d, by simp⟩
    · rintro rfl; exact hr (by simp [Relayed])
    · rintro ⟨code, d, hm⟩; exact h ⟨code, d, List.mem_cons_of_mem _ hm⟩
    · intro hm; exact hr (List.mem_cons_of_mem _ hm)

theorem peerOf_some (code : Nat) (d : Bytes) (p : PeerId) :
    peerOf code d = some p ↔ GoodPeer code d ∧ p = ⟨code, d⟩ := by
  unfold peerOf GoodPeer mhSha256
  split
  · simp_all [eq_comm]
  · rename_i h
    simp only [reduceCtorEq, false_iff]
    rintro ⟨hg, -⟩
    exact h hg

/-- **C49** An address is accepted as one without a peer id exactly if no component names a peer, and it is
not changed. -/
theorem C49_without (a : Maddr) (x : AddrOnly) :
    AddrOnly.ofAddr a = .ok x ↔ ¬ NamesPeer a ∧ x.addr = a := by
  unfold AddrOnly.ofAddr
  rw [show (¬ NamesPeer a) = ¬ (a.any Comp.isP2p = true) from by rw [any_p2p_iff]]
  cases h : a.any Comp.isP2p
  · simp only [Bool.false_eq_true, if_false, Except.ok.injEq, not_false_eq_true, true_and]
    exact ⟨fun e => e ▸ rfl, fun e => by cases x; simp_all⟩
  · simp

/-- **C49** Parsing an address with a peer id succeeds exactly if the first peer it names is a valid peer id
(in debug builds: and the last component names a peer or is a relay marker); the result is that peer and all
the other components in their order, except relay markers and further peers. -/
theorem C49_parse (debug : Bool) (a : Maddr) (x : AddrPeer) :
    AddrPeer.ofAddr debug a = .ok x ↔
      FirstPeer a x.peer.mhCode x.peer.digest ∧ GoodPeer x.peer.mhCode x.peer.digest ∧
        Stripped a x.multiaddr.addr ∧ (debug = true → EndsInPeer a) := by
  rw [← endsInPeerPart_iff]
  unfold AddrPeer.ofAddr
  cases h : firstP2p a with
  | none =>
    simp only [reduceCtorEq, false_iff]
    rintro ⟨hf, -⟩
    rw [(firstP2p_some _ _ _).mpr hf] at h
    simp at h
  | some cd =>
    obtain ⟨code, d⟩ := cd
    have hfirst : ∀ co dd, FirstPeer a co dd ↔ co = code ∧ dd = d := by
      intro co dd
      rw [← firstP2p_some, h]
      simp [eq_comm]
    simp only [hfirst]
    cases hd : (debug && !endsInPeerPart a)
    · have hd' : debug = true → endsInPeerPart a = true := by
        rintro rfl; simpa using hd
      simp only [Bool.false_eq_true, if_false]
      cases hp : peerOf code d with
      | none =>
        simp only [reduceCtorEq, false_iff]
        rintro ⟨⟨e1, e2⟩, hg, -⟩
        rw [e1, e2] at hg
        rw [(peerOf_some _ _ _).mpr ⟨hg, rfl⟩] at hp
        simp at hp
      | some p =>
        obtain ⟨hg, rfl⟩ := (peerOf_some _ _ _).mp hp
        simp only [Except.ok.injEq]
        constructor
        · rintro rfl
          exact ⟨⟨rfl, rfl⟩, hg, stripped_filter a, hd'⟩
        · rintro ⟨⟨e1, e2⟩, -, hs, -⟩
          obtain ⟨⟨m⟩, ⟨c1, c2⟩⟩ := x
          simp only at e1 e2 hs
          rw [e1, e2, stripped_unique (stripped_filter a) hs]
    · simp only [Bool.and_eq_true, Bool.not_eq_true'] at hd
      simp only [if_true, reduceCtorEq, false_iff]
      rintro ⟨-, -, -, hx⟩
      rw [hx hd.1] at hd
      simp at hd

/-- **C49** The error of an address that names no peer. -/
theorem C49_missing (debug : Bool) (a : Maddr) :
    AddrPeer.ofAddr debug a = .error .missingP2p ↔ ¬ NamesPeer a := by
  rw [← firstP2p_none]
  unfold AddrPeer.ofAddr
  cases h : firstP2p a with
  | none => simp
  | some cd =>
    simp only [reduceCtorEq, iff_false]
    split
    · simp
    · split <;> simp

/-- **C49** Adding a peer id to an address without one gives both back when split again: always if split as
a pair, and also after conversion to a plain multiaddress, in debug and release builds, if the address has
no relay marker. -/
theorem C49_round_trip_partial (debug : Bool) (a : Maddr) (p : PeerId) (x : AddrOnly)
    (hx : AddrOnly.ofAddr a = .ok x) (hp : GoodPeer p.mhCode p.digest) (hr : ¬ Relayed a) :
    AddrPeer.ofAddr debug (x.withPeer p).toAddr = .ok (x.withPeer p) ∧
      (x.withPeer p).only = x ∧ (x.withPeer p).peer = p := by
  obtain ⟨hn, e⟩ := (C49_without a x).mp hx
  subst e
  refine ⟨?_, rfl, rfl⟩
  rw [C49_parse]
  refine ⟨⟨x.addr, [], rfl, hn⟩, hp, ?_, ?_⟩
  · have h1 : ∀ b : Maddr, ¬ NamesPeer b → ¬ Relayed b → Stripped (b ++ [.p2p p.mhCode p.digest]) b := by
      intro b hb hb'
      induction b with
      | nil => exact .peer _ _ _ _ .nil
      | cons c b ih =>
        refine .keep _ _ _ ?_ ?_ (ih ?_ ?_)
        · rintro code d rfl; exact hb ⟨code, d, by simp⟩
        · rintro rfl; exact hb' (by simp [Relayed])
        · rintro ⟨code, d, hm⟩; exact hb ⟨code, d, List.mem_cons_of_mem _ hm⟩
        · intro hm; exact hb' (List.mem_cons_of_mem _ hm)
    exact h1 _ hn hr
  · intro _
    exact .inl ⟨x.addr, _, _, rfl⟩

/-- **C49** What parsing returns can be converted back and parsed again without further loss, and its
address part is accepted as one without a peer id. -/
theorem C49_parse_again (debug debug' : Bool) (a : Maddr) (x : AddrPeer) (h : AddrPeer.ofAddr debug a = .ok x) :
    AddrOnly.ofAddr x.multiaddr.addr = .ok x.multiaddr ∧ AddrPeer.ofAddr debug' x.toAddr = .ok x := by
  obtain ⟨-, hg, hs, -⟩ := (C49_parse debug a x).mp h
  have hclean : ∀ {a b : Maddr}, Stripped a b → ¬ NamesPeer b ∧ ¬ Relayed b := by
    intro a b hs
    induction hs with
    | nil => simp [NamesPeer, Relayed]
    | peer _ _ _ _ _ ih => exact ih
    | relay _ _ _ ih => exact ih
    | keep c a b h1 h2 _ ih =>
      constructor
      · rintro ⟨code, d, hm⟩
        rcases List.mem_cons.mp hm with e | hm
        · exact h1 _ _ e.symm
        · exact ih.1 ⟨code, d, hm⟩
      · intro hm
        rcases List.mem_cons.mp hm with e | hm
        · exact h2 e.symm
        · exact ih.2 hm
  obtain ⟨h1, h2⟩ := hclean hs
  have ho : AddrOnly.ofAddr x.multiaddr.addr = .ok x.multiaddr := (C49_without _ _).mpr ⟨h1, rfl⟩
  exact ⟨ho, (C49_round_trip_partial debug' _ x.peer x.multiaddr ho hg h2).1⟩

/-- **C49** The text of an address with a peer id is the text of the plain multiaddress it is converted to. -/
theorem C49_text (show' : Comp → Bytes) (x : AddrPeer) : x.text show' = Maddr.text show' x.toAddr := by
  simp [AddrPeer.text, AddrPeer.toAddr, Maddr.text, Comp.text, PeerId.toText, PeerId.toBytes]

/-- "/ip4/10.0.0.1/tcp/4001", two peers and an address through a relay. -/
def exHost : Maddr := [.ip4 10 0 0 1, .tcp 4001]
def exPeerA : PeerId := ⟨0x12, List.replicate 32 7⟩
def exPeerB : PeerId := ⟨0, [8, 1, 18, 2, 5, 6]⟩
def exRelayed : Maddr := exHost ++ [.p2p 0x12 (List.replicate 32 7), .p2pCircuit, .p2p 0 [8, 1, 18, 2, 5, 6]]

example : AddrOnly.ofAddr exHost = .ok ⟨exHost⟩ ∧ ¬ Relayed exHost ∧
    GoodPeer exPeerB.mhCode exPeerB.digest := ⟨by decide, by simp [Relayed, exHost], by simp [GoodPeer, exPeerB]⟩

example : AddrPeer.ofAddr true ((AddrOnly.mk exHost).withPeer exPeerB).toAddr = .ok ⟨⟨exHost⟩, exPeerB⟩ := by decide

/-- **C49** What is lost. An address through a relay is read as the address of the relay, not of the peer
behind it; an address ending in a relay marker does not survive adding a peer id and splitting; a peer named
before other components is accepted in release builds, which moves it to the end. -/
theorem C49_relay :
    AddrPeer.ofAddr true exRelayed = .ok ⟨⟨exHost⟩, exPeerA⟩ ∧
    (∃ x, AddrOnly.ofAddr (exHost ++ [.p2pCircuit]) = .ok x ∧
      AddrPeer.ofAddr true (x.withPeer exPeerB).toAddr = .ok ⟨⟨exHost⟩, exPeerB⟩ ∧
      (x.withPeer exPeerB) ≠ ⟨⟨exHost⟩, exPeerB⟩) ∧
    (∃ x, AddrPeer.ofAddr false (.p2p exPeerB.mhCode exPeerB.digest :: exHost) = .ok x ∧
      x.toAddr = exHost ++ [.p2p exPeerB.mhCode exPeerB.digest]) ∧
    AddrPeer.ofAddr true (.p2p exPeerB.mhCode exPeerB.digest :: exHost) = .error .debugAssert := by
  refine ⟨by decide, ⟨⟨exHost ++ [.p2pCircuit]⟩, by decide, by decide, by decide⟩,
    ⟨⟨⟨exHost⟩, exPeerB⟩, by decide, by decide⟩, by decide⟩

end Verif.Props
