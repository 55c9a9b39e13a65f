import Verif.Props.ExchangeNode

/-!
# C73: a block that a connected peer has arrives
-/

namespace Verif.Props

open Verif Verif.Repo Verif.Repo.Subs Verif.Bitswap Verif.Net
open Verif.Bitswap.Bitswap

variable {P : Type} [DecidableEq P]

/-! ### Specification -/

/-- What users and peers do is in order: cids that are asked for can be written, blocks that are put match their
cids, and blocks that come in from anybody have cids that can be written. -/
def InOrder (H : Hashes) : NetEv P → Prop
  | .get _ c => c.Valid
  | .put _ b => b.cid.Valid ∧ Authentic H b.cid b.data
  | .bytes _ _ bs => ∀ m, Message.unframe H bs = some m → ∀ b ∈ m.blocks, b.cid.Valid
  | _ => True

/-- At this node, no block with the multihash of the cid is stored under another cid. -/
def NoAlias (x : P) (c : Cid) (s : NetSt P) : NetEv P → Prop
  | .put y b => y = x → b.cid.mh = c.mh → b.cid = c
  | .save y k => y = x → ∀ e, (s.node x).bits.tasks[k]? = some e → e.2.cid.mh = c.mh → e.2.cid = c
  | _ => True

/-- The frame is on its way between the two. -/
def Between (x y : P) (f : Parcel P) : Prop := f.sender = x ∧ f.receiver = y ∨ f.sender = y ∧ f.receiver = x

/-- Between the two there is one connection, which stays; no frame is lost and none is too long, and the second keeps
the block. -/
structure Undisturbed (x y : P) (c : Cid) (s : NetSt P) (e : NetEv P) (s' : NetSt P) : Prop where
  stays : e ≠ .closed x y ∧ e ≠ .closed y x
  once : (e = .established x y → (s.node x).bits.bs.peers.get y = none) ∧ (e = .established y x → (s.node y).bits.bs.peers.get x = none)
  keeps : ∀ d, e = .remove y d → d.mh ≠ c.mh
  arrives : ∀ k f, e = .lose k → s.flight[k]? = some f → ¬ Between x y f
  short : ∀ f ∈ s'.flight, Between x y f → f.bytes.length ≤ maxBufSize

/-- Lengths have 64 bits. -/
def Short64 (s : NetSt P) : Prop := ∀ f ∈ s.flight, f.bytes.length < 2 ^ 64

/-- What can happen, one event after the other, when every event meets a condition. -/
inductive NetRun (H : Hashes) (debug : Bool) (ok : NetSt P → NetEv P → NetSt P → Prop) : NetSt P → NetSt P → Prop
  | refl (s : NetSt P) : NetRun H debug ok s s
  | step {s t u : NetSt P} (e : NetEv P) : NetRun H debug ok s t → ok t e u → t.step H debug e = some u → NetRun H debug ok s u

/-- Nothing is left to do at the node. -/
structure Idle (n : Peer P) : Prop where
  chan : n.chan = []
  lookups : n.lookups = []
  tasks : n.bits.tasks = []
  events : n.bits.bs.events = []
  ready : n.bits.bs.ready = []
  messages : ∀ p l, n.bits.bs.peers.get p = some l → l.message.isEmpty = true

/-! ### Helpers -/

/-- The nodes and the frames are in order. -/
structure NetFine (H : Hashes) (s : NetSt P) : Prop where
  node : ∀ x, PeerFine H (s.node x)
  flight : ∀ f ∈ s.flight, ∀ m, Message.unframe H f.bytes = some m → ∀ b ∈ m.blocks, b.cid.Valid

omit [DecidableEq P] in
theorem rest_sub {s : NetSt P} {ev : NetEv P} {f : Parcel P} (h : f ∈ restFlight s ev) : f ∈ s.flight := by
  cases ev <;> simp only [restFlight] at h <;> first | exact h | exact List.mem_of_mem_eraseIdx h

omit [DecidableEq P] in
theorem rest_mem {s : NetSt P} {ev : NetEv P} {f : Parcel P} (h : f ∈ s.flight) : f ∈ restFlight s ev ∨
    (∃ k, ev = .lose k ∧ s.flight[k]? = some f) ∨ ∃ k, ev = .deliver k ∧ s.flight[k]? = some f := by
  have key : ∀ k, f ∈ s.flight.eraseIdx k ∨ s.flight[k]? = some f := by
    intro k
    obtain ⟨j, hj, hje⟩ := List.mem_iff_getElem.mp h
    by_cases hjk : j = k
    · subst hjk; right; rw [List.getElem?_eq_getElem hj, hje]
    · exact Or.inl (List.mem_eraseIdx_iff_getElem.mpr ⟨j, hj, hjk, hje⟩)
  cases ev with
  | deliver k =>
    rcases key k with h | h
    · exact Or.inl h
    · exact Or.inr (Or.inr ⟨k, rfl, h⟩)
  | lose k =>
    rcases key k with h | h
    · exact Or.inl h
    · exact Or.inr (Or.inl ⟨k, rfl, h⟩)
  | _ => exact Or.inl h

/-- What a frame that was sent says to the receiver. -/
theorem frame_says {H : Hashes} {m : Message} (hm : MsgOk H m) (hl : m.frame.length ≤ maxBufSize) :
    Message.unframe H m.frame = some { m with full := false } := by
  have h1 : m.toBytes.length ≤ maxBufSize := by
    simp only [Message.frame, List.length_append] at hl; omega
  rw [C41_frame H m hm (by simp only [maxBufSize] at h1; omega), if_pos h1]

theorem NetFine.init (H : Hashes) : NetFine H (NetSt.init : NetSt P) :=
  ⟨fun _ => PeerFine.init H, (by intro _ h; cases h)⟩

theorem labFine_of {H : Hashes} {s : NetSt P} {ev : NetEv P} {x : P} {lab : Lab P} (hs : NetFine H s) (ho : InOrder H ev)
    (h : evLab s ev = some (x, lab)) : LabFine H lab := by
  cases ev with
  | deliver k =>
    simp only [evLab, Option.map_eq_some_iff] at h
    obtain ⟨f, hf, h⟩ := h
    cases h
    exact hs.flight f (List.mem_of_getElem? hf)
  | lose k => cases h
  | get y c => cases h; exact ho
  | put y b => cases h; exact ho
  | bytes y z bs => cases h; exact ho
  | _ => cases h; trivial

/-- What a frame of a message says is in order. -/
theorem frame_valid {H : Hashes} {m m' : Message} (hm : MsgOk H m) (hl : m.frame.length < 2 ^ 64)
    (h : Message.unframe H m.frame = some m') : ∀ b ∈ m'.blocks, b.cid.Valid := by
  have hl : m.toBytes.length < 2 ^ 64 := by simp only [Message.frame, List.length_append] at hl; omega
  rw [C41_frame H m hm hl] at h
  split at h
  · cases h; exact fun b hb => (hm.blocks b hb).1
  · cases h

theorem NetFine.step {H : Hashes} {debug : Bool} {s s' : NetSt P} {ev : NetEv P} (hs : NetFine H s) (ho : InOrder H ev)
    (hfit : Short64 s') (h : s.step H debug ev = some s') : NetFine H s' ∧
      ∀ f ∈ s'.flight, f ∈ restFlight s ev ∨ ∃ x lab n' m, evLab s ev = some (x, lab) ∧
        peerMove H debug (s.node x) lab = some (some (f.receiver, m), n') ∧ f.sender = x ∧ f.bytes = m.frame ∧ MsgOk H m := by
  rcases net_step h with ⟨h1, h2, h3⟩ | ⟨x, lab, a, n', h1, h2, h3, h4, h5⟩
  · refine ⟨⟨by rw [h2]; exact hs.node, ?_⟩, ?_⟩
    · rw [h3]; intro f hf; exact hs.flight f (rest_sub hf)
    · rw [h3]; intro f hf; exact Or.inl hf
  · have hm := (hs.node x).move (labFine_of hs ho h1) h2
    refine ⟨⟨?_, ?_⟩, ?_⟩
    · intro y
      by_cases hy : y = x
      · subst hy; rw [h3]; exact hm.1
      · rw [h4 y hy]; exact hs.node y
    · intro f hf
      have hlen := hfit f hf
      rw [h5] at hf
      rcases List.mem_append.mp hf with hf | hf
      · exact hs.flight f (rest_sub hf)
      · simp only [parcels, List.mem_map, Option.mem_toList] at hf
        obtain ⟨⟨y, m⟩, hy, rfl⟩ := hf
        intro m' hm'
        exact frame_valid (hm.2 y m hy) hlen hm'
    · rw [h5]; intro f hf
      rcases List.mem_append.mp hf with hf | hf
      · exact Or.inl hf
      · simp only [parcels, List.mem_map, Option.mem_toList] at hf
        obtain ⟨⟨y, m⟩, hy, rfl⟩ := hf
        right
        refine ⟨x, lab, n', m, h1, ?_, rfl, rfl, hm.2 y m hy⟩
        rw [h2, hy]

/-- Where the want of `x` for the cid, or the answer of `y`, is. -/
def OnWay (H : Hashes) (x y : P) (c : Cid) (s : NetSt P) : Prop :=
  AskNext c y (s.node x).bits ∨ AskQueued c y (s.node x).bits ∨
  (∃ f ∈ s.flight, f.sender = x ∧ f.receiver = y ∧ ∃ m pr, Message.unframe H f.bytes = some m ∧ m.want.get c = some pr) ∨
  (Linked x (s.node y).bits ∧ (Asked c x (s.node y).bits ∨ (x, c) ∈ (s.node y).lookups ∨ ReplyReady c x (s.node y).bits ∨
    ReplyNext c x (s.node y).bits)) ∨
  (∃ f ∈ s.flight, f.sender = y ∧ f.receiver = x ∧ ∃ m, Message.unframe H f.bytes = some m ∧ ∃ b ∈ m.blocks, b.cid = c)

/-- Whatever a connected peer is wanted to send is on its way. -/
def OutInv (H : Hashes) (x y : P) (c : Cid) (s : NetSt P) : Prop :=
  Wanting c (s.node x).bits → Linked y (s.node x).bits → OnWay H x y c s

theorem not_linked {q : P} {n : Bitswap.Node P} (h : n.bs.peers.get q = none) : ¬ Linked q n := by
  rintro ⟨l, hl⟩; rw [h] at hl; cases hl

/-- An event that leaves the connection in place is an operation that does. -/
theorem keeps_of {H : Hashes} {s : NetSt P} {ev : NetEv P} {x z : P} {lab : Lab P} {op : Bitswap.Op P}
    (h1 : evLab s ev = some (x, lab)) (ho : OpOf H (s.node x) lab op) (hc : ev ≠ .closed x z)
    (he : ev = .established x z → (s.node x).bits.bs.peers.get z = none) : Keeps z (s.node x).bits op := by
  constructor
  · rintro rfl
    cases lab with
    | closed y =>
      cases ho
      cases ev <;> simp [evLab] at h1
      exact hc (by rw [h1.1, h1.2])
    | event => obtain ⟨e, es, -, he⟩ := ho; cases e <;> cases he
    | swarm order => cases ho
    | look k => obtain ⟨_, _, _, _, _, h⟩ := ho; cases h
    | save k => obtain ⟨_, _, _, h⟩ := ho; cases h
    | established y => cases ho
    | arrive y bs => obtain ⟨_, _, h⟩ := ho; cases h
    | _ => exact ho
  · rintro rfl
    apply not_linked
    cases lab with
    | established y =>
      cases ho
      cases ev <;> simp [evLab] at h1
      exact he (by rw [h1.1, h1.2])
    | event => obtain ⟨e, es, -, he⟩ := ho; cases e <;> cases he
    | swarm order => cases ho
    | look k => obtain ⟨_, _, _, _, _, h⟩ := ho; cases h
    | save k => obtain ⟨_, _, _, h⟩ := ho; cases h
    | closed y => cases ho
    | arrive y bs => obtain ⟨_, _, h⟩ := ho; cases h
    | _ => exact ho.elim

theorem OutInv.step {H : Hashes} {debug : Bool} {x y : P} {c : Cid} {s s' : NetSt P} {ev : NetEv P} (hxy : x ≠ y)
    (hi : OutInv H x y c s) (hs : NetFine H s) (hy : HasInv c (s.node y)) (ho : InOrder H ev) (hd : Undisturbed x y c s ev s')
    (h : s.step H debug ev = some s') : OutInv H x y c s' := by
  rcases net_step h with ⟨h1, h2, h3⟩ | ⟨z, lab, a, n', h1, h2, h3, h4, h5⟩
  · intro hw hl
    rw [h2] at hw hl
    have key : ∀ f ∈ s.flight, Between x y f → f ∈ s'.flight := by
      intro f hf hb
      rw [h3]
      rcases rest_mem (ev := ev) hf with h | ⟨k, rfl, hk⟩ | ⟨k, rfl, hk⟩
      · exact h
      · exact absurd hb (hd.arrives k f rfl hk)
      · simp [evLab, hk] at h1
    unfold OnWay
    rw [h2]
    rcases hi hw hl with h | h | ⟨f, hf, h⟩ | h | ⟨f, hf, h⟩
    · exact Or.inl h
    · exact Or.inr (Or.inl h)
    · exact Or.inr (Or.inr (Or.inl ⟨f, key f hf (Or.inl ⟨h.1, h.2.1⟩), h⟩))
    · exact Or.inr (Or.inr (Or.inr (Or.inl h)))
    · exact Or.inr (Or.inr (Or.inr (Or.inr ⟨f, key f hf (Or.inr ⟨h.1, h.2.1⟩), h⟩)))
  · -- frames between the two stay, unless they are delivered now
    have key : ∀ f ∈ s.flight, Between x y f → f ∈ s'.flight ∨ (z = f.receiver ∧ lab = .arrive f.sender f.bytes) := by
      intro f hf hb
      rcases rest_mem (ev := ev) hf with h | ⟨k, rfl, hk⟩ | ⟨k, rfl, hk⟩
      · left; rw [h5]; exact List.mem_append_left _ h
      · exact absurd hb (hd.arrives k f rfl hk)
      · right
        simp only [evLab, hk, Option.map_some, Option.some.injEq, Prod.mk.injEq] at h1
        exact ⟨h1.1.symm, h1.2.symm⟩
    have hfine := (hs.node z).move (labFine_of hs ho h1) h2
    -- what a message that goes out between the two says
    have sent : ∀ q m, a = some (q, m) → Between x y ⟨z, q, m.frame⟩ →
        (⟨z, q, m.frame⟩ : Parcel P) ∈ s'.flight ∧ Message.unframe H m.frame = some { m with full := false } := by
      intro q m ha hb
      have hm : (⟨z, q, m.frame⟩ : Parcel P) ∈ s'.flight := by
        rw [h5]; refine List.mem_append_right _ ?_
        rw [ha]; simp [parcels]
      exact ⟨hm, frame_says (hfine.2 q m ha) (hd.short _ hm hb)⟩
    by_cases hzx : z = x
    · subst hzx
      have hyn : s'.node y = s.node y := h4 y (Ne.symm hxy)
      intro hw hl
      rw [h3] at hw hl
      rcases move_bits h2 with ⟨rfl, hbits, hno⟩ | ⟨op, act, hop, hst, hact⟩
      · rw [hbits] at hw hl
        unfold OnWay
        rw [h3, hyn, hbits]
        rcases hi hw hl with h | h | ⟨f, hf, h⟩ | h | ⟨f, hf, h⟩
        · exact Or.inl h
        · exact Or.inr (Or.inl h)
        · rcases key f hf (Or.inl ⟨h.1, h.2.1⟩) with hk | ⟨hk, -⟩
          · exact Or.inr (Or.inr (Or.inl ⟨f, hk, h⟩))
          · exact absurd (hk.trans h.2.1) hxy
        · exact Or.inr (Or.inr (Or.inr (Or.inl h)))
        · rcases key f hf (Or.inr ⟨h.1, h.2.1⟩) with hk | ⟨-, hk⟩
          · exact Or.inr (Or.inr (Or.inr (Or.inr ⟨f, hk, h⟩)))
          · subst hk
            obtain ⟨-, -, m, hm, -⟩ := h
            rw [show Message.unframe H f.bytes = none from hno] at hm; cases hm
      · have hk := keeps_of (z := y) h1 hop hd.stays.1 hd.once.1
        have ask : SendsAsk c y act → OnWay H z y c s' := by
          rintro ⟨m, pr, hm, hp⟩
          obtain ⟨g1, g2⟩ := sent y m ((hact y m).mpr hm) (Or.inl ⟨rfl, rfl⟩)
          exact Or.inr (Or.inr (Or.inl ⟨_, g1, rfl, rfl, _, pr, g2, hp⟩))
        have next : AskNext c y n'.bits → OnWay H z y c s' := fun h => Or.inl (by rw [h3]; exact h)
        have queued : AskQueued c y n'.bits → OnWay H z y c s' := fun h => Or.inr (Or.inl (by rw [h3]; exact h))
        rcases begins_asking hst (hs.node z).bits.wantedUniq hw hl with ⟨hw0, hl0⟩ | h | h
        · rcases hi hw0 hl0 with h | h | ⟨f, hf, h⟩ | h | ⟨f, hf, h⟩
          · rcases askNext_step hst hk h with h | h
            · exact next h
            · exact ask h
          · rcases askQueued_step hst h with h | h
            · exact queued h
            · exact ask h
          · rcases key f hf (Or.inl ⟨h.1, h.2.1⟩) with hk | ⟨hk, -⟩
            · exact Or.inr (Or.inr (Or.inl ⟨f, hk, h⟩))
            · exact absurd (hk.trans h.2.1) hxy
          · exact Or.inr (Or.inr (Or.inr (Or.inl (by rw [hyn]; exact h))))
          · rcases key f hf (Or.inr ⟨h.1, h.2.1⟩) with hk | ⟨-, hk⟩
            · exact Or.inr (Or.inr (Or.inr (Or.inr ⟨f, hk, h⟩)))
            · subst hk
              obtain ⟨-, -, m, hm, b, hb, hbc⟩ := h
              obtain ⟨m', hm', rfl⟩ := hop
              rw [hm] at hm'; cases hm'
              have := (came_received hst hb).2
              rw [hbc] at this
              exact absurd hw this
        · exact next h
        · exact queued h
    · have hxn : s'.node x = s.node x := h4 x (Ne.symm hzx)
      intro hw hl
      rw [hxn] at hw hl
      by_cases hzy : z = y
      · subst hzy
        rcases hi hw hl with h | h | ⟨f, hf, h⟩ | h | ⟨f, hf, h⟩
        · exact Or.inl (by rw [hxn]; exact h)
        · exact Or.inr (Or.inl (by rw [hxn]; exact h))
        · rcases key f hf (Or.inl ⟨h.1, h.2.1⟩) with hk | ⟨-, hk⟩
          · exact Or.inr (Or.inr (Or.inl ⟨f, hk, h⟩))
          · subst hk
            obtain ⟨hfs, -, m, pr, hm, hp⟩ := h
            rcases move_bits h2 with ⟨-, -, hno⟩ | ⟨op, act, hop, hst, -⟩
            · rw [show Message.unframe H f.bytes = none from hno] at hm; cases hm
            · obtain ⟨m', hm', rfl⟩ := hop
              rw [hm] at hm'; cases hm'
              rw [hfs] at hst
              refine Or.inr (Or.inr (Or.inr (Or.inl ⟨?_, Or.inl ?_⟩)))
              · rw [h3]; exact linked_step hst ⟨by simp, by simp⟩ (linked_received hst)
              · rw [h3]; exact asked_received hst hp hy.wanted
        · obtain ⟨hlx, h⟩ := h
          have hlx' : Linked x n'.bits := by
            rcases move_bits h2 with ⟨-, hbits, -⟩ | ⟨op, act, hop, hst, -⟩
            · rw [hbits]; exact hlx
            · exact linked_step hst (keeps_of h1 hop hd.stays.2 hd.once.2) hlx
          have served : (Asked c x n'.bits ∨ (x, c) ∈ n'.lookups ∨ ReplyReady c x n'.bits ∨ ReplyNext c x n'.bits) → OnWay H x z c s' :=
            fun h => Or.inr (Or.inr (Or.inr (Or.inl (by rw [h3]; exact ⟨hlx', h⟩))))
          have reply : ∀ act, (∀ q m, a = some (q, m) ↔ act = some (.notify q m)) → SendsReply c x act → OnWay H x z c s' := by
            rintro act hact ⟨m, b, hm, hb, hbc⟩
            obtain ⟨g1, g2⟩ := sent x m ((hact x m).mpr hm) (Or.inr ⟨rfl, rfl⟩)
            exact Or.inr (Or.inr (Or.inr (Or.inr ⟨_, g1, rfl, rfl, _, g2, b, hb, hbc⟩)))
          rcases h with h | h | h | h
          · rcases move_asked h2 h with h | h
            · exact served (Or.inl h)
            · exact served (Or.inr (Or.inl h))
          · rcases move_lookups h2 h with h | ⟨k, rfl, hk⟩
            · exact served (Or.inr (Or.inl h))
            · obtain ⟨b, hb, hbc⟩ := hy.block
              rcases move_bits h2 with ⟨-, -, hno⟩ | ⟨op, act, hop, hst, -⟩
              · have := hno x c hk; rw [hb] at this; cases this
              · obtain ⟨p', c', b', hk', hb', rfl⟩ := hop
                rw [hk] at hk'; cases hk'
                rw [hb] at hb'; cases hb'
                refine served (Or.inr (Or.inr (Or.inl ⟨b, ?_, hbc⟩)))
                simp only [Node.step, Option.some.injEq, Prod.mk.injEq] at hst
                rw [← hst.2]
                simp
          · rcases move_bits h2 with ⟨-, hbits, -⟩ | ⟨op, act, hop, hst, hact⟩
            · exact served (Or.inr (Or.inr (Or.inl (by rw [hbits]; exact h))))
            · rcases replyReady_step hst (keeps_of h1 hop hd.stays.2 hd.once.2) hlx h with h | h | h
              · exact served (Or.inr (Or.inr (Or.inl h)))
              · exact served (Or.inr (Or.inr (Or.inr h)))
              · exact reply act hact h
          · rcases move_bits h2 with ⟨-, hbits, -⟩ | ⟨op, act, hop, hst, hact⟩
            · exact served (Or.inr (Or.inr (Or.inr (by rw [hbits]; exact h))))
            · rcases replyNext_step hst (keeps_of h1 hop hd.stays.2 hd.once.2) h with h | h
              · exact served (Or.inr (Or.inr (Or.inr h)))
              · exact reply act hact h
        · rcases key f hf (Or.inr ⟨h.1, h.2.1⟩) with hk | ⟨hk, -⟩
          · exact Or.inr (Or.inr (Or.inr (Or.inr ⟨f, hk, h⟩)))
          · exact absurd (hk.trans h.2.1) hzx
      · have hyn : s'.node y = s.node y := h4 y (Ne.symm hzy)
        unfold OnWay
        rw [hxn, hyn]
        rcases hi hw hl with h | h | ⟨f, hf, h⟩ | h | ⟨f, hf, h⟩
        · exact Or.inl h
        · exact Or.inr (Or.inl h)
        · rcases key f hf (Or.inl ⟨h.1, h.2.1⟩) with hk | ⟨hk, -⟩
          · exact Or.inr (Or.inr (Or.inl ⟨f, hk, h⟩))
          · exact absurd (hk.trans h.2.1) hzy
        · exact Or.inr (Or.inr (Or.inr (Or.inl h)))
        · rcases key f hf (Or.inr ⟨h.1, h.2.1⟩) with hk | ⟨hk, -⟩
          · exact Or.inr (Or.inr (Or.inr (Or.inr ⟨f, hk, h⟩)))
          · exact absurd (hk.trans h.2.1) hzx

/-- The waiting node, at every event. -/
theorem WaitInv.net {H : Hashes} {debug : Bool} {x : P} {c : Cid} {s s' : NetSt P} {ev : NetEv P} (hn : WaitInv c (s.node x))
    (hs : NetFine H s) (ha : NoAlias x c s ev) (h : s.step H debug ev = some s') : WaitInv c (s'.node x) := by
  rcases net_step h with ⟨h1, h2, h3⟩ | ⟨z, lab, a, n', h1, h2, h3, h4, h5⟩
  · rw [h2]; exact hn
  · by_cases hz : z = x
    · subst hz
      rw [h3]
      refine hn.move (hs.node z) ?_ h2
      cases ev with
      | put y b => cases h1; exact ha rfl
      | save y k => cases h1; exact ha rfl
      | deliver k =>
        simp only [evLab, Option.map_eq_some_iff] at h1
        obtain ⟨f, -, h1⟩ := h1
        cases h1; trivial
      | lose k => cases h1
      | _ => cases h1; trivial
    · rw [h4 x (Ne.symm hz)]; exact hn

theorem HasInv.net {H : Hashes} {debug : Bool} {y : P} {c : Cid} {s s' : NetSt P} {ev : NetEv P} (hn : HasInv c (s.node y))
    (hr : ∀ d, ev = .remove y d → d.mh ≠ c.mh) (h : s.step H debug ev = some s') : HasInv c (s'.node y) := by
  rcases net_step h with ⟨h1, h2, h3⟩ | ⟨z, lab, a, n', h1, h2, h3, h4, h5⟩
  · rw [h2]; exact hn
  · by_cases hz : z = y
    · subst hz
      rw [h3]
      refine hn.move h2 ?_
      rintro d rfl
      cases ev <;> simp [evLab] at h1
      exact hr d (by rw [h1.1, h1.2])
    · rw [h4 y (Ne.symm hz)]; exact hn

/-! ### The theorems -/

/-- **C73**: a block that a connected peer has arrives. The cid was on the want list of `x` only after `y` had the block, or
before `x` knew of the connection; from then on the two are undisturbed, whatever else happens, at them and elsewhere. Then
there is no state in which nothing is left to do and a request for the block still waits. -/
theorem C73_arrives {H : Hashes} {debug : Bool} {x y : P} {c : Cid} {s0 s : NetSt P} (hxy : x ≠ y)
    (hpre : NetRun H debug (fun s e s' => InOrder H e ∧ Short64 s' ∧ NoAlias x c s e) NetSt.init s0)
    (hhas : ∃ b, (s0.node y).store.getBlock c = some b ∧ b.cid = c)
    (hnot : (s0.node y).bits.bs.wanted.get c = none ∧ RepoEv.want c ∉ (s0.node y).chan)
    (hstart : (s0.node x).bits.bs.wanted.get c = none ∨ (s0.node x).bits.bs.peers.get y = none)
    (hrun : NetRun H debug (fun s e s' => InOrder H e ∧ Short64 s' ∧ NoAlias x c s e ∧ Undisturbed x y c s e s') s0 s)
    (hidle : Idle (s.node x) ∧ Idle (s.node y) ∧ ∀ f ∈ s.flight, ¬ Between x y f)
    (hlink : ∃ l, (s.node x).bits.bs.peers.get y = some l) (i : Nat) (w : Bool) :
    ¬ Waits (s.node x).reg c i w := by
  have h0 : NetFine H s0 ∧ WaitInv c (s0.node x) := by
    clear hhas hnot hstart hrun
    induction hpre with
    | refl => exact ⟨NetFine.init H, WaitInv.init c⟩
    | step e _ ho hst ih => exact ⟨(ih.1.step ho.1 ho.2.1 hst).1, ih.2.net ih.1 ho.2.2 hst⟩
  have h1 : NetFine H s ∧ WaitInv c (s.node x) ∧ HasInv c (s.node y) ∧ OutInv H x y c s := by
    clear hidle hlink
    induction hrun with
    | refl =>
      refine ⟨h0.1, h0.2, ⟨hhas, ?_, hnot.2⟩, ?_⟩
      · rintro ⟨pr, hp⟩; rw [hnot.1] at hp; cases hp
      · rintro ⟨pr, hp⟩ ⟨l, hl⟩
        rcases hstart with h | h
        · rw [h] at hp; cases hp
        · rw [h] at hl; cases hl
    | step e _ ho hst ih =>
      obtain ⟨g1, g2, g3, g4⟩ := ih
      exact ⟨(g1.step ho.1 ho.2.1 hst).1, g2.net g1 ho.2.2.1 hst, g3.net ho.2.2.2.keeps hst,
        g4.step hxy g1 g3 ho.1 ho.2.2.2 hst⟩
  obtain ⟨-, hw, -, hout⟩ := h1
  obtain ⟨hx, hy, hf⟩ := hidle
  intro hwait
  rcases hw.pending ⟨i, w, hwait⟩ with ⟨l1, l2, h, -⟩ | ⟨-, h | h⟩
  · rw [hx.chan] at h; simp at h
  · rcases hout h hlink with ⟨l, pr, hl, hm⟩ | ⟨m, pr, hm, -⟩ | ⟨f, hfm, h1, h2, -⟩ | ⟨-, h⟩ | ⟨f, hfm, h1, h2, -⟩
    · have := hx.messages y l hl
      simp only [Message.isEmpty, Bool.and_eq_true, List.isEmpty_iff] at this
      rw [this.1.1] at hm; cases hm
    · rw [hx.events] at hm; cases hm
    · exact hf f hfm (Or.inl ⟨h1, h2⟩)
    · rcases h with ⟨pr, h⟩ | h | ⟨b, h, -⟩ | ⟨l, b, hl, hb, -⟩
      · rw [hy.events] at h; cases h
      · rw [hy.lookups] at h; cases h
      · rw [hy.ready] at h; cases h
      · have := hy.messages x l hl
        simp only [Message.isEmpty, Bool.and_eq_true, List.isEmpty_iff] at this
        rw [this.2] at hb; cases hb
    · exact hf f hfm (Or.inr ⟨h1, h2⟩)
  · rcases h with ⟨p, b, hb, -⟩ | ⟨e, he, -⟩
    · rw [hx.events] at hb; cases hb
    · rw [hx.tasks] at he; cases he

end Verif.Props
