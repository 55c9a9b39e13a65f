import Verif.Props.ExchangeSettle
import Verif.Props.DagPb

/-!
# C73: runs that meet the conditions, and runs in which a request waits for ever
-/

namespace Verif.Props

open Verif Verif.Repo Verif.Repo.Subs Verif.Bitswap Verif.Net Verif.Prost
open Verif.Bitswap.Bitswap

/-! ### Conditions that can be computed -/

/-- The states of a run. -/
def netRun (H : Hashes) (debug : Bool) (ok : NetSt (Fin 3) → NetEv (Fin 3) → NetSt (Fin 3) → Bool) : NetSt (Fin 3) → List (NetEv (Fin 3)) → Option (NetSt (Fin 3))
  | s, [] => some s
  | s, e :: es =>
    match s.step H debug e with
    | none => none
    | some s' => if ok s e s' then netRun H debug ok s' es else none

theorem NetRun.trans {P : Type} [DecidableEq P] {H : Hashes} {debug : Bool} {ok : NetSt P → NetEv P → NetSt P → Prop} {s t u : NetSt P}
    (h1 : NetRun H debug ok s t) (h2 : NetRun H debug ok t u) : NetRun H debug ok s u := by
  induction h2 with
  | refl => exact h1
  | step e _ ho hst ih => exact .step e ih ho hst

theorem netRun_sound {H : Hashes} {debug : Bool} {ok : NetSt (Fin 3) → NetEv (Fin 3) → NetSt (Fin 3) → Bool} {okP : NetSt (Fin 3) → NetEv (Fin 3) → NetSt (Fin 3) → Prop}
    (hok : ∀ s e s', ok s e s' = true → okP s e s') : ∀ (evs : List (NetEv (Fin 3))) (s s' : NetSt (Fin 3)),
    netRun H debug ok s evs = some s' → NetRun H debug okP s s' := by
  intro evs
  induction evs with
  | nil => intro s s' h; cases h; exact .refl s
  | cons e es ih =>
    intro s s' h
    simp only [netRun] at h
    split at h
    · cases h
    · rename_i t ht
      split at h
      · rename_i ho
        exact NetRun.trans (.step e (.refl s) (hok _ _ _ ho) ht) (ih t s' h)
      · cases h

def trueB (H : Hashes) (b : Block) : Bool :=
  match H b.cid.mhCode with
  | none => false
  | some h => b.cid.digest.isPrefixOf (h b.data)

theorem trueB_sound {H : Hashes} {b : Block} (h : trueB H b = true) : Authentic H b.cid b.data := by
  unfold trueB at h
  split at h
  · cases h
  · rename_i f hf; exact ⟨f, hf, List.isPrefixOf_iff_prefix.mp h⟩

def inOrderB (H : Hashes) : NetEv (Fin 3) → Bool
  | .get _ c => decide c.Valid
  | .put _ b => decide b.cid.Valid && trueB H b
  | .bytes _ _ _ => false
  | _ => true

theorem inOrderB_sound {H : Hashes} {e : NetEv (Fin 3)} (h : inOrderB H e = true) : InOrder H e := by
  cases e <;> simp only [inOrderB, Bool.and_eq_true, decide_eq_true_eq, reduceCtorEq] at h
  case get => exact h
  case put => exact ⟨h.1, trueB_sound h.2⟩
  all_goals first | trivial | cases h

def putsB (H : Hashes) : NetEv (Fin 3) → Bool
  | .put _ b => trueB H b
  | _ => true

theorem putsB_sound {H : Hashes} {e : NetEv (Fin 3)} (h : putsB H e = true) : PutsTrue H e := by
  cases e <;> first | trivial | exact trueB_sound h

def fitsB (s : NetSt (Fin 3)) : Bool := s.flight.all (fun f => f.bytes.length < maxBufSize)

theorem fitsB_sound {s : NetSt (Fin 3)} (h : fitsB s = true) : Short64 s := by
  intro f hf
  have := List.all_eq_true.mp h f hf
  have h2 := of_decide_eq_true this
  simp only [maxBufSize] at h2
  omega

def noAliasB (x : Fin 3) (c : Cid) (s : NetSt (Fin 3)) : NetEv (Fin 3) → Bool
  | .put y b => decide (y = x → b.cid.mh = c.mh → b.cid = c)
  | .save y k =>
    match (s.node x).bits.tasks[k]? with
    | none => true
    | some e => decide (y = x → e.2.cid.mh = c.mh → e.2.cid = c)
  | _ => true

theorem noAliasB_sound {x : Fin 3} {c : Cid} {s : NetSt (Fin 3)} {e : NetEv (Fin 3)} (h : noAliasB x c s e = true) : NoAlias x c s e := by
  cases e with
  | put y b =>
    simp only [noAliasB, decide_eq_true_eq] at h
    exact h
  | save y k =>
    intro hy e he
    simp only [noAliasB, he, decide_eq_true_eq] at h
    exact h hy
  | _ => trivial

def betweenB (x y : Fin 3) (f : Parcel (Fin 3)) : Bool := decide (f.sender = x ∧ f.receiver = y ∨ f.sender = y ∧ f.receiver = x)

def calmB (x y : Fin 3) (c : Cid) (s : NetSt (Fin 3)) (e : NetEv (Fin 3)) (s' : NetSt (Fin 3)) : Bool :=
  (match e with
    | .closed a b => decide (¬ (a = x ∧ b = y) ∧ ¬ (a = y ∧ b = x))
    | .established a b => decide (¬ (a = x ∧ b = y) ∧ ¬ (a = y ∧ b = x)) || ((s.node a).bits.bs.peers.get b).isNone
    | .remove a d => decide (a = y → d.mh ≠ c.mh)
    | .lose k =>
      match s.flight[k]? with
      | none => true
      | some f => !betweenB x y f
    | _ => true) && s'.flight.all (fun f => f.bytes.length ≤ maxBufSize)

theorem calmB_sound {x y : Fin 3} {c : Cid} {s s' : NetSt (Fin 3)} {e : NetEv (Fin 3)} (h : calmB x y c s e s' = true) : Undisturbed x y c s e s' := by
  simp only [calmB, Bool.and_eq_true, List.all_eq_true, decide_eq_true_eq] at h
  obtain ⟨h1, h2⟩ := h
  refine ⟨?_, ?_, ?_, ?_, fun f hf _ => h2 f hf⟩
  · constructor
    · rintro rfl; simp at h1
    · rintro rfl; simp at h1
  · constructor
    · rintro rfl; simpa using h1
    · rintro rfl; simpa using h1
  · rintro d rfl; simpa using h1
  · rintro k f rfl hf
    simp only [hf, betweenB, Bool.not_eq_true', decide_eq_false_iff_not] at h1
    exact h1

def idleB (n : Peer (Fin 3)) : Bool :=
  n.chan.isEmpty && n.lookups.isEmpty && n.bits.tasks.isEmpty && n.bits.bs.events.isEmpty && n.bits.bs.ready.isEmpty &&
    n.bits.bs.peers.all (fun e => e.2.message.isEmpty)

theorem idleB_sound {n : Peer (Fin 3)} (h : idleB n = true) : Idle n := by
  simp only [idleB, Bool.and_eq_true, List.isEmpty_iff, List.all_eq_true] at h
  obtain ⟨⟨⟨⟨⟨h1, h2⟩, h3⟩, h4⟩, h5⟩, h6⟩ := h
  exact ⟨h1, h2, h3, h4, h5, fun p l hl => h6 (p, l) (AMap.mem_of_get hl)⟩

/-- The end of a run that can be computed. -/
theorem netRun_end {H : Hashes} {debug : Bool} {ok : NetSt (Fin 3) → NetEv (Fin 3) → NetSt (Fin 3) → Bool} {okP : NetSt (Fin 3) → NetEv (Fin 3) → NetSt (Fin 3) → Prop}
    {s : NetSt (Fin 3)} {evs : List (NetEv (Fin 3))} (hok : ∀ s e s', ok s e s' = true → okP s e s') {φ : NetSt (Fin 3) → Bool}
    (h : (netRun H debug ok s evs).any φ = true) : ∃ s', netRun H debug ok s evs = some s' ∧ NetRun H debug okP s s' ∧ φ s' = true := by
  cases hr : netRun H debug ok s evs with
  | none => rw [hr] at h; cases h
  | some s' => rw [hr] at h; exact ⟨s', rfl, netRun_sound hok evs s s' hr, h⟩

/-! ### A block arrives -/

def exchCid : Cid := Cid.v0 (List.replicate 32 3)

def exchBlock : Block := ⟨exchCid, [1, 2, 3]⟩

def preB (s : NetSt (Fin 3)) (e : NetEv (Fin 3)) (s' : NetSt (Fin 3)) : Bool := inOrderB exHashes e && fitsB s' && noAliasB 0 exchCid s e

def postB (s : NetSt (Fin 3)) (e : NetEv (Fin 3)) (s' : NetSt (Fin 3)) : Bool := preB s e s' && calmB 0 1 exchCid s e s'

theorem preB_sound (s : NetSt (Fin 3)) (e : NetEv (Fin 3)) (s' : NetSt (Fin 3)) (h : preB s e s' = true) :
    InOrder exHashes e ∧ Short64 s' ∧ NoAlias 0 exchCid s e := by
  simp only [preB, Bool.and_eq_true] at h
  exact ⟨inOrderB_sound h.1.1, fitsB_sound h.1.2, noAliasB_sound h.2⟩

theorem postB_sound (s : NetSt (Fin 3)) (e : NetEv (Fin 3)) (s' : NetSt (Fin 3)) (h : postB s e s' = true) :
    InOrder exHashes e ∧ Short64 s' ∧ NoAlias 0 exchCid s e ∧ Undisturbed 0 1 exchCid s e s' := by
  simp only [postB, Bool.and_eq_true] at h
  obtain ⟨h1, h2, h3⟩ := preB_sound s e s' h.1
  exact ⟨h1, h2, h3, calmB_sound h.2⟩

/-- The first node asks the second, which has the block. -/
def exchPre : List (NetEv (Fin 3)) := [.put 1 exchBlock, .established 1 0, .established 0 1, .event 1]

def exchPost : List (NetEv (Fin 3)) :=
  [.get 0 exchCid, .event 0, .swarm 0 [1], .swarm 1 [0], .deliver 0, .deliver 0, .swarm 0 [1], .swarm 1 [0], .look 1 0, .swarm 1 [0],
    .deliver 0, .swarm 0 [1], .swarm 0 [1], .save 0 0, .event 0, .swarm 0 [1], .deliver 0, .deliver 0, .swarm 1 [0], .swarm 1 [0]]

def startB (s : NetSt (Fin 3)) : Bool :=
  decide ((s.node 1).store.getBlock exchCid = some exchBlock) && decide ((s.node 1).bits.bs.wanted.get exchCid = none) &&
    decide (RepoEv.want exchCid ∉ (s.node 1).chan) && decide ((s.node 0).bits.bs.wanted.get exchCid = none)

def doneB (r : Option (Reg Cid Block × Out Block)) : Bool := r.any (fun r => decide (r.2 = .done exchBlock))

def endB (s : NetSt (Fin 3)) : Bool :=
  decide (∀ x, idleB (s.node x) = true) && s.flight.isEmpty && ((s.node 0).bits.bs.peers.get 1).isSome &&
    ((s.node 1).bits.bs.peers.get 0).isSome && doneB ((s.node 0).reg.poll 0)

/-- The hypotheses of `C73_served`, `C73_arrives`, `C73_settles`, `C73_rests` and `C73_authentic` are met by a run, at the end of which
the block is answered. -/
theorem C73_met : ∃ s0 s : NetSt (Fin 3),
    NetRun exHashes false (fun s e s' => InOrder exHashes e ∧ Short64 s' ∧ NoAlias 0 exchCid s e) NetSt.init s0 ∧
    (s0.node 1).store.getBlock exchCid = some exchBlock ∧
    ((s0.node 1).bits.bs.wanted.get exchCid = none ∧ RepoEv.want exchCid ∉ (s0.node 1).chan) ∧
    (s0.node 0).bits.bs.wanted.get exchCid = none ∧
    NetRun exHashes false (fun s e s' => InOrder exHashes e ∧ Short64 s' ∧ NoAlias 0 exchCid s e ∧ Undisturbed 0 1 exchCid s e s') s0 s ∧
    Resting exHashes s ∧ (∀ x, Idle (s.node x)) ∧ s.flight = [] ∧
    ((s.node 0).bits.bs.peers.get 1).isSome ∧ ((s.node 1).bits.bs.peers.get 0).isSome ∧
    ∃ reg', (s.node 0).reg.poll 0 = some (reg', .done exchBlock) := by
  obtain ⟨s0, h0, h1, h2⟩ := netRun_end (H := exHashes) (debug := false) (ok := preB) (s := NetSt.init) (evs := exchPre) preB_sound
    (φ := fun s0 => startB s0 && (netRun exHashes false postB s0 exchPost).any
      endB) (by decide +kernel)
  simp only [Bool.and_eq_true] at h2
  obtain ⟨s, -, h3, h4⟩ := netRun_end postB_sound h2.2
  simp only [startB, endB, Bool.and_eq_true, decide_eq_true_eq, List.isEmpty_iff] at h2 h4
  obtain ⟨⟨⟨⟨g1, g2⟩, g3⟩, g4⟩, g5⟩ := h4
  have hi : ∀ x, Idle (s.node x) := fun x => idleB_sound (g1 x)
  refine ⟨s0, s, h1, h2.1.1.1.1, ⟨h2.1.1.1.2, h2.1.1.2⟩, h2.1.2, h3, idle_rests hi g2, hi, g2, g3, g4, ?_⟩
  unfold doneB at g5
  cases hp : (s.node 0).reg.poll 0 with
  | none => rw [hp] at g5; cases g5
  | some r =>
    rw [hp] at g5
    simp only [Option.any_some, decide_eq_true_eq] at g5
    exact ⟨r.1, by rw [← g5]⟩

/-! ### Requests that wait for ever -/

/-- The block comes to the second node when it has already looked for it. -/
def exchLate : List (NetEv (Fin 3)) :=
  [.established 1 0, .established 0 1, .get 0 exchCid, .event 0, .swarm 0 [1], .deliver 0, .swarm 1 [0], .look 1 0,
    .put 1 exchBlock, .event 1, .swarm 1 [0], .deliver 0, .swarm 0 [1], .swarm 0 [1], .swarm 1 [0]]

/-- **C73**, why `y` has to have the block first: a want for a block that is not there is kept in the ledger and never
looked at again (bitswap/src/behaviour.rs:284-297, src/p2p/behaviour.rs:359-374). The two are connected, nothing was lost, `y`
has the block, nothing is left to do, and the request waits. -/
theorem C73_too_late : ∃ s : NetSt (Fin 3),
    NetRun exHashes true (fun s e s' => InOrder exHashes e ∧ Short64 s' ∧ NoAlias 0 exchCid s e ∧ Undisturbed 0 1 exchCid s e s') NetSt.init s ∧
    (s.node 1).store.getBlock exchCid = some exchBlock ∧ Idle (s.node 0) ∧ Idle (s.node 1) ∧ s.flight = [] ∧
    (∃ l, (s.node 0).bits.bs.peers.get 1 = some l) ∧ (∃ l, (s.node 1).bits.bs.peers.get 0 = some l ∧ (l.received.get exchCid).isSome) ∧
    Waits (s.node 0).reg exchCid 0 false := by
  obtain ⟨s, -, h1, h2⟩ := netRun_end (H := exHashes) (debug := true) (ok := postB) (s := NetSt.init) (evs := exchLate) postB_sound
    (φ := fun s => decide ((s.node 1).store.getBlock exchCid = some exchBlock) && idleB (s.node 0) && idleB (s.node 1) &&
      s.flight.isEmpty && ((s.node 0).bits.bs.peers.get 1).isSome &&
      ((s.node 1).bits.bs.peers.get 0).any (fun l => (l.received.get exchCid).isSome) &&
      decide (AMap.get (s.node 0).reg.subs (exchCid, 0) = some (.pending false true))) (by decide +kernel)
  simp only [Bool.and_eq_true, decide_eq_true_eq, List.isEmpty_iff] at h2
  obtain ⟨⟨⟨⟨⟨⟨g1, g2⟩, g3⟩, g4⟩, g5⟩, g6⟩, g7⟩ := h2
  refine ⟨s, h1, g1, idleB_sound g2, idleB_sound g3, g4, Option.isSome_iff_exists.mp g5, ?_, ⟨true, g7⟩⟩
  cases hp : (s.node 1).bits.bs.peers.get 0 with
  | none => rw [hp] at g6; cases g6
  | some l => rw [hp] at g6; exact ⟨l, rfl, g6⟩

/-- **C73**, why frames have to be short: one of more than 512 KiB is not read, and nobody is told. -/
theorem C73_too_big {P : Type} [DecidableEq P] (H : Hashes) (n : Peer P) (y : P) (m : Message) (hm : MsgOk H m)
    (h : maxBufSize < m.toBytes.length) (h64 : m.toBytes.length < 2 ^ 64) : n.arrive H y m.frame = some n := by
  have : Message.unframe H m.frame = none := by rw [C41_frame H m hm h64, if_neg (by omega)]
  simp only [Peer.arrive, this]

theorem one_block_length (c : Cid) (d : Bytes) (hd : d ≠ []) (hl : d.length < 2 ^ 32) (hc : (Prefix.ofCid c).toBytes.length < 2 ^ 32) :
    d.length < (Message.toBytes { blocks := [⟨c, d⟩] }).length ∧ (Message.toBytes { blocks := [⟨c, d⟩] }).length < 2 ^ 64 := by
  have hp : (Prefix.ofCid c).toBytes ≠ [] := by simp [Prefix.toBytes, writeVarint_ne_nil]
  simp only [Message.toBytes, Message.toPb, PbMessage.encode, Message.entries, List.map_nil, List.append_nil, List.isEmpty_nil,
    if_true, List.map_cons, List.flatMap_cons, List.flatMap_nil, List.nil_append, subField, PbBlock.encode, bytesField, if_neg hd,
    if_neg hp, lenField, List.length_append]
  generalize (Prefix.ofCid c).toBytes.length = a at *
  have h1 := writeVarint_le d.length (by omega)
  have h2 := writeVarint_le a (by omega)
  have h3 : ∀ n, n < 100 → (writeVarint n).length ≤ 10 := fun n hn => writeVarint_le n (by omega)
  have h4 := h3 (1 * 8 + 2) (by omega)
  have h5 := h3 (2 * 8 + 2) (by omega)
  have h6 := h3 (3 * 8 + 2) (by omega)
  have h7 := writeVarint_length_pos d.length
  generalize (writeVarint d.length).length = w1 at *
  generalize (writeVarint a).length = w2 at *
  generalize (writeVarint (1 * 8 + 2)).length = w3 at *
  generalize (writeVarint (2 * 8 + 2)).length = w4 at *
  generalize (writeVarint (3 * 8 + 2)).length = w5 at *
  have h8 := writeVarint_le (w3 + (w2 + a) + (w4 + (w1 + d.length))) (by omega)
  omega

example : ∃ m : Message, MsgOk exHashes m ∧ maxBufSize < m.toBytes.length ∧ m.toBytes.length < 2 ^ 64 := by
  have hb : BlockFine exHashes ⟨Cid.v0 (List.replicate 32 1), List.replicate 524289 0⟩ := by
    refine ⟨Cid.v0_valid _ (by simp), _, rfl, ?_⟩
    simp only [Cid.v0, List.length_replicate]
    exact ⟨[], by decide⟩
  refine ⟨{ blocks := [⟨Cid.v0 (List.replicate 32 1), List.replicate 524289 0⟩] }, ⟨List.nodup_nil, by simp, by simp, List.nodup_nil, by simp, ?_⟩, ?_⟩
  · intro b h
    simp only [List.mem_singleton] at h
    rw [h]; exact hb
  · obtain ⟨h1, h2⟩ := one_block_length (Cid.v0 (List.replicate 32 1)) (List.replicate 524289 0)
      (by intro h; have := congrArg List.length h; rw [List.length_replicate] at this; cases this)
      (by rw [List.length_replicate]; decide) (by decide +kernel)
    rw [List.length_replicate] at h1
    exact ⟨by simp only [maxBufSize]; omega, h2⟩

/-- A block whose cid is a v0 cid with a digest of two bytes. -/
def exchPoison : Bytes :=
  let body := PbMessage.encode { payload := [⟨[0, 0x70, 0x12, 2], [1, 2, 3, 4]⟩] }
  writeVarint body.length ++ body

def exchPoisoned : List (NetEv (Fin 3)) :=
  [.put 1 exchBlock, .established 1 0, .established 0 1, .established 0 2, .event 1, .swarm 1 [0], .deliver 0, .swarm 0 [1],
    .get 0 exchCid, .event 0, .bytes 0 2 exchPoison, .swarm 0 [1], .swarm 0 [1], .deliver 0, .save 0 0, .event 0,
    .swarm 0 [1], .swarm 0 [2], .deliver 0, .swarm 1 [0]]

def poisonB (s : NetSt (Fin 3)) (e : NetEv (Fin 3)) (s' : NetSt (Fin 3)) : Bool :=
  (match e with
    | .bytes _ y _ => decide (y = 2)
    | _ => inOrderB exHashes e) && fitsB s' && noAliasB 0 exchCid s e && calmB 0 1 exchCid s e s'

/-- **C73**, why what comes in has to have cids that can be written: a v0 prefix with a short length is accepted
(bitswap/src/prefix.rs:22-44, 68-74), the cid made of it is cancelled with all peers, and a message with such an entry is not
read by anybody, with everything else in it. So one peer can keep the wants of a node from all others: here the second node has
the block, all frames between the two arrived, and the request waits. -/
theorem C73_poison : ∃ s : NetSt (Fin 3),
    NetRun exHashes true (fun s e s' => ((∀ x y bs, e = .bytes x y bs → y = 2) ∧ ((∀ x y bs, e ≠ .bytes x y bs) → InOrder exHashes e)) ∧
      Short64 s' ∧ NoAlias 0 exchCid s e ∧ Undisturbed 0 1 exchCid s e s') NetSt.init s ∧
    (s.node 1).store.getBlock exchCid = some exchBlock ∧ Idle (s.node 0) ∧ Idle (s.node 1) ∧ (∀ f ∈ s.flight, ¬ Between 0 1 f) ∧
    (∃ l, (s.node 0).bits.bs.peers.get 1 = some l) ∧ Waits (s.node 0).reg exchCid 0 false := by
  obtain ⟨s, -, h1, h2⟩ := netRun_end (H := exHashes) (debug := true) (ok := poisonB) (s := NetSt.init) (evs := exchPoisoned)
    (okP := fun s e s' => ((∀ x y bs, e = .bytes x y bs → y = 2) ∧ ((∀ x y bs, e ≠ .bytes x y bs) → InOrder exHashes e)) ∧
      Short64 s' ∧ NoAlias 0 exchCid s e ∧ Undisturbed 0 1 exchCid s e s')
    (by
      intro s e s' h
      simp only [poisonB, Bool.and_eq_true] at h
      refine ⟨⟨?_, ?_⟩, fitsB_sound h.1.1.2, noAliasB_sound h.1.2, calmB_sound h.2⟩
      · rintro x y bs rfl; simpa using h.1.1.1
      · intro hne
        cases e with
        | bytes x y bs => exact absurd rfl (hne x y bs)
        | _ => exact inOrderB_sound h.1.1.1)
    (φ := fun s => decide ((s.node 1).store.getBlock exchCid = some exchBlock) && idleB (s.node 0) && idleB (s.node 1) &&
      s.flight.all (fun f => !betweenB 0 1 f) && ((s.node 0).bits.bs.peers.get 1).isSome &&
      decide (AMap.get (s.node 0).reg.subs (exchCid, 0) = some (.pending false true))) (by decide +kernel)
  simp only [Bool.and_eq_true, decide_eq_true_eq, List.all_eq_true, betweenB, Bool.not_eq_true', decide_eq_false_iff_not] at h2
  obtain ⟨⟨⟨⟨⟨g1, g2⟩, g3⟩, g4⟩, g5⟩, g6⟩ := h2
  exact ⟨s, h1, g1, idleB_sound g2, idleB_sound g3, g4, Option.isSome_iff_exists.mp g5, ⟨true, g6⟩⟩

/-! ### Panics -/

def exchAgain : List (NetEv (Fin 3)) := [.get 0 exchCid, .put 0 exchBlock, .remove 0 exchCid]

/-- **C73**, why release builds: `finish_subscription` asserts that somebody is woken (src/subscription.rs:146-160). Somebody who
was given the block and has not looked yet is still registered; when the block is removed and put again, nobody is woken. -/
theorem C73_debug_panic : ∃ s : NetSt (Fin 3), NetRun exHashes true (fun _ _ _ => True) NetSt.init s ∧
    s.step exHashes true (.put 0 exchBlock) = none ∧ ∃ s', s.step exHashes false (.put 0 exchBlock) = some s' := by
  obtain ⟨s, -, h1, h2⟩ := netRun_end (H := exHashes) (debug := true) (ok := fun _ _ _ => true) (okP := fun _ _ _ => True)
    (s := NetSt.init) (evs := exchAgain) (fun _ _ _ _ => trivial)
    (φ := fun s => (s.step exHashes true (.put 0 exchBlock)).isNone && (s.step exHashes false (.put 0 exchBlock)).isSome) (by decide +kernel)
  simp only [Bool.and_eq_true, Option.isNone_iff_eq_none] at h2
  exact ⟨s, h1, h2.1, Option.isSome_iff_exists.mp h2.2⟩

/-- The other hypothesis of `C73_no_panic`: bytes of a peer that is not connected. -/
example : (NetSt.init : NetSt (Fin 3)).step exHashes false (.bytes 0 1 exMsg.frame) = none := by
  have h : Message.unframe exHashes exMsg.frame = some exMsg := by decide +kernel
  simp only [NetSt.step, Peer.arrive, NetSt.init, h]
  rfl

end Verif.Props
