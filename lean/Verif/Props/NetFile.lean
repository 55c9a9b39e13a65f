import Verif.Net.Reader
import Verif.Props.ExchangeExamples
import Verif.Props.File

/-!
# C88: a file that a connected peer has is read whole over the network
-/

namespace Verif.Props

open Verif Verif.Repo Verif.Repo.Subs Verif.Bitswap Verif.Net Verif.Unixfs
open Verif.Bitswap.Bitswap

variable {P : Type} [DecidableEq P]

/-! ### Specification -/

/-- The future of the reader is nobody else's. -/
def Others (x : P) (r : Reader) (e : NetEv P) : Prop := ∀ i, r.wait = some i → e ≠ .await x i ∧ e ≠ .drop x i

/-- A reader at `x` and everything else, in any order. The number counts how often the reader went on and got further. -/
inductive ReadRun (H : Hashes) (debug : Bool) (ok : NetSt P → NetEv P → NetSt P → Prop) (x : P) (s0 : NetSt P) (r0 : Reader) :
    Nat → NetSt P → Reader → Prop
  | refl : ReadRun H debug ok x s0 r0 0 s0 r0
  | other {k : Nat} {s s' : NetSt P} {r : Reader} (e : NetEv P) : ReadRun H debug ok x s0 r0 k s r → Others x r e → ok s e s' →
      s.step H debug e = some s' → ReadRun H debug ok x s0 r0 k s' r
  | further {k : Nat} {s : NetSt P} {r : Reader} : ReadRun H debug ok x s0 r0 k s r → (r.go x s).2 ≠ r →
      ReadRun H debug ok x s0 r0 (k + 1) (r.go x s).1 (r.go x s).2
  | again {k : Nat} {s : NetSt P} {r : Reader} : ReadRun H debug ok x s0 r0 k s r → (r.go x s).2 = r →
      ReadRun H debug ok x s0 r0 k (r.go x s).1 r

/-- The part of the content that is asked for. -/
def askedPart (content : Bytes) : Option Rng → Bytes
  | none => content
  | some r => (content.take r.stop).drop r.start

/-- No other data has the hash of one of the blocks. -/
def NoOther (sha : Bytes → Bytes) (blocks : List (Cid × Bytes)) : Prop := ∀ b ∈ blocks, ∀ d, sha d = sha b.2 → d = b.2

/-! ### Helpers: the visit -/

/-- With these blocks, this is what is still to come, in at most that many blocks. -/
def ToCome (fetch : Cid → Option Bytes) (root : Cid) (Q : Repo.Block → Prop) : Nat → Seek → List Bytes → Prop
  | k, .root c range, rest => c = root ∧ ∃ data fuel, k = fuel + 1 ∧ fetch c = some data ∧ cat fetch range data fuel = (rest, .done)
  | k, .walk v, rest => catLoop fetch k v = (rest, .done)
  | _, .refused b, _ => b.cid.mh = root.mh ∧ b.cid.codec ≠ codecDagPb ∧ Q b
  | _, .ended e, rest => e = .done ∧ rest = []

theorem toCome_take {fetch : Cid → Option Bytes} {root : Cid} {Q : Repo.Block → Prop} {k : Nat} {v : Seek} {rest : List Bytes} {c : Cid} (h : ToCome fetch root Q k v rest)
    (hc : v.next = some c) : ∃ data, fetch c = some data ∧ ∀ b : Repo.Block, b.data = data → b.cid.mh = c.mh →
      (((∃ rg, v = .root c rg) ∧ b.cid.codec ≠ codecDagPb ∧ v.take b = ([], .refused b)) ∨
      ∃ k' rest', k' < k ∧ rest = (v.take b).1 ++ rest' ∧ ToCome fetch root Q k' (v.take b).2 rest') := by
  cases v with
  | root c' range =>
    cases hc
    obtain ⟨hcr, data, fuel, rfl, hd, hcat⟩ := h
    refine ⟨data, hd, ?_⟩
    rintro b rfl hmh
    by_cases hco : b.cid.codec = codecDagPb
    · right
      simp only [Seek.take, hco, ne_eq, not_true_eq_false, if_false]
      unfold cat at hcat
      cases hv : visitStart range b.data with
      | error e => rw [hv] at hcat; cases e <;> simp at hcat
      | ok q =>
        obtain ⟨bytes, x1, x2, visit⟩ := q
        rw [hv] at hcat
        dsimp only at hcat ⊢
        cases visit with
        | none => cases hcat; exact ⟨0, [], by omega, by simp [yielded], rfl, rfl⟩
        | some v =>
          simp only [Prod.mk.injEq] at hcat
          exact ⟨fuel, _, by omega, hcat.1.symm, Prod.ext rfl hcat.2⟩
    · left
      exact ⟨⟨range, rfl⟩, hco, by simp [Seek.take, hco]⟩
  | walk v =>
    simp only [ToCome] at h
    cases k with
    | zero => simp [catLoop] at h
    | succ k =>
      unfold catLoop at h
      simp only [Seek.next] at hc
      cases hp : v.pending with
      | nil => rw [hp] at hc; cases hc
      | cons p ps =>
        obtain ⟨c', r⟩ := p
        rw [hp] at hc; cases hc
        rw [hp] at h
        dsimp only at h
        cases hf : fetch c' with
        | none => rw [hf] at h; simp at h
        | some data =>
          rw [hf] at h
          refine ⟨data, rfl, ?_⟩
          rintro b rfl -
          right
          dsimp only at h
          simp only [Seek.take]
          cases hw : v.continueWalk b.data with
          | error e => rw [hw] at h; cases e <;> simp at h
          | ok q =>
            obtain ⟨bytes, more⟩ := q
            rw [hw] at h
            dsimp only at h ⊢
            cases more with
            | none => cases h; exact ⟨0, [], by omega, by simp [yielded], rfl, rfl⟩
            | some v =>
              simp only [Prod.mk.injEq] at h
              exact ⟨k, _, by omega, h.1.symm, Prod.ext rfl h.2⟩
  | refused b => cases hc
  | ended e => cases hc

/-- The visit gets further with every block. -/
theorem take_moves {fetch : Cid → Option Bytes} {root : Cid} {Q : Repo.Block → Prop} (m : Nat) {v : Seek} {rest : List Bytes} {c : Cid} {b : Repo.Block}
    (h : ToCome fetch root Q m v rest) (hc : v.next = some c) (hd : fetch c = some b.data) (hm : b.cid.mh = c.mh) : (v.take b).2 ≠ v := by
  induction m using Nat.strongRecOn generalizing rest with
  | ind m ih =>
    intro he
    obtain ⟨data, hd', hb⟩ := toCome_take h hc
    rw [hd] at hd'; cases hd'
    rcases hb b rfl hm with ⟨⟨rg, rfl⟩, -, ht⟩ | ⟨m', rest', hlt, -, hl⟩
    · rw [ht] at he; cases he
    · rw [he] at hl
      exact ih m' hlt hl he

/-! ### Helpers: the future of the reader -/

/-- The future is registered, and will answer. -/
def HeldBy (reg : Reg Cid Repo.Block) (c : Cid) (i : Nat) : Prop :=
  reg.futs i = some ⟨c, .live false⟩ ∧ ∃ sub, AMap.get reg.subs (c, i) = some sub ∧ sub ≠ .cancelled

theorem heldBy_poll {reg reg' : Reg Cid Repo.Block} {c : Cid} {i j : Nat} {out : Out Repo.Block} (h : HeldBy reg c i) (hij : i ≠ j)
    (hp : reg.poll j = some (reg', out)) : HeldBy reg' c i := by
  obtain ⟨h1, sub, h2, h3⟩ := h
  unfold Reg.poll at hp
  split at hp
  · rename_i k cl hk
    have hne : (c, i) ≠ (k, j) := by intro h; cases h; exact hij rfl
    split at hp
    · cases hp; exact ⟨h1, sub, h2, h3⟩
    · cases hp; exact ⟨h1, sub, by dsimp only; rw [AMap.get_set_ne _ _ hne]; exact h2, h3⟩
    · cases hp
      exact ⟨by simpa [Reg.setFut, hij] using h1, sub, by dsimp only [Reg.setFut]; rw [AMap.get_erase_ne _ hne]; exact h2, h3⟩
    · cases hp
      exact ⟨by simpa [Reg.setFut, hij] using h1, sub, by dsimp only [Reg.setFut]; rw [AMap.get_erase_ne _ hne]; exact h2, h3⟩
  · cases hp

theorem heldBy_lock {reg reg' : Reg Cid Repo.Block} {c : Cid} {i j : Nat} (h : HeldBy reg c i) (hij : i ≠ j)
    (hp : reg.dropLocked j = some reg') : HeldBy reg' c i := by
  obtain ⟨h1, sub, h2, h3⟩ := h
  unfold Reg.dropLocked at hp
  split at hp
  · rename_i k cl hk
    have hne : (c, i) ≠ (k, j) := by intro h; cases h; exact hij rfl
    split at hp
    · cases hp; exact ⟨by simpa [Reg.setFut, hij] using h1, sub, h2, h3⟩
    · split at hp
      · cases hp
        exact ⟨by simpa [Reg.setFut, hij] using h1, sub, by dsimp only [Reg.setFut]; rw [AMap.get_erase_ne _ hne]; exact h2, h3⟩
      · cases hp; exact ⟨by simpa [Reg.setFut, hij] using h1, sub, h2, h3⟩
  · cases hp

theorem heldBy_notify {reg reg' : Reg Cid Repo.Block} {c : Cid} {i j : Nat} (h : HeldBy reg c i) (hij : i ≠ j)
    (hp : reg.dropNotify j = some reg') : HeldBy reg' c i := by
  obtain ⟨h1, sub, h2, h3⟩ := h
  unfold Reg.dropNotify at hp
  split at hp
  · cases hp; exact ⟨by simpa [Reg.setFut, hij] using h1, sub, h2, h3⟩
  · cases hp

omit [DecidableEq P] in
theorem heldBy_drop {n : Peer P} {c : Cid} {i j : Nat} (h : HeldBy n.reg c i) (hij : i ≠ j) : HeldBy (n.drop j).reg c i := by
  obtain ⟨-, -, -, g⟩ := drop_shape n j
  rcases g with ⟨g, -⟩ | ⟨reg, hl, ⟨g, -⟩ | ⟨g, -⟩⟩
  · rw [g]; exact h
  · rw [g]; exact heldBy_lock h hij hl
  · exact heldBy_notify (heldBy_lock h hij hl) hij g

omit [DecidableEq P] in
theorem heldBy_get {H : Hashes} {n : Peer P} (hn : TrueInv H n) {c d : Cid} {i : Nat} (h : HeldBy n.reg c i) : HeldBy (n.get d).2.reg c i := by
  unfold Peer.get
  split
  · exact h
  · obtain ⟨reg', g1, g2, g3, g4, g5⟩ := insert_true hn.owner hn.shut d
    dsimp only
    rw [g1]
    obtain ⟨h1, sub, h2, h3⟩ := h
    have hi : i ≠ n.reg.nextId := by
      rintro rfl
      rw [hn.owner.fresh _ (Nat.le_refl _)] at h1; cases h1
    refine ⟨by rw [g5, if_neg hi]; exact h1, sub, ?_, h3⟩
    rw [g4, AMap.get_set_ne _ _ (by intro h; cases h; exact hi rfl)]; exact h2

omit [DecidableEq P] in
theorem heldBy_new {H : Hashes} {n : Peer P} (hn : TrueInv H n) {c : Cid} (h : (n.get c).1 = none) :
    HeldBy (n.get c).2.reg c n.reg.nextId := by
  unfold Peer.get at h ⊢
  split
  · rename_i b hb; rw [hb] at h; cases h
  · obtain ⟨reg', g1, g2, g3, g4, g5⟩ := insert_true hn.owner hn.shut c
    dsimp only
    rw [g1]
    refine ⟨by rw [g5, if_pos rfl], .pending false true, ?_, by simp⟩
    rw [g4, AMap.get_set, if_pos rfl]

theorem heldBy_net {H : Hashes} {debug : Bool} {s s' : NetSt P} {e : NetEv P} {x : P} {c : Cid} {i : Nat} (hn : TrueInv H (s.node x))
    (h : HeldBy (s.node x).reg c i) (he : e ≠ .await x i ∧ e ≠ .drop x i) (hst : s.step H debug e = some s') :
    HeldBy (s'.node x).reg c i := by
  rcases net_step hst with ⟨h1, h2, h3⟩ | ⟨z, lab, a, n', h1, h2, h3, h4, h5⟩
  · rw [h2]; exact h
  · by_cases hz : z = x
    · subst hz
      rw [h3]
      have hlab : lab ≠ .await i ∧ lab ≠ .drop i := by
        constructor
        · rintro rfl
          cases e with
          | await y j => cases h1; exact he.1 rfl
          | deliver k => simp only [evLab, Option.map_eq_some_iff] at h1; obtain ⟨f, -, h1⟩ := h1; cases h1
          | _ => cases h1
        · rintro rfl
          cases e with
          | drop y j => cases h1; exact he.2 rfl
          | deliver k => simp only [evLab, Option.map_eq_some_iff] at h1; obtain ⟨f, -, h1⟩ := h1; cases h1
          | _ => cases h1
      rcases move_repo h2 with ⟨-, g⟩ | ⟨b, -, -, -, g, hp⟩ | ⟨d, -, -, g⟩ | ⟨-, ⟨d, rfl, g⟩ | ⟨j, rfl, g⟩ | ⟨j, rfl, g⟩⟩
      · rw [g]; exact h
      · rw [g]
        obtain ⟨q1, sub, q2, q3⟩ := h
        refine ⟨by rw [(finish_frame _ _ _).1]; exact q1, ?_⟩
        unfold Reg.finish at hp ⊢
        split
        · rename_i hk
          rw [if_pos hk] at hp
          dsimp only at hp ⊢
          split
          · exact ⟨sub, q2, q3⟩
          · dsimp only
            rw [get_wakeAll, q2]
            cases sub with
            | pending w m =>
              dsimp only
              split
              · exact ⟨_, rfl, by simp⟩
              · exact ⟨_, rfl, by simp⟩
            | ready r => exact ⟨_, rfl, by simp⟩
            | cancelled => exact absurd rfl q3
        · exact ⟨sub, q2, q3⟩
      · rw [g]; exact h
      · rw [g]; exact heldBy_get hn h
      · rcases await_reg (s.node z) j with g' | ⟨reg', out, hp, g'⟩
        · rw [g, g']; exact h
        · rw [g, g']
          exact heldBy_poll h (fun hij => hlab.1 (by rw [hij])) hp
      · rw [g]; exact heldBy_drop h (fun hij => hlab.2 (by rw [hij]))
    · rw [h4 x (Ne.symm hz)]; exact h

/-! ### Helpers: what the reader does is what nodes do -/

theorem NetRun.mono {H : Hashes} {debug : Bool} {ok ok' : NetSt P → NetEv P → NetSt P → Prop} {s t : NetSt P}
    (h : NetRun H debug ok s t) (hok : ∀ s e s', ok s e s' → ok' s e s') : NetRun H debug ok' s t := by
  induction h with
  | refl => exact .refl _
  | step e _ ho hst ih => exact .step e ih (hok _ _ _ ho) hst

/-- The events of `Reader.go`. -/
theorem go_events {H : Hashes} {debug : Bool} (x : P) (s : NetSt P) (r : Reader) (ok : NetSt P → NetEv P → NetSt P → Prop)
    (hget : ∀ c, r.seek.next = some c → ok s (.get x c) (s.upd x ((s.node x).get c).2))
    (hup : ∀ i s1 n e, r.wait = some i → s1.flight = s.flight → (e = .await x i ∨ e = .drop x i) → ok s1 e (s1.upd x n)) :
    NetRun H debug ok s (r.go x s).1 := by
  have hask : ∀ c, r.seek.next = some c → NetRun H debug ok s (r.ask x s c).1 := by
    intro c hc
    have : (r.ask x s c).1 = s.upd x ((s.node x).get c).2 := by
      unfold Reader.ask
      rcases (s.node x).get c with ⟨_ | b, n⟩ <;> rfl
    rw [this]
    exact .step (.get x c) (.refl s) (hget c hc) rfl
  have hupd : ∀ n n', (s.upd x n).upd x n' = s.upd x n' := by
    intro n n'
    simp only [NetSt.upd, NetSt.mk.injEq, and_true]
    funext y; split <;> rfl
  unfold Reader.go
  cases hw : r.wait with
  | some i =>
    dsimp only
    unfold Reader.poll
    cases hp : (s.node x).reg.poll i with
    | none => exact .refl s
    | some q =>
      obtain ⟨reg, out⟩ := q
      dsimp only
      have h1 : NetRun H debug ok s (s.upd x { s.node x with reg := reg }) :=
        .step (.await x i) (.refl s) (hup i s _ _ hw rfl (Or.inl rfl)) (by simp only [NetSt.step, hp]; rfl)
      have h2 : NetRun H debug ok s (s.upd x (Peer.drop { s.node x with reg := reg } i)) := by
        refine .step (.drop x i) h1 (t := s.upd x { s.node x with reg := reg }) ?_ ?_
        · have h := hup i (s.upd x { s.node x with reg := reg }) (Peer.drop { s.node x with reg := reg } i) _ hw rfl (Or.inr rfl)
          rw [hupd] at h
          exact h
        · simp only [NetSt.step, upd_self, hupd]
      cases out <;> first | exact h1 | exact h2
  | none =>
    dsimp only
    cases hs : r.seek with
    | root c rg => exact hask c (by rw [hs]; rfl)
    | walk v =>
      dsimp only
      cases hp : v.pending with
      | nil => exact .refl s
      | cons p ps => exact hask p.1 (by rw [hs]; simp [Seek.next, hp])
    | refused b => exact .refl s
    | ended e => exact .refl s

/-! ### Helpers: the reader -/

/-- What the reader has yielded and what is to come is the whole, and its future will answer. -/
structure ReadInv (fetch : Cid → Option Bytes) (root : Cid) (Q : Repo.Block → Prop) (whole : List Bytes) (bound : Nat) (x : P) (k : Nat) (s : NetSt P) (r : Reader) : Prop where
  left : ∃ m rest, whole = r.out ++ rest ∧ ToCome fetch root Q m r.seek rest ∧ k + 2 * m ≤ bound + (if r.wait.isSome then 1 else 0)
  held : ∀ i, r.wait = some i → ∃ c, r.seek.next = some c ∧ HeldBy (s.node x).reg c i

/-- Data that matches a cid of the file is the data of the file. -/
def OneData (H : Hashes) (fetch : Cid → Option Bytes) : Prop := ∀ c data d, fetch c = some data → Authentic H c d → d = data

omit [DecidableEq P] in
theorem readInv_take {fetch : Cid → Option Bytes} {root : Cid} {Q : Repo.Block → Prop} {whole : List Bytes} {bound : Nat} {x : P} {k : Nat} {s' : NetSt P} {r : Reader}
    {H : Hashes} (hone : OneData H fetch) {c : Cid} {b : Repo.Block} (hm : b.cid.mh = c.mh) (ha : Authentic H c b.data)
    (hi : ∃ m rest, whole = r.out ++ rest ∧ ToCome fetch root Q m r.seek rest ∧ k + 2 * m ≤ bound + 1)
    (hc : r.seek.next = some c) (hQ : c = root → b.cid.codec ≠ codecDagPb → Q b) : ReadInv fetch root Q whole bound x (k + 1) s' (r.take b) := by
  obtain ⟨m, rest, h1, h2, h3⟩ := hi
  obtain ⟨data, hd, hb⟩ := toCome_take h2 hc
  rcases hb b (hone c data b.data hd ha) hm with ⟨⟨rg, hr⟩, hco, ht⟩ | ⟨m', rest', hlt, hrest, hleft⟩
  · refine ⟨⟨0, rest, ?_, ?_, ?_⟩, ?_⟩
    · simp [Reader.take, ht, h1]
    · rw [Reader.take, ht]
      rw [hr] at h2
      obtain ⟨hcr, -⟩ := h2
      exact ⟨by rw [hm, hcr], hco, hQ hcr hco⟩
    · have : 1 ≤ m := by
        rw [hr] at h2
        obtain ⟨-, _, _, h, -⟩ := h2
        omega
      simp only [Reader.take, Option.isSome_none, Bool.false_eq_true, if_false]
      omega
    · intro i h; cases h
  · refine ⟨⟨m', rest', ?_, hleft, ?_⟩, ?_⟩
    · simp only [Reader.take]; rw [h1, hrest, List.append_assoc]
    · simp only [Reader.take, Option.isSome_none, Bool.false_eq_true, if_false]
      omega
    · intro i h; cases h

omit [DecidableEq P] in
theorem heldBy_out {H : Hashes} {n : Peer P} (hn : TrueInv H n) {c : Cid} {i : Nat} (h : HeldBy n.reg c i) {q : Option (Reg Cid Repo.Block × Out Repo.Block)}
    (hq : n.reg.poll i = q) : (∃ reg', q = some (reg', .pending) ∧ HeldBy reg' c i ∧ ∃ w, Waits n.reg c i w) ∨
      ∃ reg' b, q = some (reg', .done b) ∧ b.cid = c ∧ Authentic H c b.data := by
  obtain ⟨h1, sub, h2, h3⟩ := h
  subst hq
  unfold Reg.poll
  rw [h1]
  dsimp only
  rw [h2]
  cases sub with
  | ready r =>
    right
    refine ⟨_, r, rfl, ?_⟩
    obtain ⟨g1, g2⟩ := hn.ready _ _ _ h2
    rw [g1] at g2
    exact ⟨g1, g2⟩
  | pending w m =>
    left
    refine ⟨_, rfl, ⟨h1, .pending true m, ?_, ?_⟩, w, m, h2⟩
    · dsimp only; rw [AMap.get_set, if_pos rfl]
    · simp
  | cancelled => exact absurd rfl h3

omit [DecidableEq P] in
theorem get_answer {H : Hashes} {n : Peer P} (hn : TrueInv H n) {c : Cid} {b : Repo.Block} (h : (n.get c).1 = some b) :
    n.store.getBlock c = some b ∧ b.cid.mh = c.mh ∧ Authentic H c b.data := by
  unfold Peer.get at h
  split at h
  · rename_i b' hb'
    cases h
    obtain ⟨h1, h2⟩ := hn.store c _ hb'
    exact ⟨hb', h1, authentic_mh h1 h2⟩
  · cases h

omit [DecidableEq P] in
theorem take_new {fetch : Cid → Option Bytes} {root : Cid} {Q : Repo.Block → Prop} {whole : List Bytes} {bound : Nat} {x : P} {k : Nat} {s : NetSt P} {r : Reader}
    {H : Hashes} (hone : OneData H fetch) (hi : ReadInv fetch root Q whole bound x k s r) {c : Cid} {b : Repo.Block} (hm : b.cid.mh = c.mh)
    (ha : Authentic H c b.data) (hc : r.seek.next = some c) : r.take b ≠ r := by
  obtain ⟨m, rest, h1, h2, h3⟩ := hi.left
  obtain ⟨data, hd, -⟩ := toCome_take h2 hc
  rw [← hone c data _ hd ha] at hd
  intro he
  exact take_moves m h2 hc hd hm (congrArg Reader.seek he)

theorem ReadInv.ask {fetch : Cid → Option Bytes} {root : Cid} {Q : Repo.Block → Prop} {whole : List Bytes} {bound : Nat} {x : P} {k : Nat} {s : NetSt P} {r : Reader}
    {H : Hashes} (hone : OneData H fetch) (hn : TrueInv H (s.node x)) (hst : ∀ b, (s.node x).store.getBlock root = some b → Q b)
    (hi : ReadInv fetch root Q whole bound x k s r) (hw : r.wait = none)
    {c : Cid} (hc : r.seek.next = some c) : ReadInv fetch root Q whole bound x (k + 1) (r.ask x s c).1 (r.ask x s c).2 ∧ (r.ask x s c).2 ≠ r := by
  obtain ⟨m, rest, h1, h2, h3⟩ := hi.left
  rw [hw] at h3
  simp only [Option.isSome_none, Bool.false_eq_true, if_false] at h3
  unfold Reader.ask
  rcases hg : (s.node x).get c with ⟨_ | b, n⟩
  · have hg1 : ((s.node x).get c).1 = none := by rw [hg]
    have hh := heldBy_new hn hg1
    rw [hg] at hh
    dsimp only
    refine ⟨⟨⟨m, rest, h1, h2, by simp; omega⟩, ?_⟩, ?_⟩
    · intro i h
      cases h
      exact ⟨c, hc, by rw [upd_self]; exact hh⟩
    · intro he
      have := congrArg Reader.wait he
      rw [hw] at this; cases this
  · obtain ⟨g0, g1, g2⟩ := get_answer hn (by rw [hg] : ((s.node x).get c).1 = some b)
    exact ⟨readInv_take hone g1 g2 ⟨m, rest, h1, h2, by omega⟩ hc (by rintro rfl -; exact hst b g0), take_new hone hi g1 g2 hc⟩

theorem ReadInv.go {fetch : Cid → Option Bytes} {root : Cid} {Q : Repo.Block → Prop} {whole : List Bytes} {bound : Nat} {x : P} {k : Nat} {s : NetSt P} {r : Reader}
    {H : Hashes} (hone : OneData H fetch) (hn : TrueInv H (s.node x)) (hst : ∀ b, (s.node x).store.getBlock root = some b → Q b)
    (hpb : root.codec = codecDagPb) (hi : ReadInv fetch root Q whole bound x k s r) :
    (ReadInv fetch root Q whole bound x k (r.go x s).1 (r.go x s).2 ∧ (r.go x s).2 = r ∧
      ((∃ b, r.seek = .refused b) ∨ (∃ e, r.seek = .ended e) ∨ ∃ i c w, r.seek.next = some c ∧ Waits (s.node x).reg c i w)) ∨
    (ReadInv fetch root Q whole bound x (k + 1) (r.go x s).1 (r.go x s).2 ∧ (r.go x s).2 ≠ r) := by
  unfold Reader.go
  cases hw : r.wait with
  | some i =>
    obtain ⟨c, hc, hh⟩ := hi.held i hw
    dsimp only
    unfold Reader.poll
    rcases heldBy_out hn hh rfl with ⟨reg', hq, hh', w, hww⟩ | ⟨reg', b, hq, hb, ha⟩
    · left
      rw [hq]
      dsimp only
      refine ⟨⟨hi.left, ?_⟩, rfl, Or.inr (Or.inr ⟨i, c, w, hc, hww⟩)⟩
      intro j hj
      rw [hw] at hj; cases hj
      exact ⟨c, hc, by rw [upd_self]; exact hh'⟩
    · right
      rw [hq]
      dsimp only
      obtain ⟨m, rest, h1, h2, h3⟩ := hi.left
      rw [hw] at h3
      exact ⟨readInv_take hone (by rw [hb]) ha ⟨m, rest, h1, h2, h3⟩ hc (by rintro rfl hne; rw [hb] at hne; exact absurd hpb hne),
        take_new hone hi (by rw [hb]) ha hc⟩
  | none =>
    dsimp only
    cases hs : r.seek with
    | root c rg => right; exact hi.ask hone hn hst hw (by rw [hs]; rfl)
    | walk v =>
      dsimp only
      cases hp : v.pending with
      | nil =>
        exfalso
        obtain ⟨m, rest, h1, h2, h3⟩ := hi.left
        rw [hs] at h2
        cases m <;> simp [ToCome, catLoop, hp] at h2
      | cons p ps => right; exact hi.ask hone hn hst hw (by rw [hs]; simp [Seek.next, hp])
    | refused b => left; exact ⟨hi, rfl, Or.inl ⟨b, rfl⟩⟩
    | ended e => left; exact ⟨hi, rfl, Or.inr (Or.inl ⟨e, rfl⟩)⟩

/-- Everything that happens with the reader happens at the nodes, and the reader stays on its way. -/
theorem read_inv {H : Hashes} {debug : Bool} {ok : NetSt P → NetEv P → NetSt P → Prop} {x : P} {s0 s : NetSt P} {k : Nat} {r : Reader}
    {fetch : Cid → Option Bytes} {root : Cid} {range : Option Rng} {data : Bytes} {fuel : Nat} {whole : List Bytes} {Q : Repo.Block → Prop}
    {ex : NetSt P → NetEv P → Prop} (hex : ∀ s c, ex s (.get x c)) (hex' : ∀ s i, ex s (.await x i) ∧ ex s (.drop x i))
    (hst : ∀ s, NetRun H debug (fun s e _ => PutsTrue H e ∧ ex s e) NetSt.init s → ∀ b, (s.node x).store.getBlock root = some b → Q b)
    (hpb : root.codec = codecDagPb) (hone : OneData H fetch)
    (hpre : NetRun H debug (fun s e _ => PutsTrue H e ∧ ex s e) NetSt.init s0) (hok : ∀ s e s', ok s e s' → PutsTrue H e ∧ ex s e)
    (hroot : fetch root = some data) (hcat : cat fetch range data fuel = (whole, .done))
    (hrun : ReadRun H debug ok x s0 (.start root range) k s r) :
    NetRun H debug (fun s e _ => PutsTrue H e ∧ ex s e) NetSt.init s ∧ ReadInv fetch root Q whole (2 * (fuel + 1)) x k s r := by
  induction hrun with
  | refl =>
    refine ⟨hpre, ⟨⟨fuel + 1, whole, rfl, ⟨rfl, data, fuel, rfl, hroot, hcat⟩, by simp [Reader.start]⟩, ?_⟩⟩
    intro i h; cases h
  | other e _ hoth ho hst ih =>
    refine ⟨.step e ih.1 (hok _ _ _ ho) hst, ih.2.left, ?_⟩
    intro i hw
    obtain ⟨c, hc, hh⟩ := ih.2.held i hw
    exact ⟨c, hc, heldBy_net (true_net (ih.1.mono fun _ _ _ h => h.1) x) hh (hoth i hw) hst⟩
  | @further k s r _ hne ih =>
    refine ⟨NetRun.trans ih.1 (go_events x s r _ (fun c _ => ⟨trivial, hex s c⟩)
      (by rintro i s1 n e - - (rfl | rfl) <;> first | exact ⟨trivial, (hex' s1 i).1⟩ | exact ⟨trivial, (hex' s1 i).2⟩)), ?_⟩
    rcases ih.2.go hone (true_net (ih.1.mono fun _ _ _ h => h.1) x) (hst _ ih.1) hpb with ⟨-, h, -⟩ | h
    · exact absurd h hne
    · exact h.1
  | @again k s r _ he ih =>
    refine ⟨NetRun.trans ih.1 (go_events x s r _ (fun c _ => ⟨trivial, hex s c⟩)
      (by rintro i s1 n e - - (rfl | rfl) <;> first | exact ⟨trivial, (hex' s1 i).1⟩ | exact ⟨trivial, (hex' s1 i).2⟩)), ?_⟩
    rcases ih.2.go hone (true_net (ih.1.mono fun _ _ _ h => h.1) x) (hst _ ih.1) hpb with ⟨h, -, -⟩ | h
    · rw [he] at h; exact h
    · exact absurd he h.2

/-- At this node, what is stored for the cid is stored under it. -/
theorem own_cid {H : Hashes} {debug : Bool} {x : P} {c : Cid} {s : NetSt P}
    (hrun : NetRun H debug (fun s e _ => PutsTrue H e ∧ NoAlias x c s e) NetSt.init s) (b : Repo.Block)
    (hb : (s.node x).store.getBlock c = some b) : b.cid = c := by
  induction hrun generalizing b with
  | refl => cases hb
  | step e _ ho hst ih =>
    rcases net_step hst with ⟨h1, h2, h3⟩ | ⟨z, lab, a, n', h1, h2, h3, h4, h5⟩
    · rw [h2] at hb; exact ih b hb
    · by_cases hz : z = x
      · subst hz
        rw [h3] at hb
        rcases move_repo h2 with ⟨g, -⟩ | ⟨b', hl, -, g, -, -⟩ | ⟨d, -, g, -⟩ | ⟨g, -⟩
        · rw [g] at hb; exact ih b hb
        · rw [g, MemBlocks.getBlock, AMap.get_set] at hb
          split at hb
          · rename_i hc
            cases hb
            rcases hl with rfl | ⟨k, p, rfl, hk⟩
            · cases e with
              | put y b2 => cases h1; exact ho.2 rfl hc.symm
              | deliver k => simp only [evLab, Option.map_eq_some_iff] at h1; obtain ⟨f, -, h1⟩ := h1; cases h1
              | _ => cases h1
            · cases e with
              | save y k2 => cases h1; exact ho.2 rfl _ hk hc.symm
              | deliver k => simp only [evLab, Option.map_eq_some_iff] at h1; obtain ⟨f, -, h1⟩ := h1; cases h1
              | _ => cases h1
          · exact ih b hb
        · rw [g] at hb
          simp only [MemBlocks.remove, MemBlocks.getBlock, AMap.get_erase] at hb
          split at hb
          · cases hb
          · exact ih b hb
        · rw [g] at hb; exact ih b hb
      · rw [h4 x (Ne.symm hz)] at hb; exact ih b hb

theorem storeOf_some {blocks : List (Cid × Bytes)} {c : Cid} {d : Bytes} (h : storeOf blocks c = some d) : (c, d) ∈ blocks := by
  unfold storeOf at h
  cases hf : blocks.find? (fun x => x.1 == c) with
  | none => rw [hf] at h; cases h
  | some b =>
    rw [hf] at h
    have h1 := List.find?_some hf
    have h2 := List.mem_of_find?_eq_some hf
    simp only [beq_iff_eq] at h1
    simp only [Option.map_some, Option.some.injEq] at h
    rw [← h1, ← h]; exact h2

/-- What the theorems about a file that was added need. -/
theorem file_ready {sha : Bytes → Bytes} (hsha : Digest32 sha) {H : Hashes} (hH : H mhSha256 = some sha) {chunk bf : Nat}
    {slices : List Bytes} (hfit : Fits chunk bf slices.flatten) {blocks : List (Cid × Bytes)} {root : Cid × Bytes}
    (hadd : addFile sha chunk bf slices = .ok blocks) (hlast : blocks.getLast? = some root) (hno : NoOther sha blocks) (range : Option Rng) :
    OneData H (storeOf blocks) ∧ storeOf blocks root.1 = some root.2 ∧ root.1.codec = codecDagPb ∧ (∀ b ∈ blocks, b.1.Valid) ∧
      ∃ fuel whole, cat (storeOf blocks) range root.2 fuel = (whole, .done) ∧ whole.flatten = askedPart slices.flatten range := by
  obtain ⟨bl, rt, h1, h2, hv0, -⟩ := C03_closed_dag hsha hfit
  rw [hadd] at h1; cases h1
  have hcoll : NoCollision blocks := by
    intro b hb b' hb' he
    rw [hv0 b hb, hv0 b' hb'] at he
    simp only [Cid.v0, Cid.mk.injEq, true_and] at he
    exact hno b' hb' b.2 he
  have hmem := storeOf_mem hcoll
  have hrm := List.mem_of_getLast? hlast
  refine ⟨?_, hmem _ hrm, by rw [hv0 _ hrm]; rfl, fun b hb => by rw [hv0 b hb]; exact Cid.v0_valid _ (hsha _), ?_⟩
  · intro c data d hc ha
    have hm := storeOf_some hc
    have hcv := hv0 _ hm
    dsimp only at hcv
    obtain ⟨f, hf, hp⟩ := ha
    rw [hcv] at hf hp
    have : f = sha := by
      have : H mhSha256 = some f := hf
      rw [hH] at this; cases this; rfl
    subst this
    refine hno _ hm d ?_
    obtain ⟨t, ht⟩ := hp
    have hl := congrArg List.length ht
    simp only [Cid.v0, List.length_append] at hl
    have hl1 := hsha data
    have hl2 := hsha d
    have : t = [] := List.eq_nil_of_length_eq_zero (by omega)
    subst this
    simpa [Cid.v0] using ht.symm
  · cases range with
    | none =>
      obtain ⟨bl, rt, g1, g2, g3⟩ := C01_add_then_cat hsha hfit
      rw [hadd] at g1; cases g1
      rw [hlast] at g2; cases g2
      obtain ⟨n, chunks, g4, g5⟩ := g3 _ hmem
      exact ⟨n, chunks, g5 n (Nat.le_refl n), g4⟩
    | some rg =>
      obtain ⟨bl, rt, g1, g2, g3⟩ := C07_range hsha hfit rg.start rg.stop
      rw [hadd] at g1; cases g1
      rw [hlast] at g2; cases g2
      obtain ⟨n, chunks, g4, g5⟩ := g3 _ hmem
      exact ⟨n, chunks, g5 n (Nat.le_refl n), g4⟩

/-! ### The theorems -/

/-- **C88**: a file is read from the network as it was added, whatever anybody sends. At every moment what was yielded is a
prefix of what was asked for; the stream does not panic and has no error, and when it ends it was all of it. The one thing that can
happen is that the node itself has the bytes of the root under a cid of another codec; then nothing is read. The reader goes on a
bounded number of times. -/
theorem C88_reads {sha : Bytes → Bytes} (hsha : Digest32 sha) {H : Hashes} (hH : H mhSha256 = some sha) {chunk bf : Nat}
    {slices : List Bytes} (hfit : Fits chunk bf slices.flatten) {blocks : List (Cid × Bytes)} {root : Cid × Bytes}
    (hadd : addFile sha chunk bf slices = .ok blocks) (hlast : blocks.getLast? = some root) (hno : NoOther sha blocks) (range : Option Rng) :
    ∃ bound, ∀ (debug : Bool) (x : P) (s0 s : NetSt P) (k : Nat) (r : Reader),
      NetRun H debug (fun _ e _ => PutsTrue H e) NetSt.init s0 →
      ReadRun H debug (fun _ e _ => PutsTrue H e) x s0 (.start root.1 range) k s r →
      k ≤ bound ∧ r.out.flatten <+: askedPart slices.flatten range ∧
      (∀ e, r.seek = .ended e → e = .done ∧ r.out.flatten = askedPart slices.flatten range) ∧
      (∀ b, r.seek = .refused b → b.cid.mh = root.1.mh ∧ b.cid.codec ≠ codecDagPb) := by
  obtain ⟨hone, hroot, hpb, -, fuel, whole, hcat, hw⟩ := file_ready hsha hH hfit hadd hlast hno range
  refine ⟨2 * (fuel + 1) + 1, ?_⟩
  intro debug x s0 s k r hpre hrun
  obtain ⟨-, hi⟩ := read_inv (Q := fun _ => True) (ex := fun _ _ => True) (fun _ _ => trivial) (fun _ _ => ⟨trivial, trivial⟩)
    (fun _ _ _ _ => trivial) hpb hone (hpre.mono fun _ _ _ h => ⟨h, trivial⟩) (fun _ _ _ h => ⟨h, trivial⟩) hroot hcat hrun
  obtain ⟨m, rest, h1, h2, h3⟩ := hi.left
  refine ⟨?_, ?_, ?_, ?_⟩
  · split at h3 <;> omega
  · rw [← hw, h1, List.flatten_append]; exact List.prefix_append _ _
  · intro e he
    rw [he] at h2
    obtain ⟨rfl, rfl⟩ := h2
    exact ⟨rfl, by rw [← hw, h1]; simp⟩
  · intro b hb
    rw [hb] at h2
    exact ⟨h2.1, h2.2.1⟩

/-- **C88**: a file that a connected peer has is read whole. The peer `y` had all blocks of the file before `x` wanted them, or before
`x` knew of the connection; from then on the two are undisturbed, whatever else happens, at them and elsewhere, and no block of the file
is stored at `x` under another cid. Then, when nothing is left to do at the two and the reader gets no further, the reader has ended and has
yielded all that was asked for. -/
theorem C88_finishes {sha : Bytes → Bytes} (hsha : Digest32 sha) {H : Hashes} (hH : H mhSha256 = some sha) {chunk bf : Nat}
    {slices : List Bytes} (hfit : Fits chunk bf slices.flatten) {blocks : List (Cid × Bytes)} {root : Cid × Bytes}
    (hadd : addFile sha chunk bf slices = .ok blocks) (hlast : blocks.getLast? = some root) (hno : NoOther sha blocks) (range : Option Rng)
    {debug : Bool} {x y : P} (hxy : x ≠ y) {s0 s : NetSt P} {k : Nat} {r : Reader}
    (hpre : NetRun H debug (fun s e s' => InOrder H e ∧ Short64 s' ∧ ∀ b ∈ blocks, NoAlias x b.1 s e) NetSt.init s0)
    (hhas : ∀ b ∈ blocks, (s0.node y).store.getBlock b.1 = some ⟨b.1, b.2⟩)
    (hnot : ∀ b ∈ blocks, (s0.node y).bits.bs.wanted.get b.1 = none ∧ RepoEv.want b.1 ∉ (s0.node y).chan)
    (hstart : ∀ b ∈ blocks, (s0.node x).bits.bs.wanted.get b.1 = none ∨ (s0.node x).bits.bs.peers.get y = none)
    (hshort : ∀ f ∈ s0.flight, Between x y f → f.bytes.length ≤ maxBufSize)
    (hrun : ReadRun H debug (fun s e s' => InOrder H e ∧ Short64 s' ∧ ∀ b ∈ blocks, NoAlias x b.1 s e ∧ Undisturbed x y b.1 s e s')
      x s0 (.start root.1 range) k s r)
    (hidle : Idle (s.node x) ∧ Idle (s.node y) ∧ ∀ f ∈ s.flight, ¬ Between x y f)
    (hlink : ∃ l, (s.node x).bits.bs.peers.get y = some l)
    (hstuck : (r.go x s).2 = r) :
    r.seek = .ended .done ∧ r.out.flatten = askedPart slices.flatten range := by
  obtain ⟨hone, hroot, hpb, hvalid, fuel, whole, hcat, hw⟩ := file_ready hsha hH hfit hadd hlast hno range
  have hrm : root ∈ blocks := List.mem_of_getLast? hlast
  have hput : ∀ e : NetEv P, InOrder H e → PutsTrue H e := by
    intro e he; cases e <;> first | trivial | exact he.2
  have hpre' : NetRun H debug (fun s e _ => PutsTrue H e ∧ NoAlias x root.1 s e) NetSt.init s0 :=
    hpre.mono fun _ _ _ h => ⟨hput _ h.1, h.2.2 _ hrm⟩
  have hinv : ∀ {k : Nat} {s : NetSt P} {r : Reader}, ReadRun H debug
      (fun s e s' => InOrder H e ∧ Short64 s' ∧ ∀ b ∈ blocks, NoAlias x b.1 s e ∧ Undisturbed x y b.1 s e s') x s0 (.start root.1 range) k s r →
      NetRun H debug (fun s e _ => PutsTrue H e ∧ NoAlias x root.1 s e) NetSt.init s ∧
        ReadInv (storeOf blocks) root.1 (fun b => b.cid = root.1) whole (2 * (fuel + 1)) x k s r := by
    intro k s r h
    exact read_inv (ex := fun s e => NoAlias x root.1 s e) (fun _ _ => trivial) (fun _ _ => ⟨trivial, trivial⟩)
      (fun _ h b hb => own_cid h b hb) hpb hone hpre' (fun _ _ _ h => ⟨hput _ h.1, (h.2.2 _ hrm).1⟩) hroot hcat h
  -- the run of the nodes
  have hs0 : Short64 s0 := by
    cases hpre with
    | refl => intro f hf; cases hf
    | step e _ ho _ => exact ho.2.1
  have hgo : ∀ {s : NetSt P} {r : Reader}, Short64 s → (∀ f ∈ s.flight, Between x y f → f.bytes.length ≤ maxBufSize) →
      (∀ c, r.seek.next = some c → c.Valid) →
      NetRun H debug (fun s e s' => InOrder H e ∧ Short64 s' ∧ ∀ b ∈ blocks, NoAlias x b.1 s e ∧ Undisturbed x y b.1 s e s') s (r.go x s).1 := by
    intro s r h1 h2 h3
    have und : ∀ (s1 : NetSt P) n e b, s1.flight = s.flight → (∃ c, e = .get x c) ∨ (∃ i, e = .await x i ∨ e = .drop x i) →
        Undisturbed x y b s1 e (s1.upd x n) := by
      intro s1 n e b hf he
      have hfl : ∀ f ∈ (s1.upd x n).flight, Between x y f → f.bytes.length ≤ maxBufSize := by
        intro f hm; exact h2 f (by rw [← hf]; exact hm)
      rcases he with ⟨c, rfl⟩ | ⟨i, rfl | rfl⟩ <;>
        exact ⟨⟨by simp, by simp⟩, ⟨by simp, by simp⟩, by simp, by simp, hfl⟩
    refine go_events x s r _ ?_ ?_
    · intro c hc
      exact ⟨h3 c hc, h1, fun b _ => ⟨trivial, und s _ _ _ rfl (Or.inl ⟨c, rfl⟩)⟩⟩
    · intro i s1 n e _ hf he
      have h1' : Short64 (s1.upd x n) := by
        intro f hm; exact h1 f (by rw [← hf]; exact hm)
      have hu := fun b => und s1 n e b hf (Or.inr ⟨i, he⟩)
      rcases he with rfl | rfl <;> exact ⟨trivial, h1', fun b _ => ⟨trivial, hu b.1⟩⟩
  have hends : ∀ {s t : NetSt P}, Short64 s → (∀ f ∈ s.flight, Between x y f → f.bytes.length ≤ maxBufSize) →
      NetRun H debug (fun s e s' => InOrder H e ∧ Short64 s' ∧ ∀ b ∈ blocks, NoAlias x b.1 s e ∧ Undisturbed x y b.1 s e s') s t →
      Short64 t ∧ ∀ f ∈ t.flight, Between x y f → f.bytes.length ≤ maxBufSize := by
    intro s t h1 h2 h
    cases h with
    | refl => exact ⟨h1, h2⟩
    | step e _ ho _ => exact ⟨ho.2.1, (ho.2.2 _ hrm).2.short⟩
  have hnext : ∀ {k : Nat} {s : NetSt P} {r : Reader}, ReadInv (storeOf blocks) root.1 (fun b => b.cid = root.1) whole (2 * (fuel + 1)) x k s r →
      ∀ c, r.seek.next = some c → ∃ d, (c, d) ∈ blocks := by
    intro k s r hi c hc
    obtain ⟨m, rest, h1, h2, h3⟩ := hi.left
    obtain ⟨d, hd, -⟩ := toCome_take h2 hc
    exact ⟨d, storeOf_some hd⟩
  have hnet : NetRun H debug (fun s e s' => InOrder H e ∧ Short64 s' ∧ ∀ b ∈ blocks, NoAlias x b.1 s e ∧ Undisturbed x y b.1 s e s') s0 s := by
    clear hidle hlink hstuck
    induction hrun with
    | refl => exact .refl s0
    | other e _ _ ho hst ih => exact .step e ih ho hst
    | further hr _ ih =>
      obtain ⟨g1, g2⟩ := hends hs0 hshort ih
      refine NetRun.trans ih (hgo g1 g2 ?_)
      intro c hc
      obtain ⟨d, hd⟩ := hnext (hinv hr).2 c hc
      exact hvalid _ hd
    | again hr _ ih =>
      obtain ⟨g1, g2⟩ := hends hs0 hshort ih
      refine NetRun.trans ih (hgo g1 g2 ?_)
      intro c hc
      obtain ⟨d, hd⟩ := hnext (hinv hr).2 c hc
      exact hvalid _ hd
  obtain ⟨hn, hi⟩ := hinv hrun
  obtain ⟨m, rest, h1, h2, h3⟩ := hi.left
  have hcase : (∃ b, r.seek = .refused b) ∨ (∃ e, r.seek = .ended e) ∨ ∃ i c w, r.seek.next = some c ∧ Waits (s.node x).reg c i w := by
    rcases hi.go hone (true_net (hn.mono fun _ _ _ h => h.1) x) (fun b hb => own_cid hn b hb) hpb with ⟨-, -, h⟩ | ⟨-, h⟩
    · exact h
    · exact absurd hstuck h
  rcases hcase with ⟨b, hb⟩ | ⟨e, he⟩ | ⟨i, c, w, hc, hwt⟩
  · exfalso
    rw [hb] at h2
    obtain ⟨-, g2, g3⟩ := h2
    rw [g3] at g2
    exact g2 hpb
  · rw [he] at h2
    obtain ⟨rfl, rfl⟩ := h2
    exact ⟨he, by rw [← hw, h1]; simp⟩
  · exfalso
    obtain ⟨d, hd⟩ := hnext hi c hc
    exact C73_arrives hxy (hpre.mono fun _ _ _ h => ⟨h.1, h.2.1, h.2.2 _ hd⟩) ⟨_, hhas _ hd, rfl⟩ (hnot _ hd) (hstart _ hd)
      (hnet.mono fun _ _ _ h => ⟨h.1, h.2.1, (h.2.2 _ hd).1, (h.2.2 _ hd).2⟩) hidle hlink i w hwt

/-- **C88**: when the future is cancelled, because the node is shut down, the stream ends with an error for the block that was asked for, after what was
yielded. -/
theorem C88_cancelled (x : P) (s : NetSt P) (r : Reader) (c : Cid) (i : Nat) (reg : Reg Cid Repo.Block) (hc : r.seek.next = some c)
    (hw : r.wait = some i) (h : (s.node x).reg.poll i = some (reg, .cancelled)) : (r.go x s).2 = ⟨.ended (.loading c), none, r.out⟩ := by
  simp only [Reader.go, hw, Reader.poll, h, hc, Option.getD_some]

/-- **C88**: a walk that blocks from elsewhere have left without links (`C08_panics_no_pending`) panics at the node too, and nothing else changes. -/
theorem C88_no_pending (x : P) (s : NetSt P) (v : Visit) (out : List Bytes) (h : v.pending = []) :
    (⟨.walk v, none, out⟩ : Reader).go x s = (s, ⟨.ended (.panic .noPending), none, out⟩) := by
  simp only [Reader.go, h]

/-! ### Examples -/

/-- Short data can be told apart by this. -/
def shortSha (d : Bytes) : Bytes :=
  if d.length ≤ 30 then UInt8.ofNat (d.length + 1) :: (d ++ List.replicate (31 - d.length) 0) else List.replicate 32 0

/-- The blocks of a file of four bytes in two leaves. -/
def netBlocks (sha : Bytes → Bytes) : List (Cid × Bytes) :=
  match addFile sha 2 2 [[1, 2, 3], [4]] with
  | .ok bl => bl
  | _ => []

/-- The root of it. -/
def netRootBytes : Bytes := (((netBlocks shortSha).getLast?).map Prod.snd).getD []

/-- A hash for which no other data has the hash of one of the blocks. -/
def netSha (d : Bytes) : Bytes := if d = netRootBytes then List.replicate 32 255 else shortSha d

def netHashes : Hashes := fun n => if n = mhSha256 then some netSha else none

def netFile : List (Cid × Bytes) := netBlocks netSha

def netRoot : Cid × Bytes := (netFile.getLast?).getD (Cid.v0 [], [])

theorem netFile_added : addFile netSha 2 2 [[1, 2, 3], [4]] = .ok netFile ∧ netFile.getLast? = some netRoot ∧ netFile.length = 3 := by
  decide +kernel

theorem shortSha_inj {d b : Bytes} (hb : b.length ≤ 30) (h : shortSha d = shortSha b) : d = b := by
  unfold shortSha at h
  rw [if_pos hb] at h
  split at h
  · rename_i hd
    simp only [List.cons.injEq] at h
    have hl : d.length = b.length := by
      have := congrArg UInt8.toNat h.1
      simp only [UInt8.toNat_ofNat'] at this
      omega
    exact (List.append_inj h.2 hl).1
  · exfalso
    rw [show (32 : Nat) = 31 + 1 from rfl, List.replicate_succ] at h
    simp only [List.cons.injEq] at h
    have := congrArg UInt8.toNat h.1
    simp only [UInt8.toNat_ofNat', UInt8.toNat_zero] at this
    omega

theorem shortSha_first (d : Bytes) : shortSha d ≠ List.replicate 32 255 := by
  intro h
  unfold shortSha at h
  split at h
  · rename_i hd
    rw [show (32 : Nat) = 31 + 1 from rfl, List.replicate_succ] at h
    simp only [List.cons.injEq] at h
    have := congrArg UInt8.toNat h.1
    simp only [UInt8.toNat_ofNat'] at this
    have h2 : (255 : UInt8).toNat = 255 := rfl
    omega
  · revert h; decide

theorem netSha_digest32 : Digest32 netSha := by
  intro d
  unfold netSha shortSha
  split
  · rfl
  · split
    · simp; omega
    · rfl

theorem netFile_noOther : NoOther netSha netFile := by
  have hall : ∀ b ∈ netFile, b.2 = netRootBytes ∨ b.2.length ≤ 30 ∧ b.2 ≠ netRootBytes := by decide +kernel
  intro b hb d hd
  rcases hall b hb with h | ⟨h, hne⟩
  · rw [h] at hd ⊢
    refine Decidable.byContradiction fun hn => ?_
    rw [netSha, netSha, if_neg hn, if_pos rfl] at hd
    exact shortSha_first d hd
  · rw [netSha.eq_def b.2, if_neg hne] at hd
    unfold netSha at hd
    split at hd
    · exact absurd hd.symm (shortSha_first _)
    · exact shortSha_inj h hd

theorem netFile_fits : Fits 2 2 ([[1, 2, 3], [4]] : List Bytes).flatten := by
  constructor <;> simp

/-! #### Runs with a reader that can be computed -/

def othersB (x : Fin 3) (r : Reader) (e : NetEv (Fin 3)) : Bool :=
  match e with
  | .await y i => decide (¬ (y = x ∧ r.wait = some i))
  | .drop y i => decide (¬ (y = x ∧ r.wait = some i))
  | _ => true

theorem othersB_sound {x : Fin 3} {r : Reader} {e : NetEv (Fin 3)} (h : othersB x r e = true) : Others x r e := by
  intro i hi
  constructor
  · rintro rfl; simp [othersB, hi] at h
  · rintro rfl; simp [othersB, hi] at h

/-- `none` is the reader. -/
def readRun (H : Hashes) (debug : Bool) (ok : NetSt (Fin 3) → NetEv (Fin 3) → NetSt (Fin 3) → Bool) (x : Fin 3) :
    NetSt (Fin 3) → Reader → List (Option (NetEv (Fin 3))) → Option (NetSt (Fin 3) × Reader)
  | s, r, [] => some (s, r)
  | s, r, none :: es => readRun H debug ok x (r.go x s).1 (r.go x s).2 es
  | s, r, some e :: es =>
    match s.step H debug e with
    | none => none
    | some s' => if ok s e s' && othersB x r e then readRun H debug ok x s' r es else none

theorem readRun_sound {H : Hashes} {debug : Bool} {ok : NetSt (Fin 3) → NetEv (Fin 3) → NetSt (Fin 3) → Bool}
    {okP : NetSt (Fin 3) → NetEv (Fin 3) → NetSt (Fin 3) → Prop} (hok : ∀ s e s', ok s e s' = true → okP s e s') {x : Fin 3} {s0 : NetSt (Fin 3)}
    {r0 : Reader} : ∀ (evs : List (Option (NetEv (Fin 3)))) (k : Nat) (s s' : NetSt (Fin 3)) (r r' : Reader), ReadRun H debug okP x s0 r0 k s r →
    readRun H debug ok x s r evs = some (s', r') → ∃ k', ReadRun H debug okP x s0 r0 k' s' r' := by
  intro evs
  induction evs with
  | nil => intro k s s' r r' h hr; cases hr; exact ⟨k, h⟩
  | cons e es ih =>
    intro k s s' r r' h hr
    cases e with
    | none =>
      simp only [readRun] at hr
      by_cases he : (r.go x s).2 = r
      · have h' := h.again he
        rw [he] at hr
        exact ih k _ _ _ _ h' hr
      · exact ih (k + 1) _ _ _ _ (h.further he) hr
    | some e =>
      simp only [readRun] at hr
      split at hr
      · cases hr
      · rename_i t ht
        split at hr
        · rename_i ho
          simp only [Bool.and_eq_true] at ho
          exact ih k _ _ _ _ (h.other e (othersB_sound ho.2) (hok _ _ _ ho.1) ht) hr
        · cases hr

theorem readRun_end {H : Hashes} {debug : Bool} {ok : NetSt (Fin 3) → NetEv (Fin 3) → NetSt (Fin 3) → Bool}
    {okP : NetSt (Fin 3) → NetEv (Fin 3) → NetSt (Fin 3) → Prop} (hok : ∀ s e s', ok s e s' = true → okP s e s') {x : Fin 3} {s0 : NetSt (Fin 3)}
    {r0 : Reader} {evs : List (Option (NetEv (Fin 3)))} {φ : NetSt (Fin 3) × Reader → Bool}
    (h : (readRun H debug ok x s0 r0 evs).any φ = true) : ∃ k s r, ReadRun H debug okP x s0 r0 k s r ∧ φ (s, r) = true := by
  cases hr : readRun H debug ok x s0 r0 evs with
  | none => rw [hr] at h; cases h
  | some q =>
    rw [hr] at h
    obtain ⟨k, hk⟩ := readRun_sound hok evs 0 s0 q.1 r0 q.2 .refl hr
    exact ⟨k, q.1, q.2, hk, h⟩

def filePreB (s : NetSt (Fin 3)) (e : NetEv (Fin 3)) (s' : NetSt (Fin 3)) : Bool :=
  inOrderB netHashes e && fitsB s' && netFile.all (fun b => noAliasB 0 b.1 s e)

def filePostB (s : NetSt (Fin 3)) (e : NetEv (Fin 3)) (s' : NetSt (Fin 3)) : Bool :=
  inOrderB netHashes e && fitsB s' && netFile.all (fun b => noAliasB 0 b.1 s e && calmB 0 1 b.1 s e s')

theorem filePreB_sound (s : NetSt (Fin 3)) (e : NetEv (Fin 3)) (s' : NetSt (Fin 3)) (h : filePreB s e s' = true) :
    InOrder netHashes e ∧ Short64 s' ∧ ∀ b ∈ netFile, NoAlias 0 b.1 s e := by
  simp only [filePreB, Bool.and_eq_true, List.all_eq_true] at h
  exact ⟨inOrderB_sound h.1.1, fitsB_sound h.1.2, fun b hb => noAliasB_sound (h.2 b hb)⟩

theorem filePostB_sound (s : NetSt (Fin 3)) (e : NetEv (Fin 3)) (s' : NetSt (Fin 3)) (h : filePostB s e s' = true) :
    InOrder netHashes e ∧ Short64 s' ∧ ∀ b ∈ netFile, NoAlias 0 b.1 s e ∧ Undisturbed 0 1 b.1 s e s' := by
  simp only [filePostB, Bool.and_eq_true, List.all_eq_true] at h
  exact ⟨inOrderB_sound h.1.1, fitsB_sound h.1.2, fun b hb => ⟨noAliasB_sound (h.2 b hb).1, calmB_sound (h.2 b hb).2⟩⟩

/-- The second node has the file, and the two are connected. -/
def filePre : List (NetEv (Fin 3)) :=
  netFile.map (fun b => .put 1 ⟨b.1, b.2⟩) ++ [.event 1, .event 1, .event 1, .established 1 0, .established 0 1, .swarm 0 [1], .swarm 1 [0], .deliver 0, .deliver 0]

/-- One block goes over, once the reader has asked for it. -/
def fileRound : List (Option (NetEv (Fin 3))) :=
  [none, some (.event 0), none, some (.swarm 0 [1]), some (.deliver 0), some (.swarm 1 [0]), some (.look 1 0), some (.swarm 1 [0]), some (.deliver 0),
    some (.swarm 0 [1]), some (.save 0 0), some (.event 0), some (.swarm 0 [1]), some (.deliver 0), some (.swarm 1 [0]), some (.swarm 1 [0]), none]

def seekDoneB (r : Reader) : Bool :=
  match r.seek with
  | .ended .done => true
  | _ => false

def rangeNow : Option Rng := some ⟨1, 3⟩

def fileStartB (s : NetSt (Fin 3)) : Bool :=
  netFile.all (fun b => decide ((s.node 1).store.getBlock b.1 = some ⟨b.1, b.2⟩) && decide ((s.node 1).bits.bs.wanted.get b.1 = none) &&
    decide (RepoEv.want b.1 ∉ (s.node 1).chan) && decide ((s.node 0).bits.bs.wanted.get b.1 = none)) && s.flight.isEmpty

def fileEndB (q : NetSt (Fin 3) × Reader) : Bool :=
  idleB (q.1.node 0) && idleB (q.1.node 1) && q.1.flight.isEmpty && ((q.1.node 0).bits.bs.peers.get 1).isSome && seekDoneB q.2 &&
    decide (q.2.wait = none)

theorem stuck_done {P : Type} [DecidableEq P] {x : P} {s : NetSt P} {r : Reader} (hw : r.wait = none) (h : r.seek = .ended .done) : (r.go x s).2 = r := by
  simp only [Reader.go, hw, h]

/-- A run that meets the hypotheses of `C88_finishes`, and so those of `C88_reads`, with a range; the reader asks for three blocks, which
go over the network. -/
theorem C88_met : ∃ (s0 s : NetSt (Fin 3)) (k : Nat) (r : Reader),
    NetRun netHashes false (fun s e s' => InOrder netHashes e ∧ Short64 s' ∧ ∀ b ∈ netFile, NoAlias 0 b.1 s e) NetSt.init s0 ∧
    (∀ b ∈ netFile, (s0.node 1).store.getBlock b.1 = some ⟨b.1, b.2⟩) ∧
    (∀ b ∈ netFile, (s0.node 1).bits.bs.wanted.get b.1 = none ∧ RepoEv.want b.1 ∉ (s0.node 1).chan) ∧
    (∀ b ∈ netFile, (s0.node 0).bits.bs.wanted.get b.1 = none ∨ (s0.node 0).bits.bs.peers.get 1 = none) ∧
    s0.flight = [] ∧
    ReadRun netHashes false (fun s e s' => InOrder netHashes e ∧ Short64 s' ∧ ∀ b ∈ netFile, NoAlias 0 b.1 s e ∧ Undisturbed 0 1 b.1 s e s')
      0 s0 (.start netRoot.1 rangeNow) k s r ∧
    (Idle (s.node 0) ∧ Idle (s.node 1) ∧ ∀ f ∈ s.flight, ¬ Between 0 1 f) ∧ (∃ l, (s.node 0).bits.bs.peers.get 1 = some l) ∧
    (r.go 0 s).2 = r := by
  obtain ⟨s0, -, h1, h2⟩ := netRun_end (H := netHashes) (debug := false) (ok := filePreB) (s := NetSt.init) (evs := filePre) filePreB_sound
    (φ := fun s0 => fileStartB s0 && (readRun netHashes false filePostB 0 s0 (.start netRoot.1 rangeNow) (fileRound ++ fileRound ++ fileRound)).any
      fileEndB) (by decide +kernel)
  simp only [Bool.and_eq_true] at h2
  obtain ⟨k, s, r, h3, h4⟩ := readRun_end filePostB_sound h2.2
  have h5 := h2.1
  simp only [fileStartB, fileEndB, Bool.and_eq_true, List.all_eq_true, decide_eq_true_eq, List.isEmpty_iff] at h5 h4
  obtain ⟨⟨⟨⟨⟨g1, g2⟩, g3⟩, g4⟩, g5⟩, g6⟩ := h4
  refine ⟨s0, s, k, r, h1, fun b hb => (h5.1 b hb).1.1.1, fun b hb => ⟨(h5.1 b hb).1.1.2, (h5.1 b hb).1.2⟩, fun b hb => Or.inl (h5.1 b hb).2, h5.2, h3,
    ⟨idleB_sound g1, idleB_sound g2, by rw [g3]; intro f hf; cases hf⟩, Option.isSome_iff_exists.mp g4, ?_⟩
  refine stuck_done g6 ?_
  unfold seekDoneB at g5
  split at g5
  · assumption
  · cases g5

/-- The other way out of `C88_reads` is real: the node has the bytes of the root as a raw block, and does not read the file. -/
theorem C88_alias : ∃ (s0 s : NetSt (Fin 3)) (k : Nat) (r : Reader) (b : Repo.Block),
    NetRun netHashes false (fun _ e _ => PutsTrue netHashes e) NetSt.init s0 ∧
    ReadRun netHashes false (fun _ e _ => PutsTrue netHashes e) 0 s0 (.start netRoot.1 none) k s r ∧ r.seek = .refused b ∧ b.data = netRoot.2 := by
  let b : Repo.Block := ⟨⟨.v1, codecRaw, netRoot.1.mhCode, netRoot.1.digest⟩, netRoot.2⟩
  obtain ⟨s0, -, h1, h2⟩ := netRun_end (H := netHashes) (debug := false) (ok := fun _ e _ => putsB netHashes e) (s := NetSt.init) (evs := [.put 0 b])
    (okP := fun _ e _ => PutsTrue netHashes e) (fun _ _ _ h => putsB_sound h)
    (φ := fun s0 => (readRun netHashes false (fun _ e _ => putsB netHashes e) 0 s0 (.start netRoot.1 none) [none]).any (fun q =>
      match q.2.seek with
      | .refused c => decide (c = b)
      | _ => false)) (by decide +kernel)
  obtain ⟨k, s, r, h3, h4⟩ := readRun_end (okP := fun _ e _ => PutsTrue netHashes e) (fun _ _ _ h => putsB_sound h) h2
  dsimp only at h4
  split at h4
  · rename_i c hc
    simp only [decide_eq_true_eq] at h4
    exact ⟨s0, s, k, r, c, h1, h3, hc, by rw [h4]⟩
  · cases h4

/-- The theorems hold of that run: two of the four bytes were asked for. -/
example : ∃ (s : NetSt (Fin 3)) (r : Reader), r.seek = .ended .done ∧ r.out.flatten = [2, 3] ∧ (r.go 0 s).2 = r := by
  obtain ⟨s0, s, k, r, h1, h2, h3, h4, h5, h6, h7, h8, h9⟩ := C88_met
  obtain ⟨g1, g2⟩ := C88_finishes netSha_digest32 rfl netFile_fits netFile_added.1 netFile_added.2.1 netFile_noOther rangeNow (by decide) h1 h2 h3 h4
    (by rw [h5]; intro f hf; cases hf) h6 h7 h8 h9
  exact ⟨s, r, g1, g2, h9⟩

end Verif.Props
