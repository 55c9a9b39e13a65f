import Verif.Net.Exchange
import Verif.Props.BitswapWants
import Verif.Props.BitswapMessage
import Verif.Props.Kad

/-!
# Helpers for C73: what one step does to a node
-/

namespace Verif.Props

open Verif Verif.Repo Verif.Repo.Subs Verif.Bitswap Verif.Net
open Verif.Bitswap.Bitswap

variable {P : Type} [DecidableEq P]

/-! ### Blocks and messages in order -/

/-- The cid can be written and read, and the data is what it says. -/
def BlockFine (H : Hashes) (b : Block) : Prop := b.cid.Valid ∧ Authentic H b.cid b.data

theorem MsgOk.nothing (H : Hashes) : MsgOk H {} :=
  ⟨List.nodup_nil, (by simp), (by simp), List.nodup_nil, (by simp), (by simp)⟩

theorem uniq_iff_nodup (w : AMap Cid Int) : AMap.Uniq w ↔ (w.map Prod.fst).Nodup := Iff.rfl

theorem MsgOk.want {H : Hashes} {m : Message} (h : MsgOk H m) {c : Cid} {pr : Int} (hc : c.Valid)
    (hp : -(2 : Int) ^ 31 ≤ pr ∧ pr < 2 ^ 31) : MsgOk H (m.wantBlock c pr) := by
  have hu : AMap.Uniq m.want := h.wantUniq
  have hmem : ∀ e ∈ m.want.set c pr, e = (c, pr) ∨ e ∈ m.want := by
    intro e he
    have h1 := (AMap.mem_iff_get (hu.set c pr) e.1 e.2).mp he
    rw [AMap.get_set] at h1
    split at h1
    · rename_i heq
      left
      simp only [Option.some.injEq] at h1
      exact Prod.ext heq h1.symm
    · exact Or.inr (AMap.mem_of_get h1)
  refine ⟨hu.set c pr, ?_, ?_, h.cancelUniq, h.cancelValid, h.blocks⟩
  · intro e he
    rcases hmem e he with rfl | he
    · exact hc
    · exact h.wantValid e he
  · intro e he
    rcases hmem e he with rfl | he
    · exact hp
    · exact h.priority e he

theorem MsgOk.cancel {H : Hashes} {m : Message} (h : MsgOk H m) {c : Cid} (hc : c.Valid) : MsgOk H (m.cancelBlock c) := by
  refine ⟨h.wantUniq, h.wantValid, h.priority, ?_, ?_, h.blocks⟩
  · simp only [Message.cancelBlock]
    split
    · exact h.cancelUniq
    · rename_i hm
      rw [List.nodup_append]
      refine ⟨h.cancelUniq, by simp, ?_⟩
      intro a ha b hb hab
      simp only [List.mem_singleton] at hb
      rw [hab, hb] at ha
      exact hm ha
  · intro x hx
    simp only [Message.cancelBlock] at hx
    split at hx
    · exact h.cancelValid x hx
    · rcases List.mem_append.mp hx with hx | hx
      · exact h.cancelValid x hx
      · simp only [List.mem_singleton] at hx; rw [hx]; exact hc

theorem MsgOk.cancelAll {H : Hashes} (bs : List Block) : ∀ {l : Ledger}, MsgOk H l.message → (∀ b ∈ bs, BlockFine H b) →
    MsgOk H (cancelAll bs l).message := by
  induction bs with
  | nil => intro l h _; exact h
  | cons b bs ih =>
    intro l h hb
    exact ih (l := l.cancelBlock b.cid) (h.cancel (hb b List.mem_cons_self).1) (fun x hx => hb x (List.mem_cons_of_mem _ hx))

theorem MsgOk.addAll {H : Hashes} {l : Ledger} (h : MsgOk H l.message) {bs : List Block} (hb : ∀ b ∈ bs, BlockFine H b) :
    MsgOk H (addAll bs l).message := by
  rw [addAll_eq]
  refine ⟨h.wantUniq, h.wantValid, h.priority, h.cancelUniq, h.cancelValid, ?_⟩
  intro b hm
  rcases List.mem_append.mp hm with hm | hm
  · exact h.blocks b hm
  · exact hb b hm

/-! ### The behaviour -/

/-- Everything in the behaviour is in order. -/
structure BitsFine (H : Hashes) (n : Bitswap.Node P) : Prop where
  wantedUniq : AMap.Uniq n.bs.wanted
  wanted : ∀ c pr, n.bs.wanted.get c = some pr → c.Valid ∧ -(2 : Int) ^ 31 ≤ pr ∧ pr < 2 ^ 31
  ledgers : ∀ p l, n.bs.peers.get p = some l → MsgOk H l.message
  notify : ∀ p m, .notify p m ∈ n.bs.events → MsgOk H m
  block : ∀ p b, .generate (.block p b) ∈ n.bs.events → BlockFine H b
  ready : ∀ e ∈ n.bs.ready, BlockFine H e.2
  tasks : ∀ e ∈ n.tasks, BlockFine H e.2

/-- What is given to the behaviour is in order. -/
def OpFine (H : Hashes) : Bitswap.Op P → Prop
  | .want c pr => c.Valid ∧ -(2 : Int) ^ 31 ≤ pr ∧ pr < 2 ^ 31
  | .cancel c => c.Valid
  | .received _ m => ∀ b ∈ m.blocks, BlockFine H b
  | .queue _ b => BlockFine H b
  | _ => True

theorem BitsFine.init (H : Hashes) : BitsFine H ({} : Bitswap.Node P) :=
  ⟨AMap.uniq_nil, (by intro _ _ h; cases h), (by intro _ _ h; cases h), (by intro _ _ h; cases h), (by intro _ _ h; cases h),
    (by intro _ h; cases h), (by intro _ h; cases h)⟩

theorem mem_readyFor {p : P} {r : List (P × Block)} {b : Block} : b ∈ readyFor p r ↔ (p, b) ∈ r := by
  unfold readyFor
  simp only [List.mem_map, List.mem_filter, decide_eq_true_eq]
  constructor
  · rintro ⟨⟨q, x⟩, ⟨h1, h2⟩, h3⟩
    simp only at h2 h3
    subst h2; subst h3; exact h1
  · intro h; exact ⟨_, ⟨h, rfl⟩, rfl⟩

theorem wantAll_fine {H : Hashes} {w : AMap Cid Int} (hu : AMap.Uniq w)
    (hw : ∀ c pr, w.get c = some pr → c.Valid ∧ -(2 : Int) ^ 31 ≤ pr ∧ pr < 2 ^ 31) : MsgOk H (wantAll w) := by
  have hu' : AMap.Uniq (wantAll w).want := by rw [wantAll_eq]; exact uniq_foldl_set w [] AMap.uniq_nil
  have hg : ∀ e ∈ (wantAll w).want, e.1.Valid ∧ -(2 : Int) ^ 31 ≤ e.2 ∧ e.2 < 2 ^ 31 := by
    intro e he
    have h1 := (AMap.mem_iff_get hu' e.1 e.2).mp he
    rw [wantAll_get w hu] at h1
    exact hw _ _ h1
  have hc : (wantAll w).cancel = [] ∧ (wantAll w).blocks = [] := by rw [wantAll_eq]; exact ⟨rfl, rfl⟩
  refine ⟨hu', fun e he => (hg e he).1, fun e he => (hg e he).2, ?_, ?_, ?_⟩
  · rw [hc.1]; exact List.nodup_nil
  · rw [hc.1]; intro _ h; cases h
  · rw [hc.2]; intro _ h; cases h

/-- A step keeps everything in order, and what it hands out is in order. -/
theorem BitsFine.step {H : Hashes} {n n' : Bitswap.Node P} {a : Option (Action P)} {op : Bitswap.Op P} (h : BitsFine H n)
    (ho : OpFine H op) (hs : n.step op = some (a, n')) :
    BitsFine H n' ∧ ∀ p m, a = some (.notify p m) → MsgOk H m := by
  cases op with
  | connect p =>
    cases hs
    refine ⟨⟨?_, ?_, ?_, ?_, ?_, ?_, h.tasks⟩, by intro _ _ h; cases h⟩ <;> simp only [connect]
    · split <;> exact h.wantedUniq
    · split <;> exact h.wanted
    · split <;> exact h.ledgers
    · intro q m hq
      split at hq
      · exact h.notify q m hq
      · exact h.notify q m (by simpa using hq)
    · intro q m hq
      split at hq
      · exact h.block q m hq
      · exact h.block q m (by simpa using hq)
    · split <;> exact h.ready
  | want c pr =>
    cases hs
    refine ⟨⟨h.wantedUniq.set _ _, ?_, ?_, h.notify, h.block, h.ready, h.tasks⟩, by intro _ _ h; cases h⟩
    · intro x pr' hx
      simp only [wantBlock, AMap.get_set] at hx
      split at hx
      · rename_i hxc; cases hx; rw [hxc]; exact ho
      · exact h.wanted x pr' hx
    · intro q l hq
      simp only [wantBlock, get_mapVals] at hq
      obtain ⟨l0, h0, rfl⟩ := Option.map_eq_some_iff.mp hq
      exact (h.ledgers q l0 h0).want ho.1 ho.2
  | cancel c =>
    cases hs
    refine ⟨⟨h.wantedUniq.erase _, ?_, ?_, h.notify, h.block, h.ready, h.tasks⟩, by intro _ _ h; cases h⟩
    · intro x pr' hx
      simp only [cancelBlock, AMap.get_erase] at hx
      split at hx
      · cases hx
      · exact h.wanted x pr' hx
    · intro q l hq
      simp only [cancelBlock, get_mapVals] at hq
      obtain ⟨l0, h0, rfl⟩ := Option.map_eq_some_iff.mp hq
      exact (h.ledgers q l0 h0).cancel ho
  | established p =>
    cases hs
    refine ⟨⟨?_, ?_, ?_, ?_, ?_, ?_, h.tasks⟩, by intro _ _ h; cases h⟩ <;> simp only [established_eq]
    · exact h.wantedUniq
    · exact h.wanted
    · intro q l hq
      rw [AMap.get_set] at hq
      split at hq
      · cases hq; exact MsgOk.nothing H
      · exact h.ledgers q l hq
    · intro q m hq
      rcases List.mem_append.mp hq with hq | hq
      · exact h.notify q m hq
      · split at hq
        · cases hq
        · simp only [List.mem_singleton, Action.notify.injEq] at hq
          rw [hq.2]; exact wantAll_fine h.wantedUniq h.wanted
    · intro q b hq
      rcases List.mem_append.mp hq with hq | hq
      · exact h.block q b hq
      · split at hq <;> simp at hq
    · exact h.ready
  | closed p =>
    cases hs
    refine ⟨⟨h.wantedUniq, h.wanted, ?_, h.notify, h.block, h.ready, h.tasks⟩, by intro _ _ h; cases h⟩
    intro q l hq
    simp only [closed, AMap.get_erase] at hq
    split at hq
    · cases hq
    · exact h.ledgers q l hq
  | received p m =>
    simp only [Node.step, received_eq, Option.map_map, Option.map_eq_some_iff] at hs
    obtain ⟨l0, hl0, he⟩ := hs
    cases he
    refine ⟨⟨uniq_after_blocks _ _ h.wantedUniq, ?_, ?_, ?_, ?_, h.ready, h.tasks⟩, by intro _ _ h; cases h⟩ <;> simp only
    · intro x pr hx
      rw [wanted_after_blocks] at hx
      split at hx
      · cases hx
      · exact h.wanted x pr hx
    · intro q l hq
      rw [get_mapVals, AMap.get_set] at hq
      obtain ⟨l1, h1, rfl⟩ := Option.map_eq_some_iff.mp hq
      split at h1
      · cases h1; exact MsgOk.cancelAll (l := { l0 with received := _ }) m.blocks (h.ledgers p l0 hl0) ho
      · exact MsgOk.cancelAll m.blocks (h.ledgers q l1 h1) ho
    · intro q m' hq
      simp only [List.mem_append, List.mem_map] at hq
      rcases hq with ((hq | ⟨x, -, hx⟩) | ⟨x, -, hx⟩) | ⟨x, -, hx⟩
      · exact h.notify q m' hq
      · cases hx
      · cases hx
      · cases hx
    · intro q b hq
      simp only [List.mem_append, List.mem_map] at hq
      rcases hq with ((hq | ⟨x, -, hx⟩) | ⟨x, -, hx⟩) | ⟨x, hm, hx⟩
      · exact h.block q b hq
      · cases hx
      · cases hx
      · cases hx; exact ho _ hm
  | queue p b =>
    cases hs
    refine ⟨⟨h.wantedUniq, h.wanted, h.ledgers, h.notify, h.block, ?_, h.tasks⟩, by intro _ _ h; cases h⟩
    intro e he
    rcases List.mem_append.mp he with he | he
    · exact h.ready e he
    · simp only [List.mem_singleton] at he; rw [he]; exact ho
  | poll order =>
    obtain ⟨ha, hb, ht⟩ := pollStep hs
    have hd := drain_rest n.bs
    have hled : ∀ q l, n.bs.drain.peers.get q = some l → MsgOk H l.message := by
      intro q l hq
      rw [drain_get] at hq
      obtain ⟨l1, h1, rfl⟩ := Option.map_eq_some_iff.mp hq
      exact (h.ledgers q l1 h1).addAll (fun b hb => h.ready (q, b) (mem_readyFor.mp hb))
    rcases poll_cases n.bs order with ⟨e, es, h1, h2⟩ | ⟨h1, h2, -⟩ | ⟨h1, p, l, l', -, h3, -, -, h5, -, h2⟩
    · have hmem : ∀ x, x ∈ es → x ∈ n.bs.events := by intro x hx; rw [h1]; exact List.mem_cons_of_mem _ hx
      have hhead : e ∈ n.bs.events := by rw [h1]; exact List.mem_cons_self
      refine ⟨⟨?_, ?_, ?_, ?_, ?_, ?_, ?_⟩, ?_⟩
      · rw [hb, h2]; simp only; rw [hd.2.2.1]; exact h.wantedUniq
      · rw [hb, h2]; simp only; rw [hd.2.2.1]; exact h.wanted
      · rw [hb, h2]; exact hled
      · rw [hb, h2]; intro q m hq; exact h.notify q m (hmem _ hq)
      · rw [hb, h2]; intro q m hq; exact h.block q m (hmem _ hq)
      · rw [hb, h2]; simp only; rw [hd.2.2.2.1]; intro _ h; cases h
      · rcases ht with ⟨q, b, hq, ht⟩ | ⟨-, ht⟩
        · rw [ht]; intro x hx
          rcases List.mem_append.mp hx with hx | hx
          · exact h.tasks x hx
          · simp only [List.mem_singleton] at hx
            rw [hx]
            have : some e = some (Action.generate (Event.block q b)) := by rw [← hq, ha, h2]
            cases this
            exact h.block q b hhead
        · rw [ht]; exact h.tasks
      · intro p m hp
        have : some e = some (Action.notify p m) := by rw [← hp, ha, h2]
        cases this
        exact h.notify p m hhead
    · refine ⟨⟨?_, ?_, ?_, ?_, ?_, ?_, ?_⟩, ?_⟩
      · rw [hb, h2]; simp only; rw [hd.2.2.1]; exact h.wantedUniq
      · rw [hb, h2]; simp only; rw [hd.2.2.1]; exact h.wanted
      · rw [hb, h2]; exact hled
      · rw [hb, h2]; simp only; rw [hd.1, h1]; intro _ _ h; cases h
      · rw [hb, h2]; simp only; rw [hd.1, h1]; intro _ _ h; cases h
      · rw [hb, h2]; simp only; rw [hd.2.2.2.1]; intro _ h; cases h
      · rcases ht with ⟨q, b, hq, ht⟩ | ⟨-, ht⟩
        · rw [ha, h2] at hq; cases hq
        · rw [ht]; exact h.tasks
      · intro p m hp; rw [ha, h2] at hp; cases hp
    · refine ⟨⟨?_, ?_, ?_, ?_, ?_, ?_, ?_⟩, ?_⟩
      · rw [hb, h2]; simp only; rw [hd.2.2.1]; exact h.wantedUniq
      · rw [hb, h2]; simp only; rw [hd.2.2.1]; exact h.wanted
      · rw [hb, h2]; intro q x hq
        simp only [AMap.get_set] at hq
        split at hq
        · cases hq; rw [h5]; exact MsgOk.nothing H
        · exact hled q x hq
      · rw [hb, h2]; simp only; rw [hd.1, h1]; intro _ _ h; cases h
      · rw [hb, h2]; simp only; rw [hd.1, h1]; intro _ _ h; cases h
      · rw [hb, h2]; simp only; rw [hd.2.2.2.1]; intro _ h; cases h
      · rcases ht with ⟨q, b, hq, ht⟩ | ⟨-, ht⟩
        · rw [ha, h2] at hq; cases hq
        · rw [ht]; exact h.tasks
      · intro q m hp; rw [ha, h2] at hp; cases hp; exact hled _ _ h3
  | stored i r =>
    cases hs
    obtain ⟨h1, h2, h3, h4⟩ := storeDone_rest n i r
    refine ⟨⟨by rw [h3]; exact h.wantedUniq, by rw [h3]; exact h.wanted, by rw [h1]; exact h.ledgers, by rw [h2]; exact h.notify,
      by rw [h2]; exact h.block, by rw [h4]; exact h.ready, ?_⟩, by intro _ _ h; cases h⟩
    intro e he
    refine h.tasks e ?_
    unfold Node.storeDone at he
    split at he
    · exact he
    · exact List.mem_of_mem_eraseIdx he

/-! ### Where a want and its answer are -/

/-- The cid is on the want list. -/
def Wanting (c : Cid) (n : Bitswap.Node P) : Prop := ∃ pr, n.bs.wanted.get c = some pr

/-- There is a ledger for the peer. -/
def Linked (q : P) (n : Bitswap.Node P) : Prop := ∃ l, n.bs.peers.get q = some l

/-- The next message to the peer asks for the cid. -/
def AskNext (c : Cid) (q : P) (n : Bitswap.Node P) : Prop :=
  ∃ l pr, n.bs.peers.get q = some l ∧ l.message.want.get c = some pr

/-- A queued message to the peer asks for the cid. -/
def AskQueued (c : Cid) (q : P) (n : Bitswap.Node P) : Prop :=
  ∃ m pr, .notify q m ∈ n.bs.events ∧ m.want.get c = some pr

/-- A want of the peer is queued. -/
def Asked (c : Cid) (q : P) (n : Bitswap.Node P) : Prop := ∃ pr, .generate (.want q c pr) ∈ n.bs.events

/-- The block is there to be put into the next message. -/
def ReplyReady (c : Cid) (q : P) (n : Bitswap.Node P) : Prop := ∃ b, (q, b) ∈ n.bs.ready ∧ b.cid = c

/-- The next message to the peer has the block. -/
def ReplyNext (c : Cid) (q : P) (n : Bitswap.Node P) : Prop :=
  ∃ l b, n.bs.peers.get q = some l ∧ b ∈ l.message.blocks ∧ b.cid = c

/-- The block has come and is about to be stored. -/
def Came (c : Cid) (n : Bitswap.Node P) : Prop :=
  (∃ p b, .generate (.block p b) ∈ n.bs.events ∧ b.cid = c) ∨ ∃ e ∈ n.tasks, e.2.cid = c

/-- A message to the peer that asks for the cid is handed out. -/
def SendsAsk (c : Cid) (q : P) (a : Option (Action P)) : Prop := ∃ m pr, a = some (.notify q m) ∧ m.want.get c = some pr

/-- A message to the peer with the block is handed out. -/
def SendsReply (c : Cid) (q : P) (a : Option (Action P)) : Prop :=
  ∃ m b, a = some (.notify q m) ∧ b ∈ m.blocks ∧ b.cid = c

/-- The operation leaves the ledger of the peer in place. -/
def Keeps (q : P) (n : Bitswap.Node P) (op : Bitswap.Op P) : Prop :=
  op ≠ .closed q ∧ (op = .established q → ¬ Linked q n)

theorem addAll_want (bs : List Block) (l : Ledger) : (addAll bs l).message.want = l.message.want := by rw [addAll_eq]

theorem addAll_blocks (bs : List Block) (l : Ledger) : (addAll bs l).message.blocks = l.message.blocks ++ bs := by rw [addAll_eq]

theorem cancelAll_keeps (bs : List Block) : ∀ l : Ledger, (cancelAll bs l).message.blocks = l.message.blocks := by
  induction bs with
  | nil => intro l; rfl
  | cons b bs ih => intro l; exact (ih (l.cancelBlock b.cid)).trans rfl

/-- The ledgers of a peer before and after. -/
theorem ledger_step {n n' : Bitswap.Node P} {a : Option (Action P)} {op : Bitswap.Op P} {q : P} {l : Ledger}
    (hs : n.step op = some (a, n')) (hk : Keeps q n op) (hl : n.bs.peers.get q = some l) :
    ∃ l', n'.bs.peers.get q = some l' ∧
      ((∃ m, a = some (.notify q m) ∧ m.want = l.message.want ∧ m.blocks = l.message.blocks ++ readyFor q n.bs.ready) ∨
        (∀ x pr, l.message.want.get x = some pr → ∃ pr', l'.message.want.get x = some pr') ∧
        ((∀ order, op ≠ .poll order) ∧ l'.message.blocks = l.message.blocks ∨
          l'.message.blocks = l.message.blocks ++ readyFor q n.bs.ready)) := by
  cases op with
  | connect p =>
    cases hs
    refine ⟨l, by simp only [connect]; split <;> exact hl, Or.inr ⟨fun x pr h => ⟨pr, h⟩, Or.inl ⟨by simp, rfl⟩⟩⟩
  | want c pr =>
    cases hs
    refine ⟨l.wantBlock c pr, by simp only [wantBlock, get_mapVals, hl, Option.map_some], Or.inr ⟨?_, Or.inl ⟨by simp, rfl⟩⟩⟩
    intro x pr' hx
    simp only [Ledger.wantBlock, Message.wantBlock, AMap.get_set]
    split
    · exact ⟨_, rfl⟩
    · exact ⟨_, hx⟩
  | cancel c =>
    cases hs
    exact ⟨l.cancelBlock c, by simp only [cancelBlock, get_mapVals, hl, Option.map_some], Or.inr ⟨fun x pr h => ⟨pr, h⟩, Or.inl ⟨by simp, rfl⟩⟩⟩
  | established p =>
    cases hs
    have hne : q ≠ p := by rintro rfl; exact hk.2 rfl ⟨l, hl⟩
    refine ⟨l, ?_, Or.inr ⟨fun x pr h => ⟨pr, h⟩, Or.inl ⟨by simp, rfl⟩⟩⟩
    simp only [established_eq, AMap.get_set, if_neg hne, hl]
  | closed p =>
    cases hs
    have hne : q ≠ p := by rintro rfl; exact hk.1 rfl
    refine ⟨l, ?_, Or.inr ⟨fun x pr h => ⟨pr, h⟩, Or.inl ⟨by simp, rfl⟩⟩⟩
    simp only [closed, AMap.get_erase, if_neg hne, hl]
  | received p m =>
    simp only [Node.step, received_eq, Option.map_map, Option.map_eq_some_iff] at hs
    obtain ⟨l0, hl0, he⟩ := hs
    cases he
    simp only [get_mapVals, AMap.get_set]
    by_cases hqp : q = p
    · subst hqp
      rw [hl] at hl0; cases hl0
      refine ⟨_, by rw [if_pos rfl]; rfl, Or.inr ⟨?_, Or.inl ⟨by simp, ?_⟩⟩⟩
      · intro x pr hx
        rw [(cancelAll_message m.blocks _).1]; exact ⟨pr, hx⟩
      · rw [cancelAll_keeps]
    · refine ⟨_, by rw [if_neg hqp, hl]; rfl, Or.inr ⟨?_, Or.inl ⟨by simp, ?_⟩⟩⟩
      · intro x pr hx
        rw [(cancelAll_message m.blocks _).1]; exact ⟨pr, hx⟩
      · rw [cancelAll_keeps]
  | queue p b =>
    cases hs
    exact ⟨l, hl, Or.inr ⟨fun x pr h => ⟨pr, h⟩, Or.inl ⟨by simp, rfl⟩⟩⟩
  | poll order =>
    obtain ⟨ha, hb, -⟩ := pollStep hs
    have hdl : n.bs.drain.peers.get q = some (addAll (readyFor q n.bs.ready) l) := by rw [drain_get, hl]; rfl
    rcases poll_cases n.bs order with ⟨e, es, h1, h2⟩ | ⟨h1, h2, -⟩ | ⟨h1, p, l0, l', -, h3, -, -, h5, -, h2⟩
    · refine ⟨_, by rw [hb, h2]; exact hdl, Or.inr ⟨?_, Or.inr (addAll_blocks _ _)⟩⟩
      intro x pr hx; rw [addAll_want]; exact ⟨pr, hx⟩
    · refine ⟨_, by rw [hb, h2]; exact hdl, Or.inr ⟨?_, Or.inr (addAll_blocks _ _)⟩⟩
      intro x pr hx; rw [addAll_want]; exact ⟨pr, hx⟩
    · by_cases hqp : q = p
      · subst hqp
        rw [hdl] at h3; cases h3
        refine ⟨l', by rw [hb, h2]; simp only [AMap.get_set, if_true], Or.inl ⟨_, by rw [ha, h2], addAll_want _ _, addAll_blocks _ _⟩⟩
      · refine ⟨_, by rw [hb, h2]; simp only [AMap.get_set, if_neg hqp]; exact hdl, Or.inr ⟨?_, Or.inr (addAll_blocks _ _)⟩⟩
        intro x pr hx; rw [addAll_want]; exact ⟨pr, hx⟩
  | stored i r =>
    cases hs
    exact ⟨l, by rw [(storeDone_rest n i r).1]; exact hl, Or.inr ⟨fun x pr h => ⟨pr, h⟩, Or.inl ⟨by simp, rfl⟩⟩⟩

theorem linked_step {n n' : Bitswap.Node P} {a : Option (Action P)} {op : Bitswap.Op P} {q : P}
    (hs : n.step op = some (a, n')) (hk : Keeps q n op) (hl : Linked q n) : Linked q n' := by
  obtain ⟨l, hl⟩ := hl
  obtain ⟨l', h, -⟩ := ledger_step hs hk hl
  exact ⟨l', h⟩

theorem askNext_step {n n' : Bitswap.Node P} {a : Option (Action P)} {op : Bitswap.Op P} {q : P} {c : Cid}
    (hs : n.step op = some (a, n')) (hk : Keeps q n op) (h : AskNext c q n) : AskNext c q n' ∨ SendsAsk c q a := by
  obtain ⟨l, pr, hl, hw⟩ := h
  obtain ⟨l', h1, h2⟩ := ledger_step hs hk hl
  rcases h2 with ⟨m, hm, h3, -⟩ | ⟨h3, -⟩
  · exact Or.inr ⟨m, pr, hm, by rw [h3]; exact hw⟩
  · obtain ⟨pr', hp⟩ := h3 c pr hw
    exact Or.inl ⟨l', pr', h1, hp⟩

theorem replyNext_step {n n' : Bitswap.Node P} {a : Option (Action P)} {op : Bitswap.Op P} {q : P} {c : Cid}
    (hs : n.step op = some (a, n')) (hk : Keeps q n op) (h : ReplyNext c q n) : ReplyNext c q n' ∨ SendsReply c q a := by
  obtain ⟨l, b, hl, hb, hc⟩ := h
  obtain ⟨l', h1, h2⟩ := ledger_step hs hk hl
  rcases h2 with ⟨m, hm, -, h3⟩ | ⟨-, ⟨-, h3⟩ | h3⟩
  · exact Or.inr ⟨m, b, hm, by rw [h3]; exact List.mem_append_left _ hb, hc⟩
  · exact Or.inl ⟨l', b, h1, by rw [h3]; exact hb, hc⟩
  · exact Or.inl ⟨l', b, h1, by rw [h3]; exact List.mem_append_left _ hb, hc⟩

theorem replyReady_step {n n' : Bitswap.Node P} {a : Option (Action P)} {op : Bitswap.Op P} {q : P} {c : Cid}
    (hs : n.step op = some (a, n')) (hk : Keeps q n op) (hl : Linked q n) (h : ReplyReady c q n) :
    ReplyReady c q n' ∨ ReplyNext c q n' ∨ SendsReply c q a := by
  obtain ⟨b, hb, hc⟩ := h
  obtain ⟨l, hl⟩ := hl
  obtain ⟨l', h1, h2⟩ := ledger_step hs hk hl
  rcases h2 with ⟨m, hm, -, h3⟩ | ⟨-, ⟨hop, -⟩ | h3⟩
  · exact Or.inr (Or.inr ⟨m, b, hm, by rw [h3]; exact List.mem_append_right _ (mem_readyFor.mpr hb), hc⟩)
  · left
    refine ⟨b, ?_, hc⟩
    cases op with
    | connect p => cases hs; simp only [connect]; split <;> exact hb
    | want x pr => cases hs; exact hb
    | cancel x => cases hs; exact hb
    | established p => cases hs; simp only [established_eq]; exact hb
    | closed p => cases hs; exact hb
    | received p m =>
      simp only [Node.step, received_eq, Option.map_map, Option.map_eq_some_iff] at hs
      obtain ⟨l0, hl0, he⟩ := hs
      cases he; exact hb
    | queue p x => cases hs; exact List.mem_append_left _ hb
    | poll order => exact absurd rfl (hop order)
    | stored i r => cases hs; rw [(storeDone_rest n i r).2.2.2]; exact hb
  · exact Or.inr (Or.inl ⟨l', b, h1, by rw [h3]; exact List.mem_append_right _ (mem_readyFor.mpr hb), hc⟩)

/-- A queued event stays queued or is handed out. -/
theorem event_step {n n' : Bitswap.Node P} {a : Option (Action P)} {op : Bitswap.Op P} {e : Action P}
    (hs : n.step op = some (a, n')) (he : e ∈ n.bs.events) : e ∈ n'.bs.events ∨ a = some e ∧ ∃ order, op = .poll order := by
  cases op with
  | connect p => cases hs; left; simp only [connect]; split; exact he; exact List.mem_append_left _ he
  | want x pr => cases hs; exact Or.inl he
  | cancel x => cases hs; exact Or.inl he
  | established p => cases hs; left; simp only [established_eq]; exact List.mem_append_left _ he
  | closed p => cases hs; exact Or.inl he
  | received p m =>
    simp only [Node.step, received_eq, Option.map_map, Option.map_eq_some_iff] at hs
    obtain ⟨l0, hl0, h⟩ := hs
    cases h
    exact Or.inl (List.mem_append_left _ (List.mem_append_left _ (List.mem_append_left _ he)))
  | queue p x => cases hs; exact Or.inl he
  | poll order =>
    obtain ⟨ha, hb, -⟩ := pollStep hs
    have hd := drain_rest n.bs
    rcases poll_cases n.bs order with ⟨e', es, h1, h2⟩ | ⟨h1, h2, -⟩ | ⟨h1, p, l0, l', -, h3, -, -, h5, -, h2⟩
    · rw [h1] at he
      rcases List.mem_cons.mp he with rfl | he
      · right; exact ⟨by rw [ha, h2], order, rfl⟩
      · left; rw [hb, h2]; exact he
    · rw [h1] at he; cases he
    · rw [h1] at he; cases he
  | stored i r => cases hs; left; rw [(storeDone_rest n i r).2.1]; exact he

theorem askQueued_step {n n' : Bitswap.Node P} {a : Option (Action P)} {op : Bitswap.Op P} {q : P} {c : Cid}
    (hs : n.step op = some (a, n')) (h : AskQueued c q n) : AskQueued c q n' ∨ SendsAsk c q a := by
  obtain ⟨m, pr, hm, hw⟩ := h
  rcases event_step hs hm with h | ⟨h, -⟩
  · exact Or.inl ⟨m, pr, h, hw⟩
  · exact Or.inr ⟨m, pr, h, hw⟩

theorem asked_step {n n' : Bitswap.Node P} {a : Option (Action P)} {op : Bitswap.Op P} {q : P} {c : Cid}
    (hs : n.step op = some (a, n')) (h : Asked c q n) :
    Asked c q n' ∨ ∃ pr, a = some (.generate (.want q c pr)) ∧ ∃ order, op = .poll order := by
  obtain ⟨pr, hm⟩ := h
  rcases event_step hs hm with h | ⟨h, ho⟩
  · exact Or.inl ⟨pr, h⟩
  · exact Or.inr ⟨pr, h, ho⟩

/-- A want of a message that comes in is queued, unless it is wanted here too. -/
theorem asked_received {n n' : Bitswap.Node P} {a : Option (Action P)} {q : P} {m : Message} {c : Cid} {pr : Int}
    (hs : n.step (.received q m) = some (a, n')) (hm : m.want.get c = some pr) (hw : ¬ Wanting c n) : Asked c q n' := by
  simp only [Node.step, received_eq, Option.map_map, Option.map_eq_some_iff] at hs
  obtain ⟨l0, hl0, h⟩ := hs
  cases h
  refine ⟨pr, List.mem_append_left _ (List.mem_append_right _ (List.mem_map.mpr ⟨(c, pr), ?_, rfl⟩))⟩
  apply AMap.mem_of_get
  rw [freshWants_get, if_neg, hm]
  intro hk
  obtain ⟨v, hv⟩ := Option.isSome_iff_exists.mp ((AMap.mem_keys_iff _ _).mp hk)
  exact hw ⟨v, hv⟩

theorem linked_received {n n' : Bitswap.Node P} {a : Option (Action P)} {q : P} {m : Message}
    (hs : n.step (.received q m) = some (a, n')) : Linked q n := by
  simp only [Node.step, received_eq, Option.map_map, Option.map_eq_some_iff] at hs
  obtain ⟨l0, hl0, h⟩ := hs
  exact ⟨l0, hl0⟩

theorem came_received {n n' : Bitswap.Node P} {a : Option (Action P)} {q : P} {m : Message} {b : Block}
    (hs : n.step (.received q m) = some (a, n')) (hb : b ∈ m.blocks) : Came b.cid n' ∧ ¬ Wanting b.cid n' := by
  simp only [Node.step, received_eq, Option.map_map, Option.map_eq_some_iff] at hs
  obtain ⟨l0, hl0, h⟩ := hs
  cases h
  refine ⟨Or.inl ⟨q, b, List.mem_append_right _ (List.mem_map.mpr ⟨b, hb, rfl⟩), rfl⟩, ?_⟩
  rintro ⟨pr, hp⟩
  simp only [wanted_after_blocks] at hp
  rw [if_pos (List.mem_map.mpr ⟨b, hb, rfl⟩)] at hp
  cases hp

theorem came_step {n n' : Bitswap.Node P} {a : Option (Action P)} {op : Bitswap.Op P} {c : Cid}
    (hs : n.step op = some (a, n')) (h : Came c n) : Came c n' ∨ ∃ k r e, op = .stored k r ∧ n.tasks[k]? = some e ∧ e.2.cid = c := by
  rcases h with ⟨p, b, hb, hc⟩ | ⟨e, he, hc⟩
  · rcases event_step hs hb with h | ⟨h, order, rfl⟩
    · exact Or.inl (Or.inl ⟨p, b, h, hc⟩)
    · obtain ⟨ha, hb, ht⟩ := pollStep hs
      rcases ht with ⟨p', b', h', ht⟩ | ⟨h', -⟩
      · rw [h] at h'; cases h'
        left; right
        exact ⟨(p, b), by rw [ht]; exact List.mem_append_right _ (List.mem_singleton.mpr rfl), hc⟩
      · exact absurd h (h' p b)
  · cases op with
    | connect p => cases hs; exact Or.inl (Or.inr ⟨e, he, hc⟩)
    | want x pr => cases hs; exact Or.inl (Or.inr ⟨e, he, hc⟩)
    | cancel x => cases hs; exact Or.inl (Or.inr ⟨e, he, hc⟩)
    | established p => cases hs; exact Or.inl (Or.inr ⟨e, he, hc⟩)
    | closed p => cases hs; exact Or.inl (Or.inr ⟨e, he, hc⟩)
    | received p m =>
      simp only [Node.step, received_eq, Option.map_map, Option.map_eq_some_iff] at hs
      obtain ⟨l0, hl0, h⟩ := hs
      cases h
      exact Or.inl (Or.inr ⟨e, he, hc⟩)
    | queue p x => cases hs; exact Or.inl (Or.inr ⟨e, he, hc⟩)
    | poll order =>
      obtain ⟨ha, hb, ht⟩ := pollStep hs
      rcases ht with ⟨p', b', h', ht⟩ | ⟨h', ht⟩
      · exact Or.inl (Or.inr ⟨e, by rw [ht]; exact List.mem_append_left _ he, hc⟩)
      · exact Or.inl (Or.inr ⟨e, by rw [ht]; exact he, hc⟩)
    | stored i r =>
      cases hs
      cases hg : n.tasks[i]? with
      | none => left; right; exact ⟨e, by simp only [Node.storeDone, hg]; exact he, hc⟩
      | some x =>
        obtain ⟨j, hj, hje⟩ := List.mem_iff_getElem.mp he
        by_cases hij : j = i
        · subst hij
          right
          refine ⟨j, r, e, rfl, ?_, hc⟩
          rw [List.getElem?_eq_getElem hj, hje]
        · left; right
          refine ⟨e, ?_, hc⟩
          obtain ⟨p, b⟩ := x
          simp only [Node.storeDone, hg]
          exact List.mem_eraseIdx_iff_getElem.mpr ⟨j, hj, hij, hje⟩

theorem wanting_step {n n' : Bitswap.Node P} {a : Option (Action P)} {op : Bitswap.Op P} {c : Cid}
    (hs : n.step op = some (a, n')) (h : Wanting c n) : Wanting c n' ∨ op = .cancel c ∨ Came c n' := by
  obtain ⟨pr, h⟩ := h
  cases op with
  | connect p => cases hs; left; exact ⟨pr, by simp only [connect]; split <;> exact h⟩
  | want x pr' =>
    cases hs; left
    simp only [Wanting, wantBlock, AMap.get_set]
    split
    · exact ⟨_, rfl⟩
    · exact ⟨pr, h⟩
  | cancel x =>
    by_cases hx : c = x
    · subst hx; exact Or.inr (Or.inl rfl)
    · cases hs; left; exact ⟨pr, by simp only [cancelBlock, AMap.get_erase, if_neg hx]; exact h⟩
  | established p => cases hs; left; exact ⟨pr, by simp only [established_eq]; exact h⟩
  | closed p => cases hs; left; exact ⟨pr, h⟩
  | received p m =>
    by_cases hb : c ∈ m.blocks.map Block.cid
    · obtain ⟨b, hm, rfl⟩ := List.mem_map.mp hb
      exact Or.inr (Or.inr (came_received hs hm).1)
    · simp only [Node.step, received_eq, Option.map_map, Option.map_eq_some_iff] at hs
      obtain ⟨l0, hl0, he⟩ := hs
      cases he
      left; exact ⟨pr, by simp only [wanted_after_blocks, if_neg hb]; exact h⟩
  | queue p x => cases hs; left; exact ⟨pr, h⟩
  | poll order =>
    obtain ⟨ha, hb, -⟩ := pollStep hs
    have hd := drain_rest n.bs
    left
    refine ⟨pr, ?_⟩
    rcases poll_cases n.bs order with ⟨e', es, h1, h2⟩ | ⟨h1, h2, -⟩ | ⟨h1, p, l0, l', -, h3, -, -, h5, -, h2⟩ <;>
      (rw [hb, h2]; simp only; rw [hd.2.2.1]; exact h)
  | stored i r => cases hs; left; exact ⟨pr, by rw [(storeDone_rest n i r).2.2.1]; exact h⟩

/-- What is on the want list now was there before, or was just put there. -/
theorem wanting_back {n n' : Bitswap.Node P} {a : Option (Action P)} {op : Bitswap.Op P} {c : Cid}
    (hs : n.step op = some (a, n')) (h : Wanting c n') : Wanting c n ∨ ∃ pr, op = .want c pr := by
  obtain ⟨pr, h⟩ := h
  cases op with
  | connect p => cases hs; left; simp only [connect] at h; split at h <;> exact ⟨pr, h⟩
  | want x pr' =>
    cases hs
    simp only [wantBlock, AMap.get_set] at h
    split at h
    · rename_i hx; subst hx; exact Or.inr ⟨_, rfl⟩
    · exact Or.inl ⟨pr, h⟩
  | cancel x =>
    cases hs
    simp only [cancelBlock, AMap.get_erase] at h
    split at h
    · cases h
    · exact Or.inl ⟨pr, h⟩
  | established p => cases hs; left; exact ⟨pr, by simp only [established_eq] at h; exact h⟩
  | closed p => cases hs; left; exact ⟨pr, h⟩
  | received p m =>
    simp only [Node.step, received_eq, Option.map_map, Option.map_eq_some_iff] at hs
    obtain ⟨l0, hl0, he⟩ := hs
    cases he
    simp only [wanted_after_blocks] at h
    split at h
    · cases h
    · exact Or.inl ⟨pr, h⟩
  | queue p x => cases hs; left; exact ⟨pr, h⟩
  | poll order =>
    obtain ⟨ha, hb, -⟩ := pollStep hs
    have hd := drain_rest n.bs
    left
    refine ⟨pr, ?_⟩
    rcases poll_cases n.bs order with ⟨e', es, h1, h2⟩ | ⟨h1, h2, -⟩ | ⟨h1, p, l0, l', -, h3, -, -, h5, -, h2⟩ <;>
      (rw [hb, h2] at h; simp only at h; rw [hd.2.2.1] at h; exact h)
  | stored i r => cases hs; left; rw [(storeDone_rest n i r).2.2.1] at h; exact ⟨pr, h⟩

/-- A ledger that is there now was there before, or the peer just connected. -/
theorem linked_back {n n' : Bitswap.Node P} {a : Option (Action P)} {op : Bitswap.Op P} {q : P}
    (hs : n.step op = some (a, n')) (h : Linked q n') : Linked q n ∨ op = .established q := by
  obtain ⟨l, h⟩ := h
  have hs' := step_peers hs q
  by_cases he : op = .established q
  · exact Or.inr he
  · left
    cases hg : n.bs.peers.get q with
    | some l0 => exact ⟨l0, hg⟩
    | none =>
      exfalso
      have hn : n.bs.peerWantlist q = none := by rw [peerWantlist, hg]; rfl
      have hn' : n'.bs.peerWantlist q = some l.received := by rw [peerWantlist, h]; rfl
      by_cases hab : About q op
      · cases op with
        | established p => exact he (by rw [show p = q from hab])
        | closed p =>
          have := hs'.2.1 (by rw [show p = q from hab])
          rw [hn'] at this; cases this
        | received p m =>
          obtain ⟨l0, h0, -⟩ := hs'.2.2.1 m (by rw [show p = q from hab])
          rw [hg] at h0; cases h0
        | _ => exact hab
      · have := hs'.2.2.2 hab
        rw [hn, hn'] at this; cases this

/-- Whoever begins to be wanted, or begins to be connected, leads to a message that asks. -/
theorem begins_asking {n n' : Bitswap.Node P} {a : Option (Action P)} {op : Bitswap.Op P} {q : P} {c : Cid}
    (hs : n.step op = some (a, n')) (hu : AMap.Uniq n.bs.wanted) (hw : Wanting c n') (hl : Linked q n') :
    (Wanting c n ∧ Linked q n) ∨ AskNext c q n' ∨ AskQueued c q n' := by
  rcases linked_back hs hl with hl0 | rfl
  · rcases wanting_back hs hw with hw0 | ⟨pr, rfl⟩
    · exact Or.inl ⟨hw0, hl0⟩
    · right; left
      obtain ⟨l, hl0⟩ := hl0
      cases hs
      refine ⟨l.wantBlock c pr, pr, by simp only [wantBlock, get_mapVals, hl0, Option.map_some], ?_⟩
      simp only [Ledger.wantBlock, Message.wantBlock, AMap.get_set, if_true]
  · right; right
    rcases wanting_back hs hw with ⟨pr, hw0⟩ | ⟨pr, h⟩
    · cases hs
      refine ⟨wantAll n.bs.wanted, pr, ?_, by rw [wantAll_get _ hu]; exact hw0⟩
      simp only [established_eq]
      refine List.mem_append_right _ ?_
      rw [if_neg]
      · exact List.mem_singleton.mpr rfl
      · intro he
        rw [List.isEmpty_iff] at he
        rw [he] at hw0; cases hw0
    · cases h

end Verif.Props
