import Verif.Props.ExchangeSafe

/-!
# C73: the nodes come to rest
-/

namespace Verif.Props

open Verif Verif.Repo Verif.Repo.Subs Verif.Bitswap Verif.Net
open Verif.Bitswap.Bitswap

variable {P : Type} [DecidableEq P]

/-! ### Sums over maps -/

def sumW {κ ν : Type} (w : ν → Nat) (m : AMap κ ν) : Nat := (m.map (fun e => w e.2)).sum

theorem sumW_set {κ ν : Type} [DecidableEq κ] (w : ν → Nat) {m : AMap κ ν} {k : κ} {v : ν} (v' : ν) (h : m.get k = some v) :
    sumW w (m.set k v') + w v = sumW w m + w v' ∧ (m.set k v').length = m.length := by
  induction m with
  | nil => cases h
  | cons e m ih =>
    obtain ⟨k1, v1⟩ := e
    simp only [AMap.get] at h
    simp only [AMap.set]
    split at h
    · rename_i hk
      cases h
      rw [if_pos hk]
      simp only [sumW, List.map_cons, List.sum_cons, List.length_cons, and_true]
      omega
    · rename_i hk
      rw [if_neg hk]
      obtain ⟨h1, h2⟩ := ih h
      simp only [sumW, List.map_cons, List.sum_cons, List.length_cons] at h1 ⊢
      omega

theorem sumW_mapVals {κ ν : Type} (w : ν → Nat) (f : ν → ν) (d : Nat) (hf : ∀ v, w (f v) ≤ w v + d) (m : AMap κ ν) :
    sumW w (mapVals f m) ≤ sumW w m + m.length * d ∧ (mapVals f m).length = m.length := by
  induction m with
  | nil => exact ⟨by simp [sumW, mapVals], rfl⟩
  | cons e m ih =>
    have := hf e.2
    simp only [sumW, mapVals, List.map_cons, List.sum_cons, List.length_cons, Nat.add_mul, Nat.one_mul] at ih ⊢
    omega

/-! ### What is left to do, counted -/

/-- A block in a message. -/
def kBlock (d : Nat) : Nat := 6 * d + 3

/-- A want in a message. -/
def kWant (d : Nat) : Nat := kBlock d + 5

/-- What is in a message. -/
def content (d : Nat) (m : Message) : Nat := m.cancel.length + kWant d * m.want.length + kBlock d * m.blocks.length

/-- A message that has not been sent. -/
def msgW (d : Nat) (m : Message) : Nat := if m.isEmpty then 0 else 2 + content d m

theorem content_le_msgW (d : Nat) (m : Message) : content d m ≤ msgW d m := by
  unfold msgW
  split
  · rename_i h
    simp only [Message.isEmpty, Bool.and_eq_true, List.isEmpty_iff] at h
    simp [content, h.1.1, h.1.2, h.2]
  · omega

theorem msgW_le (d : Nat) (m : Message) : msgW d m ≤ 2 + content d m := by unfold msgW; split <;> omega

theorem set_length_le {κ ν : Type} [DecidableEq κ] (m : AMap κ ν) (k : κ) (v : ν) : (m.set k v).length ≤ m.length + 1 := by
  induction m with
  | nil => exact Nat.le_refl _
  | cons e m ih =>
    obtain ⟨k1, v1⟩ := e
    simp only [AMap.set]
    split <;> simp only [List.length_cons] <;> omega

theorem msgW_want (d : Nat) (l : Ledger) (c : Cid) (pr : Int) : msgW d (l.wantBlock c pr).message ≤ msgW d l.message + (2 + kWant d) := by
  have h1 := msgW_le d (l.wantBlock c pr).message
  have h2 := content_le_msgW d l.message
  have h3 : content d (l.wantBlock c pr).message ≤ content d l.message + kWant d := by
    have := Nat.mul_le_mul_left (kWant d) (set_length_le l.message.want c pr)
    simp only [Nat.mul_add, Nat.mul_one] at this
    simp only [content, Ledger.wantBlock, Message.wantBlock]
    omega
  omega

theorem msgW_cancel (d : Nat) (l : Ledger) (c : Cid) : msgW d (l.cancelBlock c).message ≤ msgW d l.message + 3 := by
  have h1 := msgW_le d (l.cancelBlock c).message
  have h2 := content_le_msgW d l.message
  have h3 : content d (l.cancelBlock c).message ≤ content d l.message + 1 := by
    simp only [content, Ledger.cancelBlock, Message.cancelBlock]
    split
    · omega
    · simp only [List.length_append, List.length_singleton]; omega
  omega

theorem msgW_add (d : Nat) (l : Ledger) (b : Block) : msgW d (l.addBlock b).message ≤ msgW d l.message + (2 + kBlock d) := by
  have h1 := msgW_le d (l.addBlock b).message
  have h2 := content_le_msgW d l.message
  have h3 : content d (l.addBlock b).message ≤ content d l.message + kBlock d := by
    simp only [content, Ledger.addBlock, Message.addBlock, List.length_append, List.length_singleton, Nat.mul_add, Nat.mul_one]
    omega
  omega

theorem msgW_cancelAll (d : Nat) (bs : List Block) : ∀ l : Ledger, msgW d (cancelAll bs l).message ≤ msgW d l.message + 3 * bs.length := by
  induction bs with
  | nil => intro l; exact Nat.le_refl _
  | cons b bs ih =>
    intro l
    have h1 := ih (l.cancelBlock b.cid)
    have h2 := msgW_cancel d l b.cid
    have h3 : cancelAll (b :: bs) l = cancelAll bs (l.cancelBlock b.cid) := rfl
    rw [h3, List.length_cons]; omega

/-- An event of the behaviour. -/
def actW (d : Nat) : Action P → Nat
  | .dial _ => 1
  | .notify _ m => 2 + content d m
  | .generate (.cancel _ _) => 1
  | .generate (.want _ _ _) => kWant d
  | .generate (.block _ _) => 3 * d + 3

/-- What the behaviour has left to do. -/
def bitsW (d : Nat) (n : Bitswap.Node P) : Nat :=
  (3 * d + 2) * n.tasks.length + (n.bs.events.map (actW d)).sum + (kBlock d + 3) * n.bs.ready.length +
    sumW (fun l => msgW d l.message) n.bs.peers

/-- What was handed to the swarm leaves to do. -/
def outW (d : Nat) : Option (Action P) → Nat
  | some (.notify _ m) => 1 + content d m
  | some (.generate (.want _ _ _)) => kBlock d + 4
  | _ => 0

theorem bitsW_want (d : Nat) {n n' : Bitswap.Node P} {a : Option (Action P)} {c : Cid} {pr : Int}
    (h : n.step (.want c pr) = some (a, n')) (hd : n.bs.peers.length ≤ d) :
    bitsW d n' ≤ bitsW d n + d * (2 + kWant d) ∧ n'.bs.peers.length = n.bs.peers.length := by
  cases h
  obtain ⟨h1, h2⟩ := sumW_mapVals (fun l : Ledger => msgW d l.message) (fun l => l.wantBlock c pr) (2 + kWant d)
    (fun l => msgW_want d l c pr) n.bs.peers
  have h3 := Nat.mul_le_mul_right (2 + kWant d) hd
  simp only [bitsW, wantBlock]
  exact ⟨by omega, h2⟩

theorem bitsW_cancel (d : Nat) {n n' : Bitswap.Node P} {a : Option (Action P)} {c : Cid}
    (h : n.step (.cancel c) = some (a, n')) (hd : n.bs.peers.length ≤ d) :
    bitsW d n' ≤ bitsW d n + 3 * d ∧ n'.bs.peers.length = n.bs.peers.length := by
  cases h
  obtain ⟨h1, h2⟩ := sumW_mapVals (fun l : Ledger => msgW d l.message) (fun l => l.cancelBlock c) 3
    (fun l => msgW_cancel d l c) n.bs.peers
  simp only [bitsW, cancelBlock]
  exact ⟨by omega, h2⟩

theorem sum_const {α : Type} (l : List α) (f : α → Nat) (k : Nat) (h : ∀ x ∈ l, f x = k) : (l.map f).sum = k * l.length := by
  induction l with
  | nil => rfl
  | cons x l ih =>
    rw [List.map_cons, List.sum_cons, h x List.mem_cons_self, ih (fun y hy => h y (List.mem_cons_of_mem _ hy)), List.length_cons,
      Nat.mul_succ]
    omega

theorem bitsW_received (d : Nat) {n n' : Bitswap.Node P} {a : Option (Action P)} {p : P} {m : Message}
    (h : n.step (.received p m) = some (a, n')) (hd : n.bs.peers.length ≤ d) :
    bitsW d n' ≤ bitsW d n + content d m ∧ n'.bs.peers.length = n.bs.peers.length := by
  simp only [Node.step, received_eq, Option.map_map, Option.map_eq_some_iff] at h
  obtain ⟨l0, hl0, he⟩ := h
  cases he
  dsimp only [Function.comp]
  generalize hl1 : (List.foldl (fun r e => r.set e.1 e.2) (m.cancel.foldl (fun r c => r.erase c) l0.received) (n.bs.freshWants m)) = r
  obtain ⟨h1, h2⟩ := sumW_set (fun l : Ledger => msgW d l.message) { l0 with received := r } hl0
  obtain ⟨h3, h4⟩ := sumW_mapVals (fun l : Ledger => msgW d l.message) (cancelAll m.blocks) (3 * m.blocks.length)
    (fun l => msgW_cancelAll d m.blocks l) (n.bs.peers.set p { l0 with received := r })
  have h5 : (n.bs.freshWants m).length ≤ m.want.length := List.length_filter_le _ _
  have h6 := Nat.mul_le_mul_left (kWant d) h5
  have h7 := Nat.mul_le_mul_right (3 * m.blocks.length) hd
  have h8 : kBlock d * m.blocks.length = (3 * d + 3) * m.blocks.length + d * (3 * m.blocks.length) := by
    simp only [kBlock]
    have : d * (3 * m.blocks.length) = 3 * d * m.blocks.length := by rw [← Nat.mul_assoc, Nat.mul_comm d 3]
    rw [this, ← Nat.add_mul]
    congr 1; omega
  have e1 := sum_const m.cancel (actW (P := P) d ∘ fun c => Action.generate (.cancel p c)) 1 (fun _ _ => rfl)
  have e2 := sum_const (n.bs.freshWants m) (actW (P := P) d ∘ fun e => Action.generate (.want p e.1 e.2)) (kWant d) (fun _ _ => rfl)
  have e3 := sum_const m.blocks (actW (P := P) d ∘ fun b => Action.generate (.block p b)) (3 * d + 3) (fun _ _ => rfl)
  rw [h2] at h3 h4
  dsimp only at h1
  refine ⟨?_, h4⟩
  simp only [bitsW, content, List.map_append, List.sum_append, List.map_map, e1, e2, e3]
  omega

theorem bitsW_queue (d : Nat) {n n' : Bitswap.Node P} {a : Option (Action P)} {p : P} {b : Block}
    (h : n.step (.queue p b) = some (a, n')) : bitsW d n' = bitsW d n + (kBlock d + 3) ∧ n'.bs.peers.length = n.bs.peers.length := by
  cases h
  refine ⟨?_, rfl⟩
  simp only [bitsW, List.length_append, List.length_singleton, Nat.mul_add, Nat.mul_one]
  omega

theorem bitsW_stored (d : Nat) {n n' : Bitswap.Node P} {a : Option (Action P)} {k : Nat} {e : P × Block} {r : Option BlockPut}
    (h : n.step (.stored k r) = some (a, n')) (hk : n.tasks[k]? = some e) :
    bitsW d n' + (3 * d + 2) = bitsW d n ∧ n'.bs.peers.length = n.bs.peers.length := by
  cases h
  obtain ⟨h1, h2, h3, h4⟩ := storeDone_rest n k r
  have h5 : (n.storeDone k r).tasks = n.tasks.eraseIdx k := by
    obtain ⟨p, b⟩ := e
    simp only [Node.storeDone, hk]
  have h6 : k < n.tasks.length := (List.getElem?_eq_some_iff.mp hk).1
  refine ⟨?_, by rw [h1]⟩
  simp only [bitsW, h1, h2, h4, h5, List.length_eraseIdx_of_lt h6]
  obtain ⟨t, ht⟩ : ∃ t, n.tasks.length = t + 1 := ⟨n.tasks.length - 1, by omega⟩
  rw [ht, Nat.add_sub_cancel, Nat.mul_succ]
  omega

/-- Taking what is ready into the messages. -/
theorem drain_weight (d : Nat) (r : List (P × Block)) : ∀ s : Bitswap P,
    sumW (fun l => msgW d l.message) (r.foldl (fun s e => s.sendBlock e.1 e.2) s).peers ≤
      sumW (fun l => msgW d l.message) s.peers + (kBlock d + 2) * r.length ∧
    (r.foldl (fun s e => s.sendBlock e.1 e.2) s).peers.length = s.peers.length := by
  induction r with
  | nil => intro s; exact ⟨Nat.le_refl _, rfl⟩
  | cons e r ih =>
    intro s
    obtain ⟨h1, h2⟩ := ih (s.sendBlock e.1 e.2)
    have h3 : sumW (fun l => msgW d l.message) (s.sendBlock e.1 e.2).peers ≤ sumW (fun l => msgW d l.message) s.peers + (kBlock d + 2) ∧
        (s.sendBlock e.1 e.2).peers.length = s.peers.length := by
      unfold sendBlock
      split
      · exact ⟨by omega, rfl⟩
      · rename_i l hl
        obtain ⟨g1, g2⟩ := sumW_set (fun l : Ledger => msgW d l.message) (l.addBlock e.2) hl
        have := msgW_add d l e.2
        dsimp only at g1 ⊢
        exact ⟨by omega, g2⟩
    rw [List.foldl_cons, List.length_cons, Nat.mul_succ]
    exact ⟨by omega, h2.trans h3.2⟩

theorem drain_same {s : Bitswap P} (h : s.ready = []) : s.drain = s := by
  unfold drain
  rw [h]
  cases s
  simp only at h
  subst h
  rfl

/-- A poll leaves less to do, or everything as it was. -/
theorem bitsW_poll (d : Nat) {n n' : Bitswap.Node P} {a : Option (Action P)} {order : List P}
    (h : n.step (.poll order) = some (a, n')) :
    n'.bs.peers.length = n.bs.peers.length ∧
    (a = none ∧ n' = n ∧ n.bs.events = [] ∧ n.bs.ready = [] ∧ (∀ p ∈ order, ∀ l, n.bs.peers.get p = some l → l.message.isEmpty = true) ∨
      bitsW d n' + outW d a + 1 ≤ bitsW d n) := by
  obtain ⟨ha, hb, ht⟩ := pollStep h
  have hd := drain_rest n.bs
  obtain ⟨hw, hlen⟩ := drain_weight d n.bs.ready n.bs
  have hdw : sumW (fun l => msgW d l.message) n.bs.drain.peers ≤ sumW (fun l => msgW d l.message) n.bs.peers + (kBlock d + 2) * n.bs.ready.length := hw
  have hdl : n.bs.drain.peers.length = n.bs.peers.length := hlen
  have hr : (kBlock d + 3) * n.bs.ready.length = (kBlock d + 2) * n.bs.ready.length + n.bs.ready.length := by
    rw [show kBlock d + 3 = (kBlock d + 2) + 1 from rfl, Nat.add_mul (kBlock d + 2), Nat.one_mul]
  rcases poll_cases n.bs order with ⟨e, es, h1, h2⟩ | ⟨h1, h2, h3⟩ | ⟨h1, p, l, l', -, h3, -, h4, h5, -, h2⟩
  · refine ⟨by rw [hb, h2]; exact hdl, Or.inr ?_⟩
    rw [h2] at ha
    simp only at ha
    have hev : (n.bs.events.map (actW d)).sum = actW d e + (es.map (actW d)).sum := by rw [h1]; rfl
    have hb' : n'.bs.events = es ∧ n'.bs.ready = [] ∧ n'.bs.peers = n.bs.drain.peers := by rw [hb, h2]; exact ⟨rfl, hd.2.2.2.1, rfl⟩
    rcases ht with ⟨q, b, hq, ht⟩ | ⟨hq, ht⟩
    · rw [hq] at ha; cases ha
      simp only [bitsW, hb'.1, hb'.2.1, hb'.2.2, ht, hev, hq, outW, actW, List.length_append, List.length_singleton, List.length_nil,
        Nat.mul_zero, Nat.mul_add, Nat.mul_one]
      omega
    · have hout : outW d a + 1 ≤ actW d e := by
        rw [ha]
        cases e with
        | dial _ => exact Nat.le_refl _
        | notify _ _ => simp only [outW, actW]; omega
        | generate ev =>
          cases ev with
          | cancel _ _ => exact Nat.le_refl _
          | want _ _ _ => simp only [outW, actW, kWant]; omega
          | block q b => exact absurd ha (hq q b)
      simp only [bitsW, hb'.1, hb'.2.1, hb'.2.2, ht, hev, List.length_nil, Nat.mul_zero]
      omega
  · refine ⟨by rw [hb, h2]; exact hdl, ?_⟩
    rw [h2] at ha
    simp only at ha
    have ht' : n'.tasks = n.tasks := by
      rcases ht with ⟨q, b, hq, -⟩ | ⟨-, ht⟩
      · rw [ha] at hq; cases hq
      · exact ht
    cases hrd : n.bs.ready with
    | nil =>
      left
      have hs := drain_same hrd
      refine ⟨ha, ?_, h1, rfl, ?_⟩
      · cases n; cases n'
        simp only at hb ht'
        rw [h2, hs] at hb
        rw [hb, ht']
      · intro p hp l hl
        rw [hs] at h3
        exact firstToSend_none n.bs order h3 hp hl
    | cons x xs =>
      right
      have hb' : n'.bs.events = [] ∧ n'.bs.ready = [] ∧ n'.bs.peers = n.bs.drain.peers := by
        rw [hb, h2]; exact ⟨hd.1.trans h1, hd.2.2.2.1, rfl⟩
      have hpos : 0 < n.bs.ready.length := by rw [hrd]; exact Nat.succ_pos _
      simp only [bitsW, hb'.1, hb'.2.1, hb'.2.2, ht', h1, ha, outW, List.length_nil, Nat.mul_zero, List.map_nil, List.sum_nil]
      omega
  · obtain ⟨g1, g2⟩ := sumW_set (fun l : Ledger => msgW d l.message) l' h3
    refine ⟨by rw [hb, h2]; exact g2.trans hdl, Or.inr ?_⟩
    rw [h2] at ha
    simp only at ha
    have ht' : n'.tasks = n.tasks := by
      rcases ht with ⟨q, b, hq, -⟩ | ⟨-, ht⟩
      · rw [ha] at hq; cases hq
      · exact ht
    have hb' : n'.bs.events = [] ∧ n'.bs.ready = [] ∧ n'.bs.peers = n.bs.drain.peers.set p l' := by
      rw [hb, h2]; exact ⟨hd.1.trans h1, hd.2.2.2.1, rfl⟩
    have hm : msgW d l.message = 2 + content d l.message := by rw [msgW, h4]; rfl
    have hm' : msgW d l'.message = 0 := by rw [h5]; rfl
    simp only [bitsW, hb'.1, hb'.2.1, hb'.2.2, ht', h1, ha, outW, List.length_nil, Nat.mul_zero, List.map_nil, List.sum_nil] at *
    omega

/-! ### What a node has left to do -/

/-- An event of the repo. -/
def chanW (d : Nat) : RepoEv → Nat
  | .want _ => 1 + d * (2 + kWant d)
  | _ => 3 * d + 1

/-- What a node has left to do. -/
def nodeW (d : Nat) (n : Peer P) : Nat := (n.chan.map (chanW d)).sum + (kBlock d + 4) * n.lookups.length + bitsW d n.bits

/-- What goes out. -/
def goesW (d : Nat) (a : Option (P × Message)) : Nat := (a.map (fun e => 1 + content d e.2)).getD 0

theorem nodeW_event {d : Nat} {n n' : Peer P} (h : n.event = some n') (hd : n.bits.bs.peers.length ≤ d) :
    n'.bits.bs.peers.length = n.bits.bs.peers.length ∧ (n' = n ∧ n.chan = [] ∨ nodeW d n' + 1 ≤ nodeW d n) := by
  unfold Peer.event at h
  split at h
  · rename_i hc
    cases h; exact ⟨rfl, Or.inl ⟨rfl, hc⟩⟩
  all_goals
    rename_i hc
    obtain ⟨⟨a, m⟩, hr, rfl⟩ := Option.map_eq_some_iff.mp h
    obtain ⟨h1, h2, h3, h4, h5⟩ := bitswap_some hr
    first
      | (obtain ⟨g1, g2⟩ := bitsW_want d h1 hd
         refine ⟨g2, Or.inr ?_⟩
         simp only [nodeW, h4, h5, hc, List.map_cons, List.sum_cons, chanW]
         dsimp only at g1
         omega)
      | (obtain ⟨g1, g2⟩ := bitsW_cancel d h1 hd
         refine ⟨g2, Or.inr ?_⟩
         simp only [nodeW, h4, h5, hc, List.map_cons, List.sum_cons, chanW]
         dsimp only at g1
         omega)

theorem nodeW_look {d k : Nat} {n n' : Peer P} (h : n.look k = some n') :
    n'.bits.bs.peers.length = n.bits.bs.peers.length ∧ (n' = n ∧ n.lookups[k]? = none ∨ nodeW d n' + 1 ≤ nodeW d n) := by
  unfold Peer.look at h
  split at h
  · rename_i hk
    cases h; exact ⟨rfl, Or.inl ⟨rfl, hk⟩⟩
  · rename_i p c hk
    have hlt : k < n.lookups.length := (List.getElem?_eq_some_iff.mp hk).1
    have hlen : (kBlock d + 4) * (n.lookups.eraseIdx k).length + (kBlock d + 4) = (kBlock d + 4) * n.lookups.length := by
      rw [List.length_eraseIdx_of_lt hlt, ← Nat.mul_succ]
      congr 1; omega
    dsimp only at h
    split at h
    · cases h
      refine ⟨rfl, Or.inr ?_⟩
      simp only [nodeW]
      omega
    · obtain ⟨⟨a, m⟩, hr, rfl⟩ := Option.map_eq_some_iff.mp h
      obtain ⟨h1, h2, h3, h4, h5⟩ := bitswap_some hr
      obtain ⟨g1, g2⟩ := bitsW_queue d h1
      refine ⟨g2, Or.inr ?_⟩
      simp only [nodeW, h4, h5]
      dsimp only at g1
      omega

omit [DecidableEq P] in
theorem put_chan {debug : Bool} {n n' : Peer P} {b : Block} {r : BlockPut} (h : n.put debug b = some (r, n')) :
    n'.chan = n.chan ∨ n'.chan = n.chan ++ [.new b.cid] := by
  unfold Peer.put at h
  split at h
  · cases h; exact Or.inl rfl
  · split at h
    · cases h
    · cases h; exact Or.inr rfl

theorem nodeW_save {debug : Bool} {d k : Nat} {n n' : Peer P} (h : n.save debug k = some n') :
    n'.bits.bs.peers.length = n.bits.bs.peers.length ∧ (n' = n ∧ n.bits.tasks[k]? = none ∨ nodeW d n' + 1 ≤ nodeW d n) := by
  unfold Peer.save at h
  split at h
  · rename_i hk
    cases h; exact ⟨rfl, Or.inl ⟨rfl, hk⟩⟩
  · rename_i q b hk
    split at h
    · cases h
    · rename_i r x hp
      obtain ⟨⟨a, m⟩, hr, rfl⟩ := Option.map_eq_some_iff.mp h
      obtain ⟨h1, h2, h3, h4, h5⟩ := bitswap_some hr
      obtain ⟨p1, p2⟩ := put_bits hp
      rw [p1] at h1
      obtain ⟨g1, g2⟩ := bitsW_stored d h1 hk
      refine ⟨g2, Or.inr ?_⟩
      have hc : (m.chan.map (chanW d)).sum ≤ (n.chan.map (chanW d)).sum + (3 * d + 1) := by
        rw [h4]
        rcases put_chan hp with e | e <;> rw [e]
        · omega
        · simp only [List.map_append, List.sum_append, List.map_cons, List.map_nil, List.sum_cons, List.sum_nil, chanW]; omega
      simp only [nodeW, h5, p2]
      omega

theorem nodeW_swarm {d : Nat} {n n' : Peer P} {a : Option (P × Message)} {order : List P}
    (h : (n.bitswap (.poll order)).map pollOutcome = some (a, n')) :
    n'.bits.bs.peers.length = n.bits.bs.peers.length ∧
    (a = none ∧ n' = n ∧ n.bits.bs.events = [] ∧ n.bits.bs.ready = [] ∧
        (∀ p ∈ order, ∀ l, n.bits.bs.peers.get p = some l → l.message.isEmpty = true) ∨
      nodeW d n' + goesW d a + 1 ≤ nodeW d n) := by
  obtain ⟨⟨act, m⟩, hr, ho⟩ := Option.map_eq_some_iff.mp h
  obtain ⟨h1, h2, h3, h4, h5⟩ := bitswap_some hr
  obtain ⟨g1, g2⟩ := bitsW_poll d h1
  have hb := pollOutcome_bits (act, m)
  rw [ho] at hb
  refine ⟨by rw [hb.1]; exact g1, ?_⟩
  rcases g2 with ⟨rfl, e2, e3, e4, e5⟩ | g2
  · left
    cases ho
    refine ⟨rfl, ?_, e3, e4, e5⟩
    cases n; cases m
    simp only at h2 h3 h4 h5 e2
    rw [h2, h3, h4, h5, e2]
  · right
    have hw : nodeW d n' + goesW d a ≤ nodeW d m + outW d act := by
      cases act with
      | none => cases ho; exact Nat.le_refl _
      | some e =>
        cases e with
        | dial _ => cases ho; exact Nat.le_refl _
        | notify _ _ => cases ho; simp only [goesW, outW, Option.map_some, Option.getD_some]; omega
        | generate ev =>
          cases ev with
          | cancel _ _ => cases ho; exact Nat.le_refl _
          | block _ _ => cases ho; exact Nat.le_refl _
          | want _ _ _ =>
            cases ho
            simp only [nodeW, goesW, outW, Option.map_none, Option.getD_none, List.length_append, List.length_singleton, Nat.mul_add,
              Nat.mul_one]
            omega
    have hm : nodeW d m + bitsW d n.bits = nodeW d n + bitsW d m.bits := by simp only [nodeW, h4, h5]; omega
    omega

theorem nodeW_arrive {H : Hashes} {d : Nat} {n n' : Peer P} {y : P} {bs : Bytes} (h : n.arrive H y bs = some n')
    (hd : n.bits.bs.peers.length ≤ d) :
    n'.bits.bs.peers.length = n.bits.bs.peers.length ∧ nodeW d n' ≤ nodeW d n + ((Message.unframe H bs).map (content d)).getD 0 := by
  unfold Peer.arrive at h
  split at h
  · cases h; exact ⟨rfl, Nat.le_add_right _ _⟩
  · rename_i m hm
    obtain ⟨⟨a, r⟩, hr, rfl⟩ := Option.map_eq_some_iff.mp h
    obtain ⟨h1, h2, h3, h4, h5⟩ := bitswap_some hr
    obtain ⟨g1, g2⟩ := bitsW_received d h1 hd
    refine ⟨g2, ?_⟩
    simp only [nodeW, h4, h5, hm, Option.map_some, Option.getD_some]
    omega

/-! ### All nodes -/

/-- A frame on its way. -/
def frameW (H : Hashes) (d : Nat) (f : Parcel P) : Nat := 1 + ((Message.unframe H f.bytes).map (content d)).getD 0

/-- What is left to do. -/
def netW (H : Hashes) (d : Nat) (all : List P) (s : NetSt P) : Nat :=
  (all.map (fun x => nodeW d (s.node x))).sum + (s.flight.map (frameW H d)).sum

omit [DecidableEq P] in
theorem sum_one_off {all : List P} (hn : all.Nodup) {x : P} (hx : x ∈ all) {f g : P → Nat} (h : ∀ y, y ≠ x → g y = f y) :
    (all.map g).sum + f x = (all.map f).sum + g x := by
  induction all with
  | nil => cases hx
  | cons a all ih =>
    obtain ⟨h1, h2⟩ := List.nodup_cons.mp hn
    simp only [List.map_cons, List.sum_cons]
    rcases List.mem_cons.mp hx with rfl | hx
    · have : all.map g = all.map f := List.map_congr_left (fun y hy => h y (by rintro rfl; exact h1 hy))
      rw [this]; omega
    · have ha : a ≠ x := by rintro rfl; exact h1 hx
      have := ih h2 hx
      rw [h a ha]; omega

theorem le_sum {α : Type} (w : α → Nat) {l : List α} {x : α} (h : x ∈ l) : w x ≤ (l.map w).sum := by
  induction l with
  | nil => cases h
  | cons a l ih =>
    simp only [List.map_cons, List.sum_cons]
    rcases List.mem_cons.mp h with rfl | h
    · omega
    · have := ih h; omega

theorem sum_eraseIdx {α : Type} (w : α → Nat) : ∀ (l : List α) (k : Nat) (f : α), l[k]? = some f →
    ((l.eraseIdx k).map w).sum + w f = (l.map w).sum := by
  intro l
  induction l with
  | nil => intro k f h; cases h
  | cons a l ih =>
    intro k f h
    cases k with
    | zero => simp only [List.getElem?_cons_zero, Option.some.injEq] at h; subst h; simp only [List.eraseIdx_zero, List.tail_cons, List.map_cons, List.sum_cons]; omega
    | succ k =>
      have := ih k f (by simpa using h)
      simp only [List.eraseIdx_cons_succ, List.map_cons, List.sum_cons]; omega

theorem upd_same (s : NetSt P) (x : P) : s.upd x (s.node x) = s := by
  cases s with
  | mk node flight =>
    simp only [NetSt.upd, NetSt.mk.injEq, and_true]
    funext y
    split
    · rename_i h; rw [h]
    · rfl

/-- What the nodes and the network do by themselves. -/
def Inner : NetEv P → Prop
  | .event _ | .swarm _ _ | .look _ _ | .save _ _ | .deliver _ | .lose _ => True
  | _ => False

omit [DecidableEq P] in
theorem frameW_sent {H : Hashes} {d : Nat} {x y : P} {m : Message} (hm : MsgOk H m) (hl : m.frame.length < 2 ^ 64) :
    frameW H d (⟨x, y, m.frame⟩ : Parcel P) ≤ 1 + content d m := by
  have hl : m.toBytes.length < 2 ^ 64 := by simp only [Message.frame, List.length_append] at hl; omega
  simp only [frameW, C41_frame H m hm hl]
  split
  · simp only [Option.map_some, Option.getD_some, content]; omega
  · simp only [Option.map_none, Option.getD_none]; omega

/-- By itself, everything leaves less to do. -/
theorem netW_step {H : Hashes} {debug : Bool} {d : Nat} {all : List P} (hn : all.Nodup) (hall : ∀ x, x ∈ all) {s s' : NetSt P} {e : NetEv P}
    (hs : NetFine H s) (hd : ∀ x, (s.node x).bits.bs.peers.length ≤ d) (he : Inner e) (hl : Short64 s')
    (h : s.step H debug e = some s') :
    (∀ x, (s'.node x).bits.bs.peers.length ≤ d) ∧ (s' = s ∨ netW H d all s' + 1 ≤ netW H d all s) := by
  have upd : ∀ (x : P) (n' : Peer P), n'.bits.bs.peers.length = (s.node x).bits.bs.peers.length →
      (n' = s.node x ∨ nodeW d n' + 1 ≤ nodeW d (s.node x)) → s' = s.upd x n' →
      (∀ x, (s'.node x).bits.bs.peers.length ≤ d) ∧ (s' = s ∨ netW H d all s' + 1 ≤ netW H d all s) := by
    intro x n' h1 h2 h3
    subst h3
    constructor
    · intro y
      by_cases hy : y = x
      · subst hy; rw [upd_self, h1]; exact hd y
      · rw [upd_other _ _ hy]; exact hd y
    · rcases h2 with rfl | h2
      · exact Or.inl (upd_same s x)
      · right
        have := sum_one_off hn (hall x) (f := fun y => nodeW d (s.node y)) (g := fun y => nodeW d ((s.upd x n').node y))
          (fun y hy => by simp only [upd_other _ _ hy])
        simp only [upd_self] at this
        simp only [netW]
        have e : (s.upd x n').flight = s.flight := rfl
        rw [e]
        omega
  cases e with
  | event x =>
    obtain ⟨n', hn', h⟩ := Option.map_eq_some_iff.mp h
    obtain ⟨h1, h2⟩ := nodeW_event hn' (hd x)
    exact upd x n' h1 (h2.imp And.left id) h.symm
  | look x k =>
    obtain ⟨n', hn', h⟩ := Option.map_eq_some_iff.mp h
    obtain ⟨h1, h2⟩ := nodeW_look (d := d) hn'
    exact upd x n' h1 (h2.imp And.left id) h.symm
  | save x k =>
    obtain ⟨n', hn', h⟩ := Option.map_eq_some_iff.mp h
    obtain ⟨h1, h2⟩ := nodeW_save (d := d) hn'
    exact upd x n' h1 (h2.imp And.left id) h.symm
  | swarm x order =>
    have hfine := (NetFine.step hs (by trivial) hl h).2
    simp only [NetSt.step, Option.map_eq_some_iff] at h
    obtain ⟨r, hr, h⟩ := h
    rw [act_eq] at h
    obtain ⟨h1, h2⟩ := nodeW_swarm (d := d) (n := s.node x) (a := (pollOutcome r).1) (n' := (pollOutcome r).2) (order := order)
      (by simp only [hr, Option.map_some])
    rcases h2 with ⟨h2, h3, -⟩ | h2
    · refine upd x _ h1 (Or.inl h3) ?_
      rw [← h, h2]
      simp [parcels, NetSt.upd]
    · have hnode : s'.node = (s.upd x (pollOutcome r).2).node := by rw [← h]
      have hfl : s'.flight = s.flight ++ parcels x (pollOutcome r).1 := by rw [← h]
      constructor
      · intro y
        rw [hnode]
        by_cases hy : y = x
        · subst hy; rw [upd_self, h1]; exact hd y
        · rw [upd_other _ _ hy]; exact hd y
      · right
        have hsum := sum_one_off hn (hall x) (f := fun y => nodeW d (s.node y)) (g := fun y => nodeW d ((s.upd x (pollOutcome r).2).node y))
          (fun y hy => by simp only [upd_other _ _ hy])
        simp only [upd_self] at hsum
        have hgo : ((parcels x (pollOutcome r).1).map (frameW H d)).sum ≤ goesW d (pollOutcome r).1 := by
          cases ha : (pollOutcome r).1 with
          | none => exact Nat.le_refl _
          | some e =>
            obtain ⟨y, m⟩ := e
            have hm : MsgOk H m := by
              have hmv : peerMove H debug (s.node x) (.swarm order) = some (some (y, m), (pollOutcome r).2) := by
                simp only [peerMove, hr, Option.map_some, Option.some.injEq]
                rw [← ha]
              exact ((hs.node x).move (lab := .swarm order) (by trivial) hmv).2 y m rfl
            have hlen : m.frame.length < 2 ^ 64 := by
              refine hl ⟨x, y, m.frame⟩ ?_
              rw [hfl, ha]
              simp [parcels]
            have := frameW_sent (P := P) (d := d) (x := x) (y := y) hm hlen
            simp only [parcels, Option.toList_some, List.map_cons, List.map_nil, List.sum_cons, List.sum_nil, goesW, Option.map_some, Option.getD_some]
            omega
        simp only [netW, hnode, hfl, List.map_append, List.sum_append]
        omega
  | deliver k =>
    simp only [NetSt.step] at h
    split at h
    · cases h; exact ⟨hd, Or.inl rfl⟩
    · rename_i f hf
      obtain ⟨n', hn', h⟩ := Option.map_eq_some_iff.mp h
      obtain ⟨h1, h2⟩ := nodeW_arrive hn' (hd f.receiver)
      subst h
      have hsum := sum_one_off hn (hall f.receiver) (f := fun y => nodeW d (s.node y)) (g := fun y => nodeW d ((s.upd f.receiver n').node y))
        (fun y hy => by simp only [upd_other _ _ hy])
      simp only [upd_self] at hsum
      have hfl := sum_eraseIdx (frameW H d) s.flight k f hf
      constructor
      · intro y
        by_cases hy : y = f.receiver
        · subst hy
          show ((s.upd f.receiver n').node f.receiver).bits.bs.peers.length ≤ d
          rw [upd_self, h1]; exact hd _
        · show ((s.upd f.receiver n').node y).bits.bs.peers.length ≤ d
          rw [upd_other _ _ hy]; exact hd y
      · right
        have hw : frameW H d f = 1 + ((Message.unframe H f.bytes).map (content d)).getD 0 := rfl
        simp only [netW]
        omega
  | lose k =>
    cases h
    refine ⟨hd, ?_⟩
    cases hf : s.flight[k]? with
    | none => left; rw [List.eraseIdx_of_length_le (List.getElem?_eq_none_iff.mp hf)]
    | some f =>
      right
      have hfl := sum_eraseIdx (frameW H d) s.flight k f hf
      have : 1 ≤ frameW H d f := by simp only [frameW]; omega
      simp only [netW]
      omega
  | get _ _ => exact he.elim
  | put _ _ => exact he.elim
  | remove _ _ => exact he.elim
  | await _ _ => exact he.elim
  | drop _ _ => exact he.elim
  | established _ _ => exact he.elim
  | closed _ _ => exact he.elim
  | bytes _ _ _ => exact he.elim

/-- Runs of what the nodes and the network do by themselves, in which everything does something. -/
inductive Busy (H : Hashes) (debug : Bool) : Nat → NetSt P → NetSt P → Prop
  | refl (s : NetSt P) : Busy H debug 0 s s
  | step {k : Nat} {s t u : NetSt P} (e : NetEv P) : Busy H debug k s t → Inner e → t.step H debug e = some u → u ≠ t → Short64 u →
      Busy H debug (k + 1) s u

/-- Nothing happens by itself any more, but that frames are lost. -/
def Resting (H : Hashes) (s : NetSt P) : Prop :=
  ∀ e s', Inner e → (∀ k, e ≠ .lose k) → s.step H false e = some s' → s' = s

/-- **C73**: the nodes come to rest. From every state, what the nodes and the network do by themselves ends after a bounded number
of events, in whatever order they come. -/
theorem C73_settles {H : Hashes} {debug : Bool} {s0 : NetSt P} (all : List P) (hall : ∀ x, x ∈ all) (hn : all.Nodup)
    (hpre : NetRun H debug (fun _ e s' => InOrder H e ∧ Short64 s') NetSt.init s0) :
    ∃ bound, ∀ k s, Busy H debug k s0 s → k ≤ bound := by
  have h0 : NetFine H s0 := by
    induction hpre with
    | refl => exact NetFine.init H
    | step e _ ho hst ih => exact (ih.step ho.1 ho.2 hst).1
  obtain ⟨d, hd⟩ : ∃ d, ∀ x, (s0.node x).bits.bs.peers.length ≤ d := by
    refine ⟨(all.map (fun x => (s0.node x).bits.bs.peers.length)).sum, ?_⟩
    intro x
    exact le_sum (fun x => (s0.node x).bits.bs.peers.length) (hall x)
  refine ⟨netW H d all s0, ?_⟩
  intro k s hb
  clear hpre
  have : NetFine H s ∧ (∀ x, (s.node x).bits.bs.peers.length ≤ d) ∧ netW H d all s + k ≤ netW H d all s0 := by
    induction hb with
    | refl => exact ⟨h0, hd, Nat.le_refl _⟩
    | step e _ he hst hne hl ih =>
      obtain ⟨g1, g2, g3⟩ := ih h0 hd
      have ho : InOrder H e := by cases e <;> first | trivial | exact he.elim
      obtain ⟨g4, g5⟩ := netW_step hn hall g1 g2 he hl hst
      refine ⟨(g1.step ho hl hst).1, g4, ?_⟩
      rcases g5 with g5 | g5
      · exact absurd g5 hne
      · omega
  omega

/-- **C73**: in release builds, when nothing happens by itself any more, nothing is left to do at any node, and all frames
between connected nodes have arrived. -/
theorem C73_rests {H : Hashes} {s : NetSt P} (hrun : NetRun H false (fun _ _ _ => True) NetSt.init s) (hr : Resting H s) :
    (∀ x, Idle (s.node x)) ∧ ∀ f ∈ s.flight, (s.node f.receiver).bits.bs.peers.get f.sender = none := by
  have node_of : ∀ (x : P) (n : Peer P), s.upd x n = s → n = s.node x := by
    intro x n h
    have := upd_self s x n
    rw [h] at this; exact this.symm
  constructor
  · intro x
    have hev : (s.node x).chan = [] := by
      obtain ⟨s', hs'⟩ := C73_no_panic hrun (.event x) trivial
      have he := hr _ _ (by trivial) (by simp) hs'
      obtain ⟨n', hn', h⟩ := Option.map_eq_some_iff.mp hs'
      have hx := node_of x n' (h.trans he)
      subst hx
      rcases (nodeW_event hn' (Nat.le_refl _)).2 with h | h
      · exact h.2
      · omega
    have hlk : (s.node x).lookups = [] := by
      obtain ⟨s', hs'⟩ := C73_no_panic hrun (.look x 0) trivial
      have he := hr _ _ (by trivial) (by simp) hs'
      obtain ⟨n', hn', h⟩ := Option.map_eq_some_iff.mp hs'
      have hx := node_of x n' (h.trans he)
      subst hx
      rcases (nodeW_look (d := 0) hn').2 with h | h
      · exact List.eq_nil_of_length_eq_zero (Nat.le_zero.mp (List.getElem?_eq_none_iff.mp h.2))
      · omega
    have htk : (s.node x).bits.tasks = [] := by
      obtain ⟨s', hs'⟩ := C73_no_panic hrun (.save x 0) trivial
      have he := hr _ _ (by trivial) (by simp) hs'
      obtain ⟨n', hn', h⟩ := Option.map_eq_some_iff.mp hs'
      have hx := node_of x n' (h.trans he)
      subst hx
      rcases (nodeW_save (d := 0) hn').2 with h | h
      · exact List.eq_nil_of_length_eq_zero (Nat.le_zero.mp (List.getElem?_eq_none_iff.mp h.2))
      · omega
    obtain ⟨s', hs'⟩ := C73_no_panic hrun (.swarm x (s.node x).bits.bs.peers.keys) trivial
    have he := hr _ _ (by trivial) (by simp) hs'
    simp only [NetSt.step, Option.map_eq_some_iff] at hs'
    obtain ⟨r, hr', h⟩ := hs'
    rw [act_eq, he] at h
    have hx : (pollOutcome r).2 = s.node x := by
      have := upd_self s x (pollOutcome r).2
      rw [← this]
      have hh := congrArg (fun t : NetSt P => t.node x) h
      exact hh
    obtain ⟨-, h2⟩ := nodeW_swarm (d := 0) (n := s.node x) (a := (pollOutcome r).1) (n' := (pollOutcome r).2)
      (order := (s.node x).bits.bs.peers.keys) (by simp only [hr', Option.map_some])
    rcases h2 with ⟨-, -, h3, h4, h5⟩ | h2
    · refine ⟨hev, hlk, htk, h3, h4, ?_⟩
      intro p l hl
      exact h5 p ((AMap.mem_keys_iff _ p).mpr (by rw [hl]; rfl)) l hl
    · rw [hx] at h2; omega
  · intro f hf
    cases hg : (s.node f.receiver).bits.bs.peers.get f.sender with
    | none => rfl
    | some l =>
      exfalso
      obtain ⟨k, hk⟩ := List.getElem?_of_mem hf
      obtain ⟨s', hs'⟩ := C73_no_panic hrun (.deliver k) (by intro f' hf'; rw [hk] at hf'; cases hf'; rw [hg]; rfl)
      have he := hr _ _ (by trivial) (by simp) hs'
      simp only [NetSt.step, hk] at hs'
      obtain ⟨n', -, h⟩ := Option.map_eq_some_iff.mp hs'
      rw [he] at h
      have hfl : s.flight.eraseIdx k = s.flight := congrArg NetSt.flight h
      have hlt : k < s.flight.length := (List.getElem?_eq_some_iff.mp hk).1
      have := congrArg List.length hfl
      rw [List.length_eraseIdx_of_lt hlt] at this
      omega

/-- The other way round. -/
theorem idle_rests {H : Hashes} {s : NetSt P} (hi : ∀ x, Idle (s.node x)) (hf : s.flight = []) : Resting H s := by
  intro e s' he hl h
  have upd : ∀ (x : P) (n' : Peer P), s.upd x n' = s' → n' = s.node x → s' = s := by
    intro x n' h1 h2
    rw [← h1, h2]; exact upd_same s x
  cases e with
  | event x =>
    obtain ⟨n', hn', h⟩ := Option.map_eq_some_iff.mp h
    simp only [Peer.event, (hi x).chan, Option.some.injEq] at hn'
    exact upd x n' h hn'.symm
  | look x k =>
    obtain ⟨n', hn', h⟩ := Option.map_eq_some_iff.mp h
    simp only [Peer.look, (hi x).lookups, List.getElem?_nil, Option.some.injEq] at hn'
    exact upd x n' h hn'.symm
  | save x k =>
    obtain ⟨n', hn', h⟩ := Option.map_eq_some_iff.mp h
    simp only [Peer.save, (hi x).tasks, List.getElem?_nil, Option.some.injEq] at hn'
    exact upd x n' h hn'.symm
  | swarm x order =>
    simp only [NetSt.step, Option.map_eq_some_iff] at h
    obtain ⟨r, hr, h⟩ := h
    rw [act_eq] at h
    obtain ⟨act, m⟩ := r
    obtain ⟨h1, h2, h3, h4, h5⟩ := bitswap_some hr
    obtain ⟨ha, hb, ht⟩ := pollStep h1
    have hs := drain_same (hi x).ready
    rcases poll_cases (s.node x).bits.bs order with ⟨e, es, g1, g2⟩ | ⟨g1, g2, g3⟩ | ⟨g1, p, l, l', -, g3, -, g4, g5, -, g2⟩
    · rw [(hi x).events] at g1; cases g1
    · rw [g2] at ha
      simp only at ha
      subst ha
      have ht' : m.bits.tasks = (s.node x).bits.tasks := by
        rcases ht with ⟨q, b, hq, -⟩ | ⟨-, ht⟩
        · cases hq
        · exact ht
      have hm : m = s.node x := by
        rw [g2, hs] at hb
        generalize s.node x = n at *
        obtain ⟨st, rg, ch, ⟨bs, tk⟩, lk⟩ := n
        obtain ⟨st', rg', ch', ⟨bs', tk'⟩, lk'⟩ := m
        simp only at h2 h3 h4 h5 hb ht'
        rw [h2, h3, h4, h5, hb, ht']
      refine upd x m ?_ hm
      rw [← h]
      simp [parcels, pollOutcome, NetSt.upd]
    · rw [hs] at g3
      rw [(hi x).messages p l g3] at g4
      cases g4
  | deliver k =>
    simp only [NetSt.step, hf, List.getElem?_nil, Option.some.injEq] at h
    exact h.symm
  | lose k => exact absurd rfl (hl k)
  | get _ _ => exact he.elim
  | put _ _ => exact he.elim
  | remove _ _ => exact he.elim
  | await _ _ => exact he.elim
  | drop _ _ => exact he.elim
  | established _ _ => exact he.elim
  | closed _ _ => exact he.elim
  | bytes _ _ _ => exact he.elim

theorem NetRun.weaken {H : Hashes} {debug : Bool} {ok ok' : NetSt P → NetEv P → NetSt P → Prop} (hok : ∀ s e s', ok s e s' → ok' s e s')
    {s t u : NetSt P} (h0 : NetRun H debug ok' s t) (h : NetRun H debug ok t u) : NetRun H debug ok' s u := by
  induction h with
  | refl => exact h0
  | step e _ ho hst ih => exact .step e ih (hok _ _ _ ho) hst

/-- **C73**: a block that a connected peer has arrives, in release builds: the conditions are those of `C73_arrives`; both know of the
connection, and nothing happens by itself any more, which by `C73_settles` is so after a bounded number of events if users and peers
do nothing new. Then no request for the block waits. -/
theorem C73_served {H : Hashes} {x y : P} {c : Cid} {s0 s : NetSt P} (hxy : x ≠ y)
    (hpre : NetRun H false (fun s e s' => InOrder H e ∧ Short64 s' ∧ NoAlias x c s e) NetSt.init s0)
    (hhas : ∃ b, (s0.node y).store.getBlock c = some b ∧ b.cid = c)
    (hnot : (s0.node y).bits.bs.wanted.get c = none ∧ RepoEv.want c ∉ (s0.node y).chan)
    (hstart : (s0.node x).bits.bs.wanted.get c = none ∨ (s0.node x).bits.bs.peers.get y = none)
    (hrun : NetRun H false (fun s e s' => InOrder H e ∧ Short64 s' ∧ NoAlias x c s e ∧ Undisturbed x y c s e s') s0 s)
    (hrest : Resting H s)
    (hlink : ((s.node x).bits.bs.peers.get y).isSome ∧ ((s.node y).bits.bs.peers.get x).isSome) (i : Nat) (w : Bool) :
    ¬ Waits (s.node x).reg c i w := by
  have hall : NetRun H false (fun _ _ _ => True) NetSt.init s :=
    NetRun.weaken (fun _ _ _ _ => trivial) (NetRun.weaken (fun _ _ _ _ => trivial) (.refl _) hpre) hrun
  obtain ⟨h1, h2⟩ := C73_rests hall hrest
  refine C73_arrives hxy hpre hhas hnot hstart hrun ⟨h1 x, h1 y, ?_⟩ (Option.isSome_iff_exists.mp hlink.1) i w
  rintro f hf (⟨e1, e2⟩ | ⟨e1, e2⟩)
  · have := h2 f hf
    rw [e1, e2] at this
    rw [this] at hlink; cases hlink.2
  · have := h2 f hf
    rw [e1, e2] at this
    rw [this] at hlink; cases hlink.1

end Verif.Props
