import Verif.Props.BitswapWants

/-!
# C59, C60: what the bitswap behaviour reports, and the blocks it sends
-/

namespace Verif.Props

open Verif Verif.Bitswap
open Verif.Bitswap.Bitswap
open Verif.Repo (Block BlockPut)

variable {P : Type} [DecidableEq P]

/-! ### Specification -/

/-- The cids wanted, kept by hand. -/
def wantsNext (w : Cid → Bool) : Op P → Cid → Bool
  | .want c _ => fun d => decide (d = c) || w d
  | .cancel c => fun d => !decide (d = c) && w d
  | .received _ m => fun d => w d && !decide (d ∈ m.blocks.map Block.cid)
  | _ => w

/-- What is to be done and reported for what happens: a dial for the first request to connect to a peer, and for
every message its cancels, then its wants of what is not wanted here, then its blocks. -/
def reports (asked : List P) (w : Cid → Bool) : List (Op P) → List (Action P)
  | [] => []
  | .connect p :: ops =>
    if p ∈ asked then reports asked w ops else .dial p :: reports (p :: asked) w ops
  | .received p m :: ops =>
    m.cancel.map (fun c => .generate (.cancel p c)) ++
    (m.want.filter (fun e => !w e.1)).map (fun e => .generate (.want p e.1 e.2)) ++
    m.blocks.map (fun b => .generate (.block p b)) ++
    reports asked (wantsNext w (.received p m)) ops
  | o :: ops => reports asked (wantsNext w o) ops

/-- Not a message to be sent. -/
def isReport : Action P → Bool
  | .notify .. => false
  | _ => true

/-- The blocks queued for a peer. -/
def queuedFor (p : P) : List (Op P) → List Block
  | [] => []
  | .queue q b :: ops => if q = p then b :: queuedFor p ops else queuedFor p ops
  | _ :: ops => queuedFor p ops

/-- The blocks in messages. -/
def blocksIn (ms : List Message) : List Block := ms.flatMap Message.blocks

/-! ### C59 -/

/-- The peers asked for, kept by hand. -/
def askedNext (asked : List P) : Op P → List P
  | .connect p => if p ∈ asked then asked else p :: asked
  | _ => asked

/-- Is it wanted? -/
def wantsNow (s : Node P) : Cid → Bool := fun c => (s.bs.wanted.get c).isSome

omit [DecidableEq P] in
theorem freshWants_eq (s : Node P) (m : Message) : s.bs.freshWants m = m.want.filter (fun e => !wantsNow s e.1) := by
  unfold freshWants wantsNow
  congr 1
  funext e
  congr 1
  rw [Bool.eq_iff_iff, List.any_eq_true, ← AMap.mem_keys_iff]
  constructor
  · rintro ⟨w, hw, he⟩
    rw [← of_decide_eq_true he]
    exact List.mem_map_of_mem hw
  · intro h
    obtain ⟨w, hw, he⟩ := List.mem_map.1 h
    exact ⟨w, hw, decide_eq_true he⟩

omit [DecidableEq P] in
theorem isReport_map {α : Type} (f : α → Event P) (l : List α) :
    (l.map (fun x => Action.generate (f x))).filter isReport = l.map (fun x => Action.generate (f x)) := by
  rw [List.filter_eq_self]
  intro a ha
  obtain ⟨x, -, rfl⟩ := List.mem_map.1 ha
  rfl

theorem report_step {s s' : Node P} {a : Option (Action P)} {o : Op P} (h : s.step o = some (a, s')) :
    wantsNow s' = wantsNext (wantsNow s) o ∧
    s'.bs.targets = askedNext s.bs.targets o ∧
    (a.toList ++ s'.bs.events).filter isReport = s.bs.events.filter isReport ++ (reports s.bs.targets (wantsNow s) [o]) := by
  cases o with
  | connect p =>
    cases h
    simp only [connect, reports, askedNext]
    split
    · exact ⟨rfl, rfl, by simp⟩
    · exact ⟨rfl, rfl, by simp [isReport]⟩
  | want c pr =>
    cases h
    refine ⟨?_, rfl, by simp [wantBlock, reports]⟩
    funext d
    simp only [wantsNow, wantBlock, AMap.get_set, wantsNext]
    by_cases hd : d = c <;> simp [hd]
  | cancel c =>
    cases h
    refine ⟨?_, rfl, by simp [cancelBlock, reports]⟩
    funext d
    simp only [wantsNow, cancelBlock, AMap.get_erase, wantsNext]
    by_cases hd : d = c <;> simp [hd]
  | established p =>
    cases h
    simp only [established_eq]
    refine ⟨rfl, by rfl, ?_⟩
    split <;> simp [reports, isReport]
  | closed p => cases h; exact ⟨rfl, rfl, by simp [closed, reports]⟩
  | received p m =>
    simp only [Node.step, received_eq, Option.map_map, Option.map_eq_some_iff] at h
    obtain ⟨l0, hl0, he⟩ := h
    cases he
    refine ⟨?_, rfl, ?_⟩
    · funext d
      simp only [wantsNow, wanted_after_blocks, wantsNext]
      by_cases hd : d ∈ m.blocks.map Block.cid <;> simp [hd]
    · simp only [Option.toList_none, List.nil_append, List.filter_append, isReport_map, reports, List.append_nil,
        List.append_assoc, freshWants_eq]
  | queue p b => cases h; exact ⟨rfl, rfl, by simp [reports]⟩
  | poll order =>
    obtain ⟨ha, hb, -⟩ := pollStep h
    have hd := drain_rest s.bs
    have hw : wantsNow s' = wantsNow s ∧ s'.bs.targets = s.bs.targets := by
      unfold wantsNow
      rcases poll_cases s.bs order with ⟨e, es, h1, h2⟩ | ⟨h1, h2, -⟩ | ⟨h1, p, l1, l', -, h3, -, -, h5, -, h2⟩ <;>
        rw [hb, h2] <;> simp only [hd.2.2.1, hd.2.1, and_self]
    refine ⟨hw.1, hw.2, ?_⟩
    rw [ha, hb]
    simp only [reports, List.append_nil]
    rcases poll_cases s.bs order with ⟨e, es, h1, h2⟩ | ⟨h1, h2, -⟩ | ⟨h1, p, l1, l', -, h3, -, -, h5, -, h2⟩
    · rw [h2, h1]; rfl
    · rw [h2, h1]; simp [hd.1, h1]
    · rw [h2, h1]; simp [hd.1, h1, isReport]
  | stored i r =>
    cases h
    obtain ⟨g1, g2, g3, g4⟩ := storeDone_rest s i r
    refine ⟨by unfold wantsNow; rw [g3]; rfl, ?_, by simp [g2, reports]⟩
    unfold Node.storeDone
    simp only
    split
    · rfl
    · simp only; split <;> rfl

theorem reports_cons (o : Op P) (ops : List (Op P)) (asked : List P) (w : Cid → Bool) :
    reports asked w (o :: ops) = reports asked w [o] ++ reports (askedNext asked o) (wantsNext w o) ops := by
  cases o with
  | connect p => simp only [reports, wantsNext, askedNext]; split <;> simp [*]
  | received p m => simp [reports, askedNext]
  | _ => simp [reports, askedNext]

/-- **C59**: whatever happens, what the behaviour hands out besides messages, followed by what still waits in its
queue, is what was waiting followed by the reports for what happened: nothing is lost, repeated or reordered. -/
theorem C59_reports (ops : List (Op P)) : ∀ (s s' : Node P) (acts : List (Action P)), s.run ops = some (acts, s') →
    (acts ++ s'.bs.events).filter isReport = s.bs.events.filter isReport ++ reports s.bs.targets (wantsNow s) ops := by
  induction ops with
  | nil => intro s s' acts h; cases h; simp [reports]
  | cons o ops ih =>
    intro s s' acts h
    simp only [Node.run] at h
    split at h
    · cases h
    · rename_i a s1 h1
      obtain ⟨r, hr', he⟩ := Option.map_eq_some_iff.mp h
      cases he
      obtain ⟨r1, r2, r3⟩ := report_step h1
      have hi := ih s1 r.2 r.1 hr'
      rw [List.append_assoc, List.filter_append, hi, r1, r2, ← List.append_assoc, ← List.filter_append, r3,
        List.append_assoc, ← reports_cons]

/-- The same from the start. -/
theorem C59_started (ops : List (Op P)) (s : Node P) (acts : List (Action P)) (h : ({} : Node P).run ops = some (acts, s)) :
    (acts ++ s.bs.events).filter isReport = reports [] (fun _ => false) ops := C59_reports ops {} s acts h

theorem reports_dials (p : P) (ops : List (Op P)) : ∀ (asked : List P) (w : Cid → Bool),
    (reports asked w ops).count (.dial p) = if p ∈ asked then 0 else if ops.any (fun o => match o with
      | .connect q => decide (q = p)
      | _ => false) then 1 else 0 := by
  have nod : ∀ {α : Type} (f : α → Event P) (l : List α), (l.map (fun x => Action.generate (f x))).count (Action.dial p) = 0 := by
    intro α f l
    rw [List.count_eq_zero]
    intro hm
    obtain ⟨x, -, hx⟩ := List.mem_map.1 hm
    cases hx
  induction ops with
  | nil => intro asked w; simp [reports]
  | cons o ops ih =>
    intro asked w
    cases o with
    | connect q =>
      simp only [reports, List.any_cons]
      by_cases hq : q ∈ asked
      · rw [if_pos hq, ih]
        by_cases hp : p ∈ asked
        · rw [if_pos hp, if_pos hp]
        · have : q ≠ p := by rintro rfl; exact hp hq
          simp [hp, this]
      · rw [if_neg hq, List.count_cons, ih]
        by_cases hqp : q = p
        · subst hqp; simp [hq]
        · have h1 : ¬ p = q := fun h => hqp h.symm
          simp [hqp, h1]
    | received q m =>
      simp only [reports, List.count_append, nod, ih, List.any_cons, Bool.false_or, Nat.zero_add]
    | _ => simp only [reports, ih, List.any_cons, Bool.false_or]

/-- **C59**: a peer is dialled once, however often a connection to it is asked for, and even if it fails. -/
theorem C59_dials (ops : List (Op P)) (s : Node P) (acts : List (Action P)) (h : ({} : Node P).run ops = some (acts, s)) (p : P)
    (hp : ∃ o ∈ ops, o = .connect p) : ((acts ++ s.bs.events).filter isReport).count (.dial p) = 1 := by
  rw [C59_started ops s acts h, reports_dials, if_neg (by simp), if_pos]
  obtain ⟨o, ho, rfl⟩ := hp
  exact List.any_eq_true.2 ⟨_, ho, by simp⟩

example : (({} : Node Nat).run [.connect 4, .established 1, .want exWantA 1, .connect 4,
    .received 1 { want := [(exWantA, 2), (exWantB, 3)], cancel := [exWantB], blocks := [⟨exWantA, [1]⟩] }, .poll [], .poll [],
    .received 1 { want := [(exWantA, 5)] }]).map (fun r => (r.1 ++ r.2.bs.events).filter isReport) =
    some [.dial 4, .generate (.cancel 1 exWantB), .generate (.want 1 exWantB 3), .generate (.block 1 ⟨exWantA, [1]⟩),
      .generate (.want 1 exWantA 5)] := by decide +kernel

/-! ### C60 -/

/-- The blocks for a peer that are not yet handed out. -/
def blocksLeft (p : P) (s : Node P) : List Block :=
  blocksIn (messagesTo p s.bs.events) ++ ((s.bs.peers.get p).map (fun l => l.message.blocks)).getD [] ++ readyFor p s.bs.ready

theorem cancelAll_blocks (bs : List Block) : ∀ l : Ledger, (cancelAll bs l).message.blocks = l.message.blocks := by
  induction bs with
  | nil => intro l; rfl
  | cons b bs ih => intro l; exact (ih (l.cancelBlock b.cid)).trans rfl

omit [DecidableEq P] in
theorem blocksIn_append (a b : List Message) : blocksIn (a ++ b) = blocksIn a ++ blocksIn b := List.flatMap_append

theorem sent_step {p : P} {s s' : Node P} {a : Option (Action P)} {o : Op P} (hc : (s.bs.peers.get p).isSome)
    (ho : o ≠ .established p ∧ o ≠ .closed p) (h : s.step o = some (a, s')) :
    (s'.bs.peers.get p).isSome ∧
    blocksIn (messagesTo p a.toList) ++ blocksLeft p s' = blocksLeft p s ++ queuedFor p [o] := by
  obtain ⟨l, hl⟩ := Option.isSome_iff_exists.1 hc
  cases o with
  | connect q =>
    cases h
    simp only [connect, queuedFor]
    split
    · simp [hl, blocksIn, messagesTo]
    · simp [hl, blocksIn, messagesTo, blocksLeft, messagesTo_append]
  | want c pr =>
    cases h
    simp [wantBlock, get_mapVals, hl, blocksLeft, queuedFor, blocksIn, messagesTo, Ledger.wantBlock, Message.wantBlock]
  | cancel c =>
    cases h
    simp [cancelBlock, get_mapVals, hl, blocksLeft, queuedFor, blocksIn, messagesTo, Ledger.cancelBlock, Message.cancelBlock]
  | established q =>
    cases h
    have hpq : p ≠ q := by rintro rfl; exact ho.1 rfl
    simp only [established_eq, blocksLeft, AMap.get_set, if_neg hpq, messagesTo_append, queuedFor]
    refine ⟨hc, ?_⟩
    have : messagesTo p (if s.bs.wanted.isEmpty = true then [] else [Action.notify q (wantAll s.bs.wanted)]) = [] := by
      split <;> simp [messagesTo, Ne.symm hpq]
    rw [this]
    simp [messagesTo, blocksIn]
  | closed q =>
    cases h
    have hpq : p ≠ q := by rintro rfl; exact ho.2 rfl
    simp only [closed, blocksLeft, AMap.get_erase, if_neg hpq, queuedFor]
    exact ⟨hc, by simp [messagesTo, blocksIn]⟩
  | received q m =>
    simp only [Node.step, received_eq, Option.map_map, Option.map_eq_some_iff] at h
    obtain ⟨l0, hl0, he⟩ := h
    cases he
    have hgen : ∀ {α : Type} (f : α → Event P) (xs : List α), messagesTo p (xs.map (fun x => Action.generate (f x))) = [] :=
      fun f xs => messagesTo_map_nil p _ (by intros; simp) xs
    simp only [get_mapVals, AMap.get_set, blocksLeft, messagesTo_append, hgen, queuedFor,
      List.append_nil, Option.toList_none, messagesTo]
    refine ⟨?_, ?_⟩
    · split <;> simp [hl]
    · split
      · next hpq => subst hpq; rw [hl] at hl0; cases hl0; simp [blocksIn, cancelAll_blocks, hl]
      · simp [blocksIn, cancelAll_blocks, hl]
  | queue q b =>
    cases h
    refine ⟨hc, ?_⟩
    simp only [blocksLeft, readyFor, List.filter_append, List.map_append, queuedFor, Option.toList_none, messagesTo]
    by_cases hq : q = p <;> simp [hq, blocksIn]
  | poll order =>
    obtain ⟨ha, hb, -⟩ := pollStep h
    have hd := drain_rest s.bs
    have hdl : s.bs.drain.peers.get p = some (addAll (readyFor p s.bs.ready) l) := by rw [drain_get, hl]; rfl
    have hab : (addAll (readyFor p s.bs.ready) l).message.blocks = l.message.blocks ++ readyFor p s.bs.ready := by rw [addAll_eq]
    have hr0 : readyFor p ([] : List (P × Block)) = [] := rfl
    rw [ha]
    simp only [blocksLeft, hb, queuedFor, List.append_nil, hl, Option.map_some, Option.getD_some]
    rcases poll_cases s.bs order with ⟨e, es, h1, h2⟩ | ⟨h1, h2, -⟩ | ⟨h1, q, l1, l', -, h3, -, -, h5, -, h2⟩
    · rw [h2, h1]
      simp only [hdl, hd.2.2.2.1, hr0, Option.map_some, Option.getD_some, hab, Option.toList_some, Option.isSome_some]
      rw [show e :: es = [e] ++ es from rfl, messagesTo_append, blocksIn_append]
      exact ⟨trivial, by simp⟩
    · rw [h2, h1]
      simp only [hdl, hd.1, h1, hd.2.2.2.1, hr0, Option.map_some, Option.getD_some, hab, Option.isSome_some]
      exact ⟨trivial, by simp [messagesTo, blocksIn]⟩
    · rw [h2, h1]
      simp only [hd.1, h1, hd.2.2.2.1, hr0, AMap.get_set]
      by_cases hq : p = q
      · subst hq
        rw [hdl] at h3; cases h3
        simp [messagesTo, blocksIn, h5, hab]
      · simp [hq, Ne.symm hq, messagesTo, blocksIn, hdl, hab]
  | stored i r =>
    cases h
    obtain ⟨g1, g2, g3, g4⟩ := storeDone_rest s i r
    refine ⟨by rw [g1]; exact hc, ?_⟩
    simp [blocksLeft, g1, g2, g4, messagesTo, blocksIn, queuedFor]

theorem queuedFor_cons (p : P) (o : Op P) (ops : List (Op P)) : queuedFor p (o :: ops) = queuedFor p [o] ++ queuedFor p ops := by
  cases o with
  | queue q b => simp only [queuedFor]; split <;> simp
  | _ => rfl

/-- **C60**: while a peer stays connected, the blocks in the messages handed out for it, followed by those not yet
handed out, are those that were there followed by those queued: each block is sent once, in order. -/
theorem C60_sent (p : P) (ops : List (Op P)) : ∀ (s s' : Node P) (acts : List (Action P)), (s.bs.peers.get p).isSome →
    Stays p ops → s.run ops = some (acts, s') →
    blocksIn (messagesTo p acts) ++ blocksLeft p s' = blocksLeft p s ++ queuedFor p ops := by
  induction ops with
  | nil => intro s s' acts _ _ h; cases h; simp [messagesTo, blocksIn, queuedFor]
  | cons o ops ih =>
    intro s s' acts hc hst h
    simp only [Node.run] at h
    split at h
    · cases h
    · rename_i a s1 h1
      obtain ⟨r, hr', he⟩ := Option.map_eq_some_iff.mp h
      cases he
      obtain ⟨h2, h3⟩ := sent_step hc (hst o List.mem_cons_self) h1
      have := ih s1 r.2 r.1 h2 (fun o ho => hst o (List.mem_cons_of_mem _ ho)) hr'
      rw [messagesTo_append, blocksIn_append, List.append_assoc, this, ← List.append_assoc, h3, List.append_assoc, ← queuedFor_cons]

/-- **C60**: from the connection on, once `poll` has nothing more to hand out, exactly the blocks queued for the peer
were sent, in order. -/
theorem C60_all_sent (p : P) (ops : List (Op P)) (s s' : Node P) (acts : List (Action P)) (order : List P)
    (he : messagesTo p s.bs.events = []) (hr0 : readyFor p s.bs.ready = []) (hst : Stays p ops) (h : s.run (.established p :: ops) = some (acts, s'))
    (hend : (s'.bs.poll order).1 = none) (hp : p ∈ order) : blocksIn (messagesTo p acts) = queuedFor p ops := by
  simp only [Node.run, Node.step] at h
  obtain ⟨r, hr', hx⟩ := Option.map_eq_some_iff.mp h
  cases hx
  have hc : (({ s with bs := s.bs.established p } : Node P).bs.peers.get p).isSome := by
    simp only [established_eq, AMap.get_set, if_true, Option.isSome_some]
  have key := C60_sent p ops _ _ _ hc hst hr'
  have hl0 : blocksLeft p ({ s with bs := s.bs.established p } : Node P) = [] := by
    simp only [blocksLeft, established_eq, AMap.get_set, if_true, Option.map_some, Option.getD_some, messagesTo_append, he, hr0]
    split
    · simp [messagesTo, blocksIn]
    · simp [messagesTo, blocksIn, wantAll_eq]
  have hc' : (r.2.bs.peers.get p).isSome := by
    have aux : ∀ (ops : List (Op P)) (t t' : Node P) (acts : List (Action P)), (t.bs.peers.get p).isSome → Stays p ops →
        t.run ops = some (acts, t') → (t'.bs.peers.get p).isSome := by
      intro ops
      induction ops with
      | nil => intro t t' acts hc _ h; cases h; exact hc
      | cons o ops ih =>
        intro t t' acts hc hst h
        simp only [Node.run] at h
        split at h
        · cases h
        · rename_i a t1 h1
          obtain ⟨r, hr', he⟩ := Option.map_eq_some_iff.mp h
          cases he
          exact ih t1 r.2 r.1 (sent_step hc (hst o List.mem_cons_self) h1).1 (fun o ho => hst o (List.mem_cons_of_mem _ ho)) hr'
    exact aux ops _ _ _ hc hst hr'
  obtain ⟨l, hl⟩ := Option.isSome_iff_exists.1 hc'
  have hleft : blocksLeft p r.2 = [] := by
    simp only [blocksLeft, hl, Option.map_some, Option.getD_some]
    rcases poll_cases r.2.bs order with ⟨e, es, h1, h2⟩ | ⟨h1, h2, h3⟩ | ⟨h1, q, l1, l', -, h3, -, -, h5, -, h2⟩
    · rw [h2] at hend; cases hend
    · have := firstToSend_none _ _ h3 hp (by rw [drain_get, hl]; rfl)
      rw [addAll_eq] at this
      simp only [Message.isEmpty, Bool.and_eq_true, List.isEmpty_iff] at this
      rw [h1, List.append_assoc, this.2]
      rfl
    · rw [h2] at hend; cases hend
  rw [hl0, hleft] at key
  simpa using key

/-- A block queued for a peer that is not connected is dropped with the next `poll`. -/
theorem C60_dropped (p : P) (s : Bitswap P) (order : List P) (hn : s.peers.get p = none) :
    ((s.poll order).2).peers.get p = none ∧ ((s.poll order).2).ready = [] := by
  have hd := drain_rest s
  have hdl : s.drain.peers.get p = none := by rw [drain_get, hn]; rfl
  rcases poll_cases s order with ⟨e, es, h1, h2⟩ | ⟨h1, h2, -⟩ | ⟨h1, q, l1, l', -, h3, -, -, h5, -, h2⟩
  · rw [h2]; exact ⟨hdl, hd.2.2.2.1⟩
  · rw [h2]; exact ⟨hdl, hd.2.2.2.1⟩
  · rw [h2]
    refine ⟨?_, hd.2.2.2.1⟩
    simp only [AMap.get_set]
    rw [if_neg (by rintro rfl; rw [hdl] at h3; cases h3)]
    exact hdl

example : (({} : Node Nat).run [.established 1, .queue 1 ⟨exWantA, [1]⟩, .queue 2 ⟨exWantB, [2]⟩, .want exWantA 1, .queue 1 ⟨exWantB, [2]⟩, .poll [1],
    .queue 1 ⟨exWantA, [1]⟩, .poll [1]]).map (fun r => (blocksIn (messagesTo 1 r.1), blocksIn (messagesTo 2 r.1), (r.2.bs.poll [1]).1.isNone)) =
    some ([⟨exWantA, [1]⟩, ⟨exWantB, [2]⟩, ⟨exWantA, [1]⟩], [], true) := by decide +kernel

end Verif.Props
