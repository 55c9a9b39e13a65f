import Verif.Props.BitswapStats

/-!
# C40: what one peer wants and what the other records
-/

namespace Verif.Props

open Verif Verif.Bitswap
open Verif.Bitswap.Bitswap
open Verif.Repo (Block BlockPut)

variable {P : Type} [DecidableEq P]

/-! ### Specification -/

/-- The messages for a peer among actions, in order. -/
def messagesTo (b : P) : List (Action P) → List Message
  | [] => []
  | .notify p m :: as => if p = b then m :: messagesTo b as else messagesTo b as
  | _ :: as => messagesTo b as

/-- The messages from a peer among what happens, in order. -/
def messagesFrom (a : P) : List (Op P) → List Message
  | [] => []
  | .received p m :: os => if p = a then m :: messagesFrom a os else messagesFrom a os
  | _ :: os => messagesFrom a os

/-- The connection to the peer stays as it is. -/
def Stays (b : P) (ops : List (Op P)) : Prop := ∀ o ∈ ops, o ≠ .established b ∧ o ≠ .closed b

/-- The cids an operation stops wanting. -/
def stopsWanting : Op P → List Cid
  | .cancel c => [c]
  | .received _ m => m.blocks.map Block.cid
  | _ => []

/-- Nothing is cancelled that was wanted in the message to this peer that is still being put together. -/
def NoQuickCancel (b : P) (s : Node P) : List (Op P) → Prop
  | [] => True
  | o :: os => (∀ c ∈ stopsWanting o, ∀ l, s.bs.peers.get b = some l → l.message.want.get c = none) ∧
    ∀ a s', s.step o = some (a, s') → NoQuickCancel b s' os

/-! ### Helpers -/

/-- What is recorded after a message. -/
def heard (r : Cid → Option Int) (m : Message) : Cid → Option Int := fun c =>
  (m.want.get c).or (if c ∈ m.cancel then none else r c)

/-- What is recorded after messages. -/
def heardAll (r : Cid → Option Int) (ms : List Message) : Cid → Option Int := ms.foldl heard r

theorem heardAll_append (r : Cid → Option Int) (a b : List Message) : heardAll r (a ++ b) = heardAll (heardAll r a) b := by
  simp [heardAll]

theorem heard_empty (r : Cid → Option Int) : heard r {} = r := by
  funext c; simp [heard, AMap.get]

theorem messagesTo_append (b : P) (x y : List (Action P)) : messagesTo b (x ++ y) = messagesTo b x ++ messagesTo b y := by
  induction x with
  | nil => rfl
  | cons a x ih =>
    cases a with
    | notify p m => simp only [List.cons_append, messagesTo, ih]; split <;> simp
    | _ => simpa [messagesTo] using ih

theorem messagesTo_map_nil {α : Type} (b : P) (f : α → Action P) (h : ∀ x p m, f x ≠ .notify p m) (l : List α) :
    messagesTo b (l.map f) = [] := by
  induction l with
  | nil => rfl
  | cons x l ih =>
    rw [List.map_cons]
    cases hx : f x with
    | notify p m => exact absurd hx (h x p m)
    | _ => simpa [messagesTo] using ih

theorem cancelAll_message (bs : List Block) : ∀ l : Ledger, (cancelAll bs l).message.want = l.message.want ∧
    ∀ c, c ∈ (cancelAll bs l).message.cancel ↔ c ∈ l.message.cancel ∨ c ∈ bs.map Block.cid := by
  induction bs with
  | nil => intro l; simp [cancelAll]
  | cons b bs ih =>
    intro l
    have h := ih (l.cancelBlock b.cid)
    have he : cancelAll (b :: bs) l = cancelAll bs (l.cancelBlock b.cid) := rfl
    rw [he]
    refine ⟨h.1, ?_⟩
    intro c
    rw [h.2]
    simp only [Ledger.cancelBlock, Message.cancelBlock, List.map_cons, List.mem_cons]
    split
    · rename_i hm
      constructor
      · rintro (h | h)
        · exact Or.inl h
        · exact Or.inr (Or.inr h)
      · rintro (h | rfl | h)
        · exact Or.inl h
        · exact Or.inl hm
        · exact Or.inr h
    · simp only [List.mem_append, List.mem_singleton]
      constructor
      · rintro ((h | rfl) | h)
        · exact Or.inl h
        · exact Or.inr (Or.inl rfl)
        · exact Or.inr (Or.inr h)
      · rintro (h | rfl | h)
        · exact Or.inl (Or.inl h)
        · exact Or.inl (Or.inr rfl)
        · exact Or.inr h

theorem wanted_after_blocks (bs : List Block) (w : AMap Cid Int) (c : Cid) :
    (bs.foldl (fun w b => w.erase b.cid) w).get c = if c ∈ bs.map Block.cid then none else w.get c := by
  have : bs.foldl (fun w b => w.erase b.cid) w = (bs.map Block.cid).foldl (fun w c => w.erase c) w := by rw [List.foldl_map]
  rw [this, foldl_erase_get]

theorem uniq_after_blocks (bs : List Block) : ∀ (w : AMap Cid Int), AMap.Uniq w → AMap.Uniq (bs.foldl (fun w b => w.erase b.cid) w) := by
  induction bs with
  | nil => intro w h; exact h
  | cons b bs ih => intro w h; exact ih _ (h.erase _)

theorem wantAll_get (w : AMap Cid Int) (h : AMap.Uniq w) (c : Cid) : (wantAll w).want.get c = w.get c := by
  rw [wantAll_eq]; simp only; rw [foldl_set_get w h]; simp [AMap.get]

theorem uniq_foldl_set (w : AMap Cid Int) : ∀ r : AMap Cid Int, AMap.Uniq r → AMap.Uniq (w.foldl (fun m e => m.set e.1 e.2) r) := by
  induction w with
  | nil => intro r h; exact h
  | cons e w ih => intro r h; exact ih _ (h.set _ _)

/-- The wanting side: what the messages handed out, the queued ones and the one being put together say. -/
structure WantInv (b : P) (exact_ : Bool) (s : Node P) (sent : List Message) : Prop where
  wanted : AMap.Uniq s.bs.wanted
  sentU : ∀ m ∈ sent, AMap.Uniq m.want
  queuedU : ∀ m ∈ messagesTo b s.bs.events, AMap.Uniq m.want
  ledger : ∃ l, s.bs.peers.get b = some l ∧ AMap.Uniq l.message.want ∧
    (∀ c pr, s.bs.wanted.get c = some pr → heardAll (fun _ => none) (sent ++ messagesTo b s.bs.events ++ [l.message]) c = some pr) ∧
    (exact_ = true → ∀ c, heardAll (fun _ => none) (sent ++ messagesTo b s.bs.events ++ [l.message]) c = s.bs.wanted.get c)

theorem WantInv.step {b : P} {x : Bool} {s s' : Node P} {a : Option (Action P)} {sent : List Message} (h : WantInv b x s sent)
    (o : Op P) (ho : o ≠ .established b ∧ o ≠ .closed b)
    (hq : x = true → ∀ c ∈ stopsWanting o, ∀ l, s.bs.peers.get b = some l → l.message.want.get c = none)
    (hs : s.step o = some (a, s')) : WantInv b x s' (sent ++ messagesTo b a.toList) := by
  obtain ⟨l, hl, hlu, hsup, hex⟩ := h.ledger
  -- the common case: the view and the wants are as before
  have same : ∀ l', s'.bs.wanted = s.bs.wanted → messagesTo b a.toList = [] → messagesTo b s'.bs.events = messagesTo b s.bs.events →
      s'.bs.peers.get b = some l' → l'.message.want = l.message.want → l'.message.cancel = l.message.cancel →
      WantInv b x s' (sent ++ messagesTo b a.toList) := by
    intro l' h1 h2 h3 h4 h5 h6
    have hh : ∀ r, heard r l'.message = heard r l.message := by intro r; funext c; simp only [heard, h5, h6]
    have hv : heardAll (fun _ => none) (sent ++ messagesTo b s'.bs.events ++ [l'.message]) =
        heardAll (fun _ => none) (sent ++ messagesTo b s.bs.events ++ [l.message]) := by
      rw [h3, heardAll_append, heardAll_append _ _ [l.message]]
      exact hh _
    rw [h2, List.append_nil]
    refine ⟨h1 ▸ h.wanted, h.sentU, h3 ▸ h.queuedU, l', h4, h5 ▸ hlu, ?_, ?_⟩
    · rw [hv, h1]; exact hsup
    · rw [hv, h1]; exact hex
  cases o with
  | connect p =>
    cases hs
    refine same l ?_ rfl ?_ ?_ rfl rfl
    · simp only [connect]; split <;> rfl
    · simp only [connect]; split
      · rfl
      · rw [messagesTo_append]; simp [messagesTo]
    · simp only [connect]; split <;> exact hl
  | want c pr =>
    cases hs
    simp only [Option.toList_none, messagesTo, List.append_nil]
    have hv : ∀ c', heardAll (fun _ => none) (sent ++ messagesTo b s.bs.events ++ [(l.wantBlock c pr).message]) c' =
        if c' = c then some pr else heardAll (fun _ => none) (sent ++ messagesTo b s.bs.events ++ [l.message]) c' := by
      intro c'
      rw [heardAll_append, heardAll_append _ _ [l.message]]
      generalize heardAll (fun _ => none) (sent ++ messagesTo b s.bs.events) = r
      simp only [heardAll, List.foldl_cons, List.foldl_nil, heard, Ledger.wantBlock, Message.wantBlock, AMap.get_set]
      split <;> rfl
    refine ⟨h.wanted.set _ _, h.sentU, h.queuedU, l.wantBlock c pr, ?_, hlu.set _ _, ?_, ?_⟩
    · simp only [wantBlock, get_mapVals, hl, Option.map_some]
    · intro c' pr' hc'
      simp only [wantBlock, AMap.get_set] at hc'
      simp only [wantBlock]
      rw [hv c']
      split at hc'
      · rename_i hcc; rw [if_pos hcc]; exact hc'
      · rename_i hcc; rw [if_neg hcc]; exact hsup c' pr' hc'
    · intro hx c'
      simp only [wantBlock, AMap.get_set]
      rw [hv c', hex hx c']
  | cancel c =>
    cases hs
    simp only [Option.toList_none, messagesTo, List.append_nil]
    have hmem : ∀ c', c' ∈ (l.cancelBlock c).message.cancel ↔ c' ∈ l.message.cancel ∨ c' = c := by
      intro c'
      simp only [Ledger.cancelBlock, Message.cancelBlock]
      split
      · rename_i hm
        constructor
        · exact Or.inl
        · rintro (h | rfl)
          · exact h
          · exact hm
      · simp
    have hv : ∀ c', heardAll (fun _ => none) (sent ++ messagesTo b s.bs.events ++ [(l.cancelBlock c).message]) c' =
        if c' = c then l.message.want.get c else heardAll (fun _ => none) (sent ++ messagesTo b s.bs.events ++ [l.message]) c' := by
      intro c'
      rw [heardAll_append, heardAll_append _ _ [l.message]]
      generalize heardAll (fun _ => none) (sent ++ messagesTo b s.bs.events) = r
      simp only [heardAll, List.foldl_cons, List.foldl_nil, heard, hmem]
      by_cases hc : c' = c
      · subst hc; simp [Ledger.cancelBlock, Message.cancelBlock]
      · simp [hc, Ledger.cancelBlock, Message.cancelBlock]
    refine ⟨h.wanted.erase _, h.sentU, h.queuedU, l.cancelBlock c, ?_, hlu, ?_, ?_⟩
    · simp only [cancelBlock, get_mapVals, hl, Option.map_some]
    · intro c' pr' hc'
      simp only [cancelBlock, AMap.get_erase] at hc'
      simp only [cancelBlock]
      rw [hv c']
      split at hc'
      · cases hc'
      · rename_i hcc; rw [if_neg hcc]; exact hsup c' pr' hc'
    · intro hx c'
      simp only [cancelBlock, AMap.get_erase]
      rw [hv c', hq hx c List.mem_cons_self l hl, hex hx c']
  | established p =>
    cases hs
    have hpb : b ≠ p := by rintro rfl; exact ho.1 rfl
    refine same l ?_ rfl ?_ ?_ rfl rfl
    · rw [established_eq]
    · rw [established_eq, messagesTo_append]
      split
      · simp [messagesTo]
      · simp [messagesTo, Ne.symm hpb]
    · rw [established_eq]; simp only [AMap.get_set, if_neg hpb]; exact hl
  | closed p =>
    cases hs
    have hpb : b ≠ p := by rintro rfl; exact ho.2 rfl
    refine same l rfl rfl rfl ?_ rfl rfl
    simp only [closed, AMap.get_erase, if_neg hpb]; exact hl
  | received p m =>
    simp only [Node.step, received_eq, Option.map_map, Option.map_eq_some_iff] at hs
    obtain ⟨l0, hl0, he⟩ := hs
    cases he
    simp only [Option.toList_none, messagesTo, List.append_nil]
    have hev : messagesTo b (s.bs.events ++ m.cancel.map (fun c => Action.generate (.cancel p c)) ++
        (s.bs.freshWants m).map (fun e => Action.generate (.want p e.1 e.2)) ++
        m.blocks.map (fun b => Action.generate (.block p b))) = messagesTo b s.bs.events := by
      rw [messagesTo_append, messagesTo_append, messagesTo_append, messagesTo_map_nil b _ (by intros; simp),
        messagesTo_map_nil b _ (by intros; simp), messagesTo_map_nil b _ (by intros; simp)]
      simp
    -- the ledger of `b` with the cancels, up to what was received
    obtain ⟨l1, hl1, hl1m⟩ : ∃ l1, (s.bs.peers.set p { l0 with received := (s.bs.freshWants m).foldl (fun r e => r.set e.1 e.2) (m.cancel.foldl (fun r c => r.erase c) l0.received) }).get b = some l1 ∧ l1.message = l.message := by
      rw [AMap.get_set]
      split
      · rename_i hbp; subst hbp
        rw [hl] at hl0; cases hl0
        exact ⟨_, rfl, rfl⟩
      · exact ⟨l, hl, rfl⟩
    have hm := cancelAll_message m.blocks l1
    have hv : ∀ c', heardAll (fun _ => none) (sent ++ messagesTo b s.bs.events ++ [(cancelAll m.blocks l1).message]) c' =
        if c' ∈ m.blocks.map Block.cid then l.message.want.get c' else heardAll (fun _ => none) (sent ++ messagesTo b s.bs.events ++ [l.message]) c' := by
      intro c'
      rw [heardAll_append, heardAll_append _ _ [l.message]]
      generalize heardAll (fun _ => none) (sent ++ messagesTo b s.bs.events) = r
      simp only [heardAll, List.foldl_cons, List.foldl_nil, heard, hm.2, hm.1, hl1m]
      by_cases hc : c' ∈ m.blocks.map Block.cid
      · simp [hc]
      · simp only [hc, or_false, if_false]
    refine ⟨uniq_after_blocks _ _ h.wanted, h.sentU, ?_, cancelAll m.blocks l1, ?_, ?_, ?_, ?_⟩
    · simp only [hev]; exact h.queuedU
    · simp only [get_mapVals, hl1, Option.map_some]
    · rw [hm.1, hl1m]; exact hlu
    · intro c' pr' hc'
      simp only [wanted_after_blocks] at hc'
      simp only [hev]
      rw [hv c']
      split at hc'
      · cases hc'
      · rename_i hcc; rw [if_neg hcc]; exact hsup c' pr' hc'
    · intro hx c'
      simp only [hev, wanted_after_blocks]
      rw [hv c', hex hx c']
      by_cases hc : c' ∈ m.blocks.map Block.cid
      · rw [if_pos hc, if_pos hc]; exact hq hx c' hc l hl
      · rw [if_neg hc, if_neg hc]
  | queue p blk => cases hs; exact same l rfl rfl rfl hl rfl rfl
  | poll order =>
    obtain ⟨ha, hb, -⟩ := pollStep hs
    have hd := drain_rest s.bs
    have hdl : s.bs.drain.peers.get b = some (addAll (readyFor b s.bs.ready) l) := by rw [drain_get, hl]; rfl
    have hdw : (addAll (readyFor b s.bs.ready) l).message.want = l.message.want ∧ (addAll (readyFor b s.bs.ready) l).message.cancel = l.message.cancel := by
      rw [addAll_eq]; exact ⟨rfl, rfl⟩
    rcases poll_cases s.bs order with ⟨e, es, h1, h2⟩ | ⟨h1, h2, -⟩ | ⟨h1, p, l1, l', -, h3, -, -, h5, -, h2⟩
    · by_cases hn : messagesTo b [e] = []
      · refine same (addAll (readyFor b s.bs.ready) l) ?_ ?_ ?_ ?_ hdw.1 hdw.2
        · rw [hb, h2]; exact hd.2.2.1
        · rw [ha, h2]; exact hn
        · rw [hb, h2, h1, show e :: es = [e] ++ es from rfl, messagesTo_append, hn]; rfl
        · rw [hb, h2]; exact hdl
      · obtain ⟨m, hm⟩ : ∃ m, messagesTo b [e] = [m] := by
          cases e with
          | notify p m =>
            simp only [messagesTo] at hn ⊢
            by_cases hp : p = b
            · exact ⟨m, by rw [if_pos hp]⟩
            · rw [if_neg hp] at hn; exact absurd rfl hn
          | _ => exact absurd rfl hn
        have hm2 : messagesTo b s.bs.events = m :: messagesTo b es := by
          rw [h1, show e :: es = [e] ++ es from rfl, messagesTo_append, hm]; rfl
        have hw : s'.bs.wanted = s.bs.wanted := by rw [hb, h2]; exact hd.2.2.1
        have hev : s'.bs.events = es := by rw [hb, h2]
        have ham : messagesTo b a.toList = [m] := by rw [ha, h2]; exact hm
        have hv : heardAll (fun _ => none) (sent ++ [m] ++ messagesTo b es ++ [(addAll (readyFor b s.bs.ready) l).message]) =
            heardAll (fun _ => none) (sent ++ messagesTo b s.bs.events ++ [l.message]) := by
          rw [hm2, List.append_assoc sent, List.singleton_append, heardAll_append, heardAll_append _ _ [l.message]]
          funext c
          simp only [heardAll, List.foldl_cons, List.foldl_nil, heard, hdw.1, hdw.2]
        rw [ham]
        refine ⟨hw ▸ h.wanted, ?_, ?_, addAll (readyFor b s.bs.ready) l, ?_, ?_, ?_, ?_⟩
        · intro m' hm'
          rcases List.mem_append.mp hm' with hm' | hm'
          · exact h.sentU m' hm'
          · simp only [List.mem_singleton] at hm'
            exact h.queuedU m' (by rw [hm2, hm']; exact List.mem_cons_self)
        · rw [hev]; intro m' hm'; exact h.queuedU m' (by rw [hm2]; exact List.mem_cons_of_mem _ hm')
        · rw [hb, h2]; exact hdl
        · rw [hdw.1]; exact hlu
        · rw [hev, hv, hw]; exact hsup
        · rw [hev, hv, hw]; exact hex
    · refine same (addAll (readyFor b s.bs.ready) l) ?_ ?_ ?_ ?_ hdw.1 hdw.2
      · rw [hb, h2]; exact hd.2.2.1
      · rw [ha, h2]; rfl
      · rw [hb, h2, hd.1]
      · rw [hb, h2]; exact hdl
    · by_cases hpb : p = b
      · subst hpb
        rw [hdl] at h3; cases h3
        have hw : s'.bs.wanted = s.bs.wanted := by rw [hb, h2]; exact hd.2.2.1
        have hev : s'.bs.events = [] := by rw [hb, h2]; exact hd.1.trans h1
        have ham : messagesTo p a.toList = [(addAll (readyFor p s.bs.ready) l).message] := by
          rw [ha, h2]; simp [messagesTo]
        have hv : heardAll (fun _ => none) (sent ++ [(addAll (readyFor p s.bs.ready) l).message] ++ [] ++ [l'.message]) =
            heardAll (fun _ => none) (sent ++ messagesTo p s.bs.events ++ [l.message]) := by
          rw [h1, h5, heardAll_append _ _ [{}], List.append_nil, heardAll_append, heardAll_append _ _ [l.message]]
          simp only [messagesTo, List.append_nil]
          funext c
          simp only [heardAll, List.foldl_cons, List.foldl_nil, heard_empty]
          simp only [heard, hdw.1, hdw.2]
        rw [ham]
        refine ⟨hw ▸ h.wanted, ?_, ?_, l', ?_, ?_, ?_, ?_⟩
        · intro m' hm'
          rcases List.mem_append.mp hm' with hm' | hm'
          · exact h.sentU m' hm'
          · simp only [List.mem_singleton] at hm'
            rw [hm', hdw.1]; exact hlu
        · rw [hev]; intro m' hm'; cases hm'
        · rw [hb, h2]; simp only [AMap.get_set, if_true]
        · rw [h5]; exact AMap.uniq_nil
        · rw [hev, hw]; simp only [messagesTo]; rw [hv]; exact hsup
        · rw [hev, hw]; simp only [messagesTo]; rw [hv]; exact hex
      · refine same (addAll (readyFor b s.bs.ready) l) ?_ ?_ ?_ ?_ hdw.1 hdw.2
        · rw [hb, h2]; exact hd.2.2.1
        · rw [ha, h2]; simp [messagesTo, hpb]
        · rw [hb, h2]; simp only [hd.1]
        · rw [hb, h2]; simp only [AMap.get_set, if_neg (Ne.symm hpb)]; exact hdl
  | stored i r =>
    cases hs
    obtain ⟨g1, g2, g3, g4⟩ := storeDone_rest s i r
    refine same l g3 rfl (by rw [g2]) (by rw [g1]; exact hl) rfl rfl

theorem WantInv.run {b : P} {x : Bool} (ops : List (Op P)) : ∀ (s s' : Node P) (acts : List (Action P)) (sent : List Message),
    WantInv b x s sent → Stays b ops → (x = true → NoQuickCancel b s ops) → s.run ops = some (acts, s') →
    WantInv b x s' (sent ++ messagesTo b acts) := by
  induction ops with
  | nil => intro s s' acts sent h _ _ hr; cases hr; simpa [messagesTo] using h
  | cons o ops ih =>
    intro s s' acts sent h hst hq hr
    simp only [Node.run] at hr
    split at hr
    · cases hr
    · rename_i a s1 h1
      obtain ⟨r, hr', he⟩ := Option.map_eq_some_iff.mp hr
      cases he
      rw [messagesTo_append, ← List.append_assoc]
      exact ih s1 r.2 r.1 _ (h.step o (hst o List.mem_cons_self) (fun hx => (hq hx).1) h1)
        (fun o ho => hst o (List.mem_cons_of_mem _ ho)) (fun hx => (hq hx).2 a s1 h1) hr'

/-- The start: the connection is established. -/
theorem WantInv.start (b : P) (s : Node P) (hu : AMap.Uniq s.bs.wanted) (he : messagesTo b s.bs.events = []) :
    WantInv b true { s with bs := s.bs.established b } [] := by
  have key : ∀ c, heardAll (fun _ => none) (messagesTo b (s.bs.events ++ (if s.bs.wanted.isEmpty then [] else [.notify b (wantAll s.bs.wanted)])) ++ [({} : Message)]) c = s.bs.wanted.get c := by
    intro c
    rw [messagesTo_append, he]
    cases hw : s.bs.wanted with
    | nil => simp [messagesTo, heardAll, heard, AMap.get]
    | cons e w =>
      simp only [List.isEmpty_cons, Bool.false_eq_true, if_false, messagesTo, if_true, List.nil_append]
      simp only [heardAll, List.singleton_append, List.foldl_cons, List.foldl_nil, heard_empty]
      simp only [heard]
      rw [← hw, wantAll_get _ hu]
      simp
  refine ⟨?_, ?_, ?_, ({} : Ledger), ?_, AMap.uniq_nil, ?_, ?_⟩
  · rw [established_eq]; exact hu
  · intro m hm; cases hm
  · rw [established_eq]
    simp only [messagesTo_append, he, List.nil_append]
    split
    · intro m hm; cases hm
    · intro m hm
      simp only [messagesTo, if_true, List.mem_singleton] at hm
      rw [hm, wantAll_eq]; exact uniq_foldl_set _ _ AMap.uniq_nil
  · rw [established_eq]; simp only [AMap.get_set, if_true]
  · rw [established_eq]; intro c pr hc; simp only [List.nil_append]; rw [key c]; exact hc
  · rw [established_eq]; intro _ c; simp only [List.nil_append]; exact key c

theorem WantInv.weaken {b : P} {x : Bool} {s : Node P} {sent} (h : WantInv b true s sent) : WantInv b x s sent := by
  obtain ⟨h1, h2, h3, l, h4, h5, h6, h7⟩ := h
  exact ⟨h1, h2, h3, l, h4, h5, h6, fun _ => h7 rfl⟩

/-- Nothing is left to be sent to the peer. -/
theorem nothing_left {b : P} {s : Bitswap P} {order : List P} {l : Ledger} (hp : (s.poll order).1 = none) (hb : b ∈ order)
    (hl : s.peers.get b = some l) : s.events = [] ∧ l.message.want = [] ∧ l.message.cancel = [] := by
  rcases poll_cases s order with ⟨e, es, h1, h2⟩ | ⟨h1, h2, h3⟩ | ⟨h1, p, l1, l', -, h3, -, -, h5, -, h2⟩
  · rw [h2] at hp; cases hp
  · refine ⟨h1, ?_⟩
    have := firstToSend_none _ _ h3 hb (by rw [drain_get, hl]; rfl)
    rw [addAll_eq] at this
    simp only [Message.isEmpty, Bool.and_eq_true, List.isEmpty_iff] at this
    exact this.1
  · rw [h2] at hp; cases hp

/-- The recording side. -/
theorem recorded_messages {a : P} (ops : List (Op P)) : ∀ (t t' : Node P) (acts : List (Action P)) (w : AMap Cid Int),
    t.run ops = some (acts, t') → Stays a ops → t.bs.peerWantlist a = some w → AMap.Uniq t.bs.wanted →
    (∀ m ∈ messagesFrom a ops, AMap.Uniq m.want) →
    (∀ m ∈ messagesFrom a ops, ∀ c ∈ m.want.keys, c ∉ t.bs.wanted.keys ∧ ∀ pr, .want c pr ∉ ops) →
    ∃ w', t'.bs.peerWantlist a = some w' ∧ ∀ c, w'.get c = heardAll w.get (messagesFrom a ops) c := by
  induction ops with
  | nil => intro t t' acts w hr _ hw _ _ _; cases hr; exact ⟨w, hw, fun c => rfl⟩
  | cons o ops ih =>
    intro t t' acts w hr hst hw hwu hu hno
    simp only [Node.run] at hr
    split at hr
    · cases hr
    · rename_i x t1 h1
      obtain ⟨r, hr', he⟩ := Option.map_eq_some_iff.mp hr
      cases he
      have hsub : ∀ m, m ∈ messagesFrom a ops → m ∈ messagesFrom a (o :: ops) := by
        intro m hm
        cases o with
        | received p m' => simp only [messagesFrom]; split
                           · exact List.mem_cons_of_mem _ hm
                           · exact hm
        | _ => exact hm
      -- what this side wants itself
      have hwant : AMap.Uniq t1.bs.wanted ∧ ∀ c, c ∈ t1.bs.wanted.keys → c ∈ t.bs.wanted.keys ∨ ∃ pr, o = .want c pr := by
        cases o with
        | connect p =>
          cases h1
          simp only [connect]; split <;> exact ⟨hwu, fun c h => Or.inl h⟩
        | want c pr =>
          cases h1
          refine ⟨hwu.set _ _, fun c' h => ?_⟩
          simp only [wantBlock, AMap.keys_set] at h
          split at h
          · exact Or.inl h
          · rcases List.mem_append.mp h with h | h
            · exact Or.inl h
            · simp only [List.mem_singleton] at h; exact Or.inr ⟨pr, by rw [h]⟩
        | cancel c =>
          cases h1
          refine ⟨hwu.erase _, fun c' h => ?_⟩
          simp only [cancelBlock, AMap.keys_erase, List.mem_filter] at h
          exact Or.inl h.1
        | established p => cases h1; rw [established_eq]; exact ⟨hwu, fun c h => Or.inl h⟩
        | closed p => cases h1; exact ⟨hwu, fun c h => Or.inl h⟩
        | received p m =>
          simp only [Node.step, received_eq, Option.map_map, Option.map_eq_some_iff] at h1
          obtain ⟨l0, hl0, he⟩ := h1
          cases he
          refine ⟨uniq_after_blocks _ _ hwu, fun c' h => Or.inl ?_⟩
          rw [AMap.mem_keys_iff] at h ⊢
          simp only [wanted_after_blocks] at h
          split at h
          · cases h
          · exact h
        | queue p b => cases h1; exact ⟨hwu, fun c h => Or.inl h⟩
        | poll order =>
          obtain ⟨-, hb, -⟩ := pollStep h1
          have : t1.bs.wanted = t.bs.wanted := by
            rw [hb]
            rcases poll_cases t.bs order with ⟨e, es, h1, h2⟩ | ⟨h1, h2, -⟩ | ⟨h1, p, l1, l', -, h3, -, -, h5, -, h2⟩ <;>
              (rw [h2]; exact (drain_rest t.bs).2.2.1)
          rw [this]; exact ⟨hwu, fun c h => Or.inl h⟩
        | stored i r => cases h1; rw [(storeDone_rest t i r).2.2.1]; exact ⟨hwu, fun c h => Or.inl h⟩
      have hno' : ∀ m ∈ messagesFrom a ops, ∀ c ∈ m.want.keys, c ∉ t1.bs.wanted.keys ∧ ∀ pr, .want c pr ∉ ops := by
        intro m hm c hc
        have := hno m (hsub m hm) c hc
        refine ⟨fun hk => ?_, fun pr hp => this.2 pr (List.mem_cons_of_mem _ hp)⟩
        rcases hwant.2 c hk with hk | ⟨pr, rfl⟩
        · exact this.1 hk
        · exact this.2 pr List.mem_cons_self
      have hst' : Stays a ops := fun o ho => hst o (List.mem_cons_of_mem _ ho)
      have hu' := fun m hm => hu m (hsub m hm)
      by_cases hab : About a o
      · cases o with
        | received p m =>
          have hpa : p = a := hab
          subst hpa
          have hmem : m ∈ messagesFrom p (.received p m :: ops) := by simp [messagesFrom]
          obtain ⟨w0, w1, hw0, hw1, hget⟩ := C44_record t t1 x p m (hu m hmem) h1
          rw [hw] at hw0; cases hw0
          obtain ⟨w', h2, h3⟩ := ih t1 r.2 r.1 w1 hr' hst' hw1 hwant.1 hu' hno'
          refine ⟨w', h2, fun c => ?_⟩
          rw [h3]
          simp only [messagesFrom, if_true]
          rw [show heardAll w.get (m :: messagesFrom p ops) = heardAll (heard w.get m) (messagesFrom p ops) from rfl]
          have : w1.get = heard w.get m := by
            funext c
            rw [hget c]
            unfold heard
            cases hg : m.want.get c with
            | none => simp
            | some pr =>
              have := (hno m hmem c ((AMap.mem_keys_iff _ _).mpr (by rw [hg]; rfl))).1
              simp [this]
          rw [this]
        | established p => exact absurd (by rw [show p = a from hab]) (hst _ List.mem_cons_self).1
        | closed p => exact absurd (by rw [show p = a from hab]) (hst _ List.mem_cons_self).2
        | _ => exact hab.elim
      · have hw1 : t1.bs.peerWantlist a = some w := by rw [(step_peers h1 a).2.2.2 hab]; exact hw
        obtain ⟨w', h2, h3⟩ := ih t1 r.2 r.1 w hr' hst' hw1 hwant.1 hu' hno'
        refine ⟨w', h2, fun c => ?_⟩
        rw [h3]
        have : messagesFrom a (o :: ops) = messagesFrom a ops := by
          cases o with
          | received p m => simp only [messagesFrom]; exact if_neg hab
          | _ => rfl
        rw [this]

/-! ### C40 -/

theorem wants_recorded (x : Bool) (a b : P) (s s' t t' : Node P) (ops bops : List (Op P)) (acts acts' : List (Action P)) (order : List P)
    (hu : AMap.Uniq s.bs.wanted) (he : messagesTo b s.bs.events = []) (hr : s.run (.established b :: ops) = some (acts, s'))
    (hst : Stays b ops) (hq : x = true → NoQuickCancel b { s with bs := s.bs.established b } ops)
    (hend : (s'.bs.poll order).1 = none) (hbo : b ∈ order)
    (hr' : t.run (.established a :: bops) = some (acts', t')) (hst' : Stays a bops) (hmsgs : messagesFrom a bops = messagesTo b acts)
    (htu : AMap.Uniq t.bs.wanted)
    (hno : ∀ m ∈ messagesTo b acts, ∀ c ∈ m.want.keys, c ∉ t.bs.wanted.keys ∧ ∀ pr, .want c pr ∉ bops) :
    ∃ w, t'.bs.peerWantlist a = some w ∧ (∀ c pr, s'.bs.wanted.get c = some pr → w.get c = some pr) ∧
      (x = true → ∀ c, w.get c = s'.bs.wanted.get c) := by
  simp only [Node.run, Node.step, Option.map_eq_some_iff] at hr hr'
  obtain ⟨r, hr, hre⟩ := hr
  obtain ⟨r', hr', hre'⟩ := hr'
  cases hre; cases hre'
  simp only [Option.toList_none, List.nil_append] at hmsgs hno
  have hi := WantInv.run (x := x) ops _ r.2 r.1 [] (WantInv.start b s hu he).weaken hst hq hr
  simp only [List.nil_append] at hi
  obtain ⟨l, hl, -, hsup, hex⟩ := hi.ledger
  obtain ⟨hev, hw0, hc0⟩ := nothing_left hend hbo hl
  have hv : heardAll (fun _ => none) (messagesTo b r.1 ++ messagesTo b r.2.bs.events ++ [l.message]) =
      heardAll (fun _ => none) (messagesTo b r.1) := by
    rw [hev, heardAll_append]
    simp only [messagesTo, List.append_nil]
    funext c
    simp [heardAll, heard, hw0, hc0, AMap.get]
  rw [hv] at hsup hex
  obtain ⟨w, h1, h2⟩ := recorded_messages bops _ r'.2 r'.1 [] hr' hst'
    (by simp only [peerWantlist, established_eq, AMap.get_set, if_true]; rfl) (by rw [established_eq]; exact htu)
    (by rw [hmsgs]; exact hi.sentU) (by rw [hmsgs, established_eq]; exact hno)
  have h0 : AMap.get ([] : AMap Cid Int) = fun _ => none := by funext c; rfl
  rw [hmsgs, h0] at h2
  exact ⟨w, h1, fun c pr hc => by rw [h2]; exact hsup c pr hc, fun hx c => by rw [h2]; exact hex hx c⟩

/-- **C40**: after any sequence of wants, cancels, blocks and other peers' doings, once every message was handed out
and delivered in order, the other side has recorded everything wanted, with the priority, unless it wants it itself.
`ops` is what happens on the one side after the connection was established, `bops` on the other. -/
theorem C40_recorded (a b : P) (s s' t t' : Node P) (ops bops : List (Op P)) (acts acts' : List (Action P)) (order : List P)
    (hu : AMap.Uniq s.bs.wanted) (he : messagesTo b s.bs.events = []) (hr : s.run (.established b :: ops) = some (acts, s'))
    (hst : Stays b ops) (hend : (s'.bs.poll order).1 = none) (hbo : b ∈ order)
    (hr' : t.run (.established a :: bops) = some (acts', t')) (hst' : Stays a bops) (hmsgs : messagesFrom a bops = messagesTo b acts)
    (htu : AMap.Uniq t.bs.wanted)
    (hno : ∀ m ∈ messagesTo b acts, ∀ c ∈ m.want.keys, c ∉ t.bs.wanted.keys ∧ ∀ pr, .want c pr ∉ bops) :
    ∃ w, t'.bs.peerWantlist a = some w ∧ ∀ c pr, s'.bs.wanted.get c = some pr → w.get c = some pr := by
  obtain ⟨w, h1, h2, -⟩ := wants_recorded false a b s s' t t' ops bops acts acts' order hu he hr hst (by simp) hend hbo hr' hst' hmsgs htu hno
  exact ⟨w, h1, h2⟩

/-- **C40**, partial: and nothing else, provided no want is cancelled before the message with it was handed out.
Missing: without that, and when the other side wants the block itself, it does not hold, see `C40_quick_cancel` and
`C40_wanted_by_both`; nor when messages overtake each other, see `C40_overtaken`. -/
theorem C40_equal_partial (a b : P) (s s' t t' : Node P) (ops bops : List (Op P)) (acts acts' : List (Action P)) (order : List P)
    (hu : AMap.Uniq s.bs.wanted) (he : messagesTo b s.bs.events = []) (hr : s.run (.established b :: ops) = some (acts, s'))
    (hst : Stays b ops) (hq : NoQuickCancel b { s with bs := s.bs.established b } ops)
    (hend : (s'.bs.poll order).1 = none) (hbo : b ∈ order)
    (hr' : t.run (.established a :: bops) = some (acts', t')) (hst' : Stays a bops) (hmsgs : messagesFrom a bops = messagesTo b acts)
    (htu : AMap.Uniq t.bs.wanted)
    (hno : ∀ m ∈ messagesTo b acts, ∀ c ∈ m.want.keys, c ∉ t.bs.wanted.keys ∧ ∀ pr, .want c pr ∉ bops) :
    ∃ w, t'.bs.peerWantlist a = some w ∧ ∀ c, w.get c = s'.bs.wanted.get c := by
  obtain ⟨w, h1, -, h3⟩ := wants_recorded true a b s s' t t' ops bops acts acts' order hu he hr hst (fun _ => hq) hend hbo hr' hst' hmsgs htu hno
  exact ⟨w, h1, h3 rfl⟩

/-- How many ledgers have something to send. -/
def toSend (m : AMap P Ledger) : Nat := (m.filter (fun e => !e.2.message.isEmpty)).length

theorem toSend_set {m : AMap P Ledger} {p : P} {l l' : Ledger} (h : m.get p = some l) (h1 : l.message.isEmpty = false)
    (h2 : l'.message.isEmpty = true) : toSend (m.set p l') + 1 = toSend m := by
  induction m with
  | nil => cases h
  | cons e m ih =>
    obtain ⟨k, v⟩ := e
    simp only [AMap.get] at h
    simp only [AMap.set]
    by_cases hk : k = p
    · rw [if_pos hk] at h ⊢
      cases h
      simp [toSend, h1, h2]
    · rw [if_neg hk] at h ⊢
      have := ih h
      simp only [toSend, List.filter_cons] at this ⊢
      split <;> simp_all <;> omega

/-- **C40**: polling gets everything handed out: after finitely many calls nothing is left, and what is wanted is as
before. -/
theorem C40_drains (s : Node P) (hi : StatsInv s) (order : List P) : ∃ n acts s', s.run (List.replicate n (.poll order)) = some (acts, s') ∧
    (s'.bs.poll order).1 = none ∧ s'.bs.wanted = s.bs.wanted := by
  suffices hS : ∀ k (s : Node P), StatsInv s → s.bs.drain.events.length + toSend s.bs.drain.peers = k →
      ∃ n acts s', s.run (List.replicate n (.poll order)) = some (acts, s') ∧ (s'.bs.poll order).1 = none ∧ s'.bs.wanted = s.bs.wanted from
    hS _ s hi rfl
  intro k
  induction k using Nat.strongRecOn with
  | ind k ih =>
    intro s hi hk
    have hd := drain_rest s.bs
    by_cases hn : (s.bs.poll order).1 = none
    · exact ⟨0, [], s, rfl, hn, rfl⟩
    · obtain ⟨⟨a, s1⟩, h1⟩ := step_ok s (.poll order) hi (by intro p m h; cases h)
      obtain ⟨ha, hb, -⟩ := pollStep h1
      have hi1 := hi.step _ h1
      have hw1 : s1.bs.wanted = s.bs.wanted := by
        rw [hb]
        rcases poll_cases s.bs order with ⟨e, es, h1, h2⟩ | ⟨h1, h2, -⟩ | ⟨h1, p, l1, l', -, h3, -, -, h5, -, h2⟩ <;>
          (rw [h2]; exact hd.2.2.1)
      have hready : s1.bs.drain = s1.bs := by
        have : s1.bs.ready = [] := by
          rw [hb]
          rcases poll_cases s.bs order with ⟨e, es, h1, h2⟩ | ⟨h1, h2, -⟩ | ⟨h1, p, l1, l', -, h3, -, -, h5, -, h2⟩ <;>
            (rw [h2]; exact hd.2.2.2.1)
        unfold drain; rw [this]
        simp only [List.foldl_nil]
        obtain ⟨⟨_, _, _, _, rd, _⟩, _⟩ := s1
        simp only at this
        subst this; rfl
      have hlt : s1.bs.drain.events.length + toSend s1.bs.drain.peers < k := by
        rw [hready, hb, ← hk]
        rcases poll_cases s.bs order with ⟨e, es, g1, h2⟩ | ⟨g1, h2, -⟩ | ⟨g1, p, l1, l', -, h3, -, h4, h5, -, h2⟩
        · rw [h2]; simp only [hd.1, g1, List.length_cons]; omega
        · exact absurd (by rw [h2]) hn
        · rw [h2]; simp only
          have := toSend_set h3 h4 (l' := l') (by rw [h5]; rfl)
          omega
      obtain ⟨n, acts, s', hr, h2, h3⟩ := ih _ hlt s1 hi1 rfl
      refine ⟨n + 1, a.toList ++ acts, s', ?_, h2, h3.trans hw1⟩
      rw [List.replicate_succ, Node.run, h1]
      simp only [hr, Option.map_some]

/-- **C40**: the ledger keeps a record of its own of what it told the other: after each message it is what the other records on
reading it, and the next message starts empty. -/
theorem C40_sent {l l' : Ledger} {m : Message} (hu : AMap.Uniq l.message.want) (h : l.send = some (m, l')) :
    m = l.message ∧ l'.message = {} ∧ l'.received = l.received ∧ ∀ c, l'.sent.get c = heard l.sent.get m c := by
  unfold Ledger.send at h
  split at h
  · cases h
  · simp only [Option.some.injEq, Prod.mk.injEq] at h
    obtain ⟨rfl, rfl⟩ := h
    refine ⟨rfl, rfl, rfl, fun c => ?_⟩
    simp only [foldl_set_get _ hu, foldl_erase_get, heard]

example : ∃ l' m, ({ sent := [(Cid.v0 [1], 2)], message := { want := [(Cid.v0 [2], 3)], cancel := [Cid.v0 [1]] } } : Ledger).send = some (m, l') ∧
    l'.sent = [(Cid.v0 [2], 3)] := ⟨_, _, rfl, by decide +kernel⟩

/-! ### Examples and counterexamples -/

def exWantA : Cid := Cid.v0 [7]
def exWantB : Cid := Cid.v0 [8]

/-- A want that is cancelled before its message is handed out stays on record. -/
theorem C40_quick_cancel : ∃ m, (({} : Node Nat).run [.established 2, .want exWantA 1, .cancel exWantA, .poll [2]]).map
      (fun r => (r.1, r.2.bs.wanted, (r.2.bs.poll [2]).1)) = some ([.notify 2 m], [], none) ∧
    (({} : Node Nat).run [.established 1, .received 1 m]).map (fun r => r.2.bs.peerWantlist 1) = some (some [(exWantA, 1)]) :=
  ⟨{ want := [(exWantA, 1)], cancel := [exWantA] }, by decide +kernel, by decide +kernel⟩

/-- A want of something the other side wants itself is not recorded, also not later. -/
theorem C40_wanted_by_both : ∃ m, (({} : Node Nat).run [.established 2, .want exWantA 1, .poll [2]]).map
      (fun r => (r.1, r.2.bs.wanted, (r.2.bs.poll [2]).1)) = some ([.notify 2 m], [(exWantA, 1)], none) ∧
    (({} : Node Nat).run [.established 1, .want exWantA 3, .received 1 m, .cancel exWantA]).map (fun r => r.2.bs.peerWantlist 1) = some (some []) :=
  ⟨{ want := [(exWantA, 1)] }, by decide +kernel, by decide +kernel⟩

/-- Each message goes over a substream of its own; when a cancel overtakes the want, the want stays on record. -/
theorem C40_overtaken : ∃ m m', (({} : Node Nat).run [.established 2, .want exWantA 1, .poll [2], .cancel exWantA, .poll [2]]).map
      (fun r => (r.1, r.2.bs.wanted, (r.2.bs.poll [2]).1)) = some ([.notify 2 m, .notify 2 m'], [], none) ∧
    (({} : Node Nat).run [.established 1, .received 1 m', .received 1 m]).map (fun r => r.2.bs.peerWantlist 1) = some (some [(exWantA, 1)]) :=
  ⟨{ want := [(exWantA, 1)] }, { cancel := [exWantA] }, by decide +kernel, by decide +kernel⟩

example : ∃ w, (({} : Node Nat).run [.established 1, .received 1 { want := [(exWantA, 1)] }, .received 1 { want := [(exWantB, 4)] },
      .received 1 { cancel := [exWantA] }]).bind (fun r => r.2.bs.peerWantlist 1) = some w ∧
    ∀ c, w.get c = AMap.get [(exWantB, (4 : Int))] c := by
  obtain ⟨w, h1, h2⟩ := C40_equal_partial (P := Nat) 1 2 ⟨{ wanted := [(exWantA, 1)] }, []⟩
    ((Node.run ⟨{ wanted := [(exWantA, 1)] }, []⟩ [.established 2, .poll [2], .want exWantB 4, .poll [2], .cancel exWantA, .poll [2]]).get (by decide +kernel)).2
    {} ((Node.run {} [.established 1, .received 1 { want := [(exWantA, 1)] }, .received 1 { want := [(exWantB, 4)] },
      .received 1 { cancel := [exWantA] }]).get (by decide +kernel)).2
    [.poll [2], .want exWantB 4, .poll [2], .cancel exWantA, .poll [2]]
    [.received 1 { want := [(exWantA, 1)] }, .received 1 { want := [(exWantB, 4)] }, .received 1 { cancel := [exWantA] }]
    [.notify 2 { want := [(exWantA, 1)] }, .notify 2 { want := [(exWantB, 4)] }, .notify 2 { cancel := [exWantA] }] [] [2]
    (by simp [AMap.Uniq, AMap.keys]) (by decide) (by rfl) (by intro o ho; simp at ho; rcases ho with rfl | rfl | rfl | rfl | rfl <;> simp)
    (by
      refine ⟨nofun, fun _ _ h => ?_⟩; cases h
      refine ⟨nofun, fun _ _ h => ?_⟩; cases h
      refine ⟨nofun, fun _ _ h => ?_⟩; cases h
      refine ⟨fun c hc l hl => ?_, fun _ _ h => ?_⟩
      · simp only [stopsWanting, List.mem_singleton] at hc; subst hc; cases hl; decide +kernel
      · cases h; exact ⟨nofun, fun _ _ _ => trivial⟩)
    (by rfl) (by decide) (by rfl) (by intro o ho; simp at ho; rcases ho with rfl | rfl | rfl <;> simp) (by rfl) AMap.uniq_nil
    (by intro m hm c hc; exact ⟨by simp [AMap.keys], by intro pr h; simp at h⟩)
  exact ⟨w, h1, h2⟩

end Verif.Props
