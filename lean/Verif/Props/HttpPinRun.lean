import Verif.Props.HttpPin

/-! # C70: histories of requests about pins and blocks -/

namespace Verif.Props

open Verif Verif.Ipld Verif.Repo Verif.Spec Verif.Ipfs.Refs Verif.Ipfs.Pin Verif.Http

variable {σ ε : Type}

/-! ### Specification -/

/-- What a request asks for. -/
def AsksFor (env : BlockEnv) : PinRequest → NodeOp → Prop
  | .add query _, .pin c r => ∃ text cids, query = some text ∧ AddAsked env.q text cids r false ∧ c ∈ cids
  | .rm query, .unpin c r => UnpinAsked env.q (query.getD []) c r
  | .put query u, .put b => PutBlock env query u b
  | .dagPut query u, .put b => DagBlock env query u b
  | .arrive b', .put b => b = b'
  | .removeBlocks query, .remove c => ∃ text, query = some text ∧ RmNames env text c
  | _, _ => False

/-- The cids in use: no two have the same hash, links lead from them to them, and requests are about
them and what they stand for. Pins of one request are made in some order. -/
structure ReqsInUse (env : PinHttp ε) (content : Cid → Bytes) (U : Cid → Prop) (reqs : List PinRequest) : Prop where
  apart : ∀ a b, U a → U b → a.mh = b.mh → a = b
  closed : ∀ a b, U a → LinkTo env.pin content a b → U b
  put : ∀ r ∈ reqs, ∀ b, AsksFor env.block r (.put b) → U b.cid ∧ b.data = content b.cid
  pin : ∀ r ∈ reqs, ∀ c x, AsksFor env.block r (.pin c x) → U c
  unpin : ∀ r ∈ reqs, ∀ c x, AsksFor env.block r (.unpin c x) → U c
  remove : ∀ r ∈ reqs, ∀ c, AsksFor env.block r (.remove c) → U c
  order : ∀ query o, .add query o ∈ reqs → ∀ l, (o l).Perm l

/-- What is pinned when the cids are pinned. -/
def pinAll (recursive : Bool) (p : Pins) (cids : List Cid) : Pins :=
  ⟨fun a => if recursive then !decide (a ∈ cids) && p.direct a else decide (a ∈ cids) || p.direct a,
   fun a => (recursive && decide (a ∈ cids)) || p.root a⟩

/-- What a request means, given whether it was answered with success. Of a request to `pin/add` that failed some
of the pins may have been made. -/
inductive PinMeans (env : BlockEnv) : Pins → PinRequest → Bool → Pins → Prop
  | added {p text order cids r} : AddAsked env.q text cids r false → PinMeans env p (.add (some text) order) true (pinAll r p cids)
  | partly {p text order cids r made} : AddAsked env.q text cids r false → (∀ c ∈ made, c ∈ cids) →
      PinMeans env p (.add (some text) order) false (pinAll r p made)
  | refused {p query order} : PinMeans env p (.add query order) false p
  | unpinned {p query c} : UnpinAsked env.q (query.getD []) c false → PinMeans env p (.rm query) true (p.after (.removeDirect c))
  | unpinnedAll {p query c} : UnpinAsked env.q (query.getD []) c true → PinMeans env p (.rm query) true (p.after (.removeRecursive c))
  | stays {p query} : PinMeans env p (.rm query) false p
  | ls {p query ok} : PinMeans env p (.ls query) ok p
  | put {p query u ok} : PinMeans env p (.put query u) ok p
  | dagPut {p query u ok} : PinMeans env p (.dagPut query u) ok p
  | get {p query el ok} : PinMeans env p (.get query el) ok p
  | stat {p query el ok} : PinMeans env p (.stat query el) ok p
  | removeBlocks {p query ok} : PinMeans env p (.removeBlocks query) ok p
  | arrive {p b ok} : PinMeans env p (.arrive b) ok p

/-- What requests mean, one after another. -/
inductive PinExplained (env : BlockEnv) : Pins → List PinRequest → List Bool → Pins → Prop
  | nil {p} : PinExplained env p [] [] p
  | cons {p p' p'' r ok reqs oks} : PinMeans env p r ok p' → PinExplained env p' reqs oks p'' →
      PinExplained env p (r :: reqs) (ok :: oks) p''

/-- A status 200 of a request about pins. -/
def succeeded : PinReply ε → Bool
  | .ok _ => true
  | .lines _ => true
  | _ => false

/-- What a client makes of a line. -/
def readLine (line : Bytes) : Option (Bytes × Bytes) :=
  match readJson line with
  | some (.obj [(k1, .str cid), (k2, .str mode)], [10]) =>
    if k1 = "Cid".toUTF8.toList ∧ k2 = "Type".toUTF8.toList then some (cid, mode) else none
  | _ => none

/-- The body has a line for each of these. -/
def Lines (r : PinReply ε) (l : List (Cid × Bytes)) : Prop :=
  ∃ lines, r = .lines lines ∧ lines.map readLine = l.map (fun e => some (e.1.toText, e.2))

/-- Below something pinned recursively. -/
def IsBelow (env : PinEnv) (content : Cid → Bytes) (p : Pins) (c : Cid) : Prop := ∃ r, p.root r = true ∧ Below env content r c

/-- How the store on disk shows a cid. -/
def ShownDisk (env : PinEnv) (content : Cid → Bytes) (p : Pins) (filter : Option PinMode) (c : Cid) (t : Bytes) : Prop :=
  (t = "recursive".toUTF8.toList ∧ (filter = none ∨ filter = some .recursive) ∧ p.root c = true) ∨
  (t = "direct".toUTF8.toList ∧ (filter = none ∨ filter = some .direct) ∧ p.root c = false ∧ p.direct c = true) ∨
  (t = "indirect".toUTF8.toList ∧ (filter = some .indirect ∨ (filter = none ∧ p.root c = false ∧ p.direct c = false)) ∧
    IsBelow env content p c)

/-- How the in-memory store shows a cid. -/
def ShownMemory (env : PinEnv) (content : Cid → Bytes) (p : Pins) (filter : Option PinMode) (c : Cid) (t : Bytes) : Prop :=
  (t = "recursive".toUTF8.toList ∧ (filter = none ∨ filter = some .recursive) ∧ p.root c = true) ∨
  (t = "indirect".toUTF8.toList ∧ (filter = none ∨ filter = some .indirect) ∧ p.root c = false ∧ IsBelow env content p c) ∨
  (t = "direct".toUTF8.toList ∧ (filter = none ∨ filter = some .direct) ∧ p.root c = false ∧ ¬ IsBelow env content p c ∧
    p.direct c = true)

/-- When asked for a cid that is pinned indirectly, a root is named. -/
def NamesRoot (env : PinEnv) (content : Cid → Bytes) (p : Pins) (named : Cid → Cid) (c : Cid) (t : Bytes) : Prop :=
  ∃ r, p.root r = true ∧ Below env content r c ∧ t = "indirect through ".toUTF8.toList ++ (named r).toText

/-- The answer for a cid, when asked for it. -/
def Answered (env : PinEnv) (content : Cid → Bytes) (p : Pins) (named : Cid → Cid) (shown : Cid → Bytes → Prop) (c : Cid)
    (t : Bytes) : Prop :=
  (shown c t ∧ t ≠ "indirect".toUTF8.toList) ∨ (shown c "indirect".toUTF8.toList ∧ NamesRoot env content p named c t)

/-- What `pin/ls` answers: without arguments, everything shown, once each; with arguments, these in order, if all of
them are shown; and that it is not implemented when "quiet" is "false". -/
def Listing (env : PinHttp ε) (content : Cid → Bytes) (ls : PinLister σ ε) (s : RepoState σ) (p : Pins) (named : Cid → Cid)
    (Asked : List Cid → Prop) (shown : Option PinMode → Cid → Bytes → Prop) : Prop :=
  (∀ query filter, ListAsked env.block.q query [] filter true →
    ∃ l, Lines (pinList env.block.q env.errText ls s (some query)) l ∧ (l.map Prod.fst).Nodup ∧
      ∀ c t, (c, t) ∈ l ↔ shown filter c t) ∧
  (∀ query cids filter, cids ≠ [] → Asked cids → ListAsked env.block.q query cids filter true →
    ((∀ c ∈ cids, ∃ t, shown filter c t) →
      ∃ l, Lines (pinList env.block.q env.errText ls s (some query)) l ∧ l.map Prod.fst = cids ∧
        ∀ e ∈ l, Answered env.pin content p named (shown filter) e.1 e.2) ∧
    ((∃ c ∈ cids, ∀ t, ¬ shown filter c t) →
      ∃ e, pinList env.block.q env.errText ls s (some query) = .failed (.querying e))) ∧
  (∀ query cids filter, Asked cids → ListAsked env.block.q query cids filter false →
    (∀ c ∈ cids, ∃ t, shown filter c t) → pinList env.block.q env.errText ls s (some query) = .failed .notImplemented)

/-- At every request to `pin/add` that asks for recursive pins, what is below them is there and can be read. -/
def AllAtHand (env : PinHttp ε) (content : Cid → Bytes) (st : PinStore σ ε) (ls : PinLister σ ε) : RepoState σ → List PinRequest → Prop
  | _, [] => True
  | s, r :: reqs => (∀ c, AsksFor env.block r (.pin c true) → ∀ d, Below env.pin content c d → Here env.pin content s.blocks d) ∧
      AllAtHand env content st ls (servePin env st ls s r).1 reqs

/-! ### What requests amount to -/

/-- The pins that are tried, in order. -/
def insertLog (env : PinEnv) (st : PinStore σ ε) (recursive : Bool) (s : RepoState σ) : List Cid → List NodeOp
  | [] => []
  | c :: cs => .pin c recursive ::
    (if (insertPin env st s c recursive).1.isOk then insertLog env st recursive (insertPin env st s c recursive).2 cs else [])

theorem insertLog_run (env : PinEnv) (st : PinStore σ ε) (r : Bool) (cs : List Cid) (s : RepoState σ) {S : Type}
    (after : S → NodeOp → Bool → S) (k : S) :
    (insertPins env st r s cs).2 = (nodeRun env st after s k (insertLog env st r s cs)).1 := by
  induction cs generalizing s k with
  | nil => rfl
  | cons c cs ih =>
    unfold insertPins insertLog
    cases h : insertPin env st s c r with
    | mk res s' =>
      cases res with
      | error e =>
        simp only [Except.isOk, Except.toBool, Bool.false_eq_true, if_false, nodeRun, nodeStep, h]
      | ok u =>
        simp only [Except.isOk, Except.toBool, if_true, nodeRun, nodeStep, h]
        exact ih s' _

theorem pins_ext {p p' : Pins} (h1 : ∀ a, p.direct a = p'.direct a) (h2 : ∀ a, p.root a = p'.root a) : p = p' := by
  cases p; cases p'
  simp only at h1 h2
  rw [funext h1, funext h2]

theorem pinAll_cons (r : Bool) (p : Pins) (c : Cid) (cs : List Cid) :
    pinAll r (pinsMoved p (.pin c r) true) cs = pinAll r p (c :: cs) := by
  refine pins_ext (fun a => ?_) (fun a => ?_)
  · cases r <;> simp only [pinAll, pinsMoved, Pins.after] <;> by_cases h : a = c <;> simp [h]
  · cases r <;> simp only [pinAll, pinsMoved, Pins.after] <;> by_cases h : a = c <;> simp [h]

theorem pinAll_nil (r : Bool) (p : Pins) : pinAll r p [] = p := by
  refine pins_ext (fun a => ?_) (fun a => ?_) <;> cases r <;> simp [pinAll]

/-- The specification moves by those that were made. -/
theorem insertLog_pins (env : PinEnv) (st : PinStore σ ε) (r : Bool) (cs : List Cid) (s : RepoState σ) (p : Pins) :
    ∃ made, (∀ c ∈ made, c ∈ cs) ∧ (nodeRun env st pinsMoved s p (insertLog env st r s cs)).2 = pinAll r p made ∧
      ((insertPins env st r s cs).1.isOk = true → made = cs) := by
  induction cs generalizing s p with
  | nil => exact ⟨[], by simp, (pinAll_nil r p).symm, fun _ => rfl⟩
  | cons c cs ih =>
    unfold insertPins insertLog
    cases h : insertPin env st s c r with
    | mk res s' =>
      cases res with
      | error e =>
        refine ⟨[], by simp, ?_, fun h => by cases h⟩
        simp only [Except.isOk, Except.toBool, Bool.false_eq_true, if_false, nodeRun, nodeStep, h, pinsMoved_false, pinAll_nil]
      | ok u =>
        obtain ⟨made, h1, h2, h3⟩ := ih s' (pinsMoved p (.pin c r) true)
        refine ⟨c :: made, ?_, ?_, fun hk => by rw [h3 hk]⟩
        · intro x hx
          rcases List.mem_cons.mp hx with rfl | hx
          · simp
          · exact List.mem_cons_of_mem _ (h1 x hx)
        · simp only [Except.isOk, Except.toBool, if_true, nodeRun, nodeStep, h]
          rw [h2, pinAll_cons]

theorem insertLog_mem (env : PinEnv) (st : PinStore σ ε) (r : Bool) (cs : List Cid) (s : RepoState σ) (op : NodeOp)
    (h : op ∈ insertLog env st r s cs) : ∃ c ∈ cs, op = .pin c r := by
  induction cs generalizing s with
  | nil => simp [insertLog] at h
  | cons c cs ih =>
    unfold insertLog at h
    rcases List.mem_cons.mp h with rfl | h
    · exact ⟨c, by simp, rfl⟩
    · split at h
      · obtain ⟨x, hx, rfl⟩ := ih _ h
        exact ⟨x, by simp [hx], rfl⟩
      · simp at h

theorem pinAll_perm (r : Bool) (p : Pins) {l l' : List Cid} (h : l.Perm l') : pinAll r p l = pinAll r p l' := by
  refine pins_ext (fun a => ?_) (fun a => ?_) <;> simp [pinAll, h.mem_iff]

/-- The operations a request amounts to. -/
def reqOps (env : PinHttp ε) (st : PinStore σ ε) (s : RepoState σ) : PinRequest → List NodeOp
  | .add none _ => []
  | .add (some query) order =>
    match addRequest env.block.q query with
    | .error _ => []
    | .ok r => if r.progress then [] else insertLog env.pin st r.recursive s (order r.args)
  | .rm query =>
    match removeRequest env.block.q (query.getD []) with
    | .error _ => []
    | .ok (c, r) => [.unpin c r]
  | .put query u => (putBlock? env.block query u).toList.map .put
  | .dagPut query u => (dagBlock? env.block query u).toList.map .put
  | .arrive b => [.put b]
  | .removeBlocks none => []
  | .removeBlocks (some query) =>
    match rmOptions env.block.q.lossy query with
    | .error _ => []
    | .ok o =>
      match parseCids env.block.q.mb o.args with
      | .error _ => []
      | .ok cids => cids.map .remove
  | _ => []

theorem removeAll_run (env : PinEnv) (st : PinStore σ ε) (cs : List Cid) (s : RepoState σ) {S : Type}
    (after : S → NodeOp → Bool → S) (k : S) :
    (removeAll st.api s cs).1 = (nodeRun env st after s k (cs.map .remove)).1 := by
  induction cs generalizing s k with
  | nil => rfl
  | cons c cs ih => exact ih _ _

theorem reqOps_run (env : PinHttp ε) (st : PinStore σ ε) (ls : PinLister σ ε) (s : RepoState σ) (r : PinRequest) {S : Type}
    (after : S → NodeOp → Bool → S) (k : S) :
    (servePin env st ls s r).1 = (nodeRun env.pin st after s k (reqOps env st s r)).1 := by
  cases r with
  | add query order =>
    cases query with
    | none => rfl
    | some query =>
      simp only [servePin, pinAdd, reqOps]
      cases addRequest env.block.q query with
      | error e => rfl
      | ok a =>
        simp only
        split
        · rfl
        · exact insertLog_run ..
  | ls query => rfl
  | rm query =>
    simp only [servePin, pinRm, reqOps]
    cases removeRequest env.block.q (query.getD []) with
    | error e => rfl
    | ok a => rfl
  | put query u =>
    obtain ⟨h1, h2⟩ := blockPut_eq env.block s query u
    simp only [servePin, serveBlockReq, serveBlock, reqOps]
    cases hp : putBlock? env.block query u with
    | none => exact (h2 hp).1
    | some b => rw [h1 b hp]; rfl
  | dagPut query u =>
    obtain ⟨h1, h2⟩ := dagPut_eq env.block s query u
    simp only [servePin, serveBlockReq, serveBlock, reqOps]
    cases hp : dagBlock? env.block query u with
    | none => exact (h2 hp).1
    | some b => rw [h1 b hp]; rfl
  | get query el => rfl
  | stat query el => rfl
  | removeBlocks query =>
    cases query with
    | none => rfl
    | some query =>
      simp only [servePin, serveBlockReq, serveBlock, blockRm, reqOps]
      cases rmOptions env.block.q.lossy query with
      | error e => rfl
      | ok o =>
        simp only
        cases parseCids env.block.q.mb o.args with
        | error e => rfl
        | ok cids => exact removeAll_run ..
  | arrive b => rfl

theorem reqOps_asked (env : PinHttp ε) (st : PinStore σ ε) (s : RepoState σ) (r : PinRequest)
    (ho : ∀ query o, r = .add query o → ∀ l, (o l).Perm l) (op : NodeOp) (h : op ∈ reqOps env st s r) :
    AsksFor env.block r op := by
  cases r with
  | add query order =>
    cases query with
    | none => simp [reqOps] at h
    | some query =>
      simp only [reqOps] at h
      cases ha : addRequest env.block.q query with
      | error e => simp [ha] at h
      | ok a =>
        rw [ha] at h
        simp only at h
        split at h
        · simp at h
        · rename_i hp
          obtain ⟨c, hc, rfl⟩ := insertLog_mem _ _ _ _ _ _ h
          refine ⟨query, a.args, rfl, ?_, (ho _ _ rfl _).mem_iff.mp hc⟩
          have := (C70_add_query env.block.q query a).mp ha
          rw [show a.progress = false by simpa using hp] at this
          exact this
  | ls query => simp [reqOps] at h
  | rm query =>
    simp only [reqOps] at h
    cases ha : removeRequest env.block.q (query.getD []) with
    | error e => simp [ha] at h
    | ok a =>
      obtain ⟨c, r⟩ := a
      rw [ha] at h
      simp only [List.mem_singleton] at h
      subst h
      exact (C70_remove_query ..).mp ha
  | put query u =>
    simp only [reqOps, List.mem_map, Option.mem_toList] at h
    obtain ⟨b, hb, rfl⟩ := h
    exact (putBlock?_iff ..).mp hb
  | dagPut query u =>
    simp only [reqOps, List.mem_map, Option.mem_toList] at h
    obtain ⟨b, hb, rfl⟩ := h
    exact (dagBlock?_iff ..).mp hb
  | get query el => simp [reqOps] at h
  | stat query el => simp [reqOps] at h
  | removeBlocks query =>
    cases query with
    | none => simp [reqOps] at h
    | some query =>
      simp only [reqOps] at h
      cases hr : rmOptions env.block.q.lossy query with
      | error e => simp [hr] at h
      | ok o =>
        rw [hr] at h
        simp only at h
        cases hc : parseCids env.block.q.mb o.args with
        | error e => simp [hc] at h
        | ok cids =>
          rw [hc] at h
          simp only [List.mem_map] at h
          obtain ⟨c, hc', rfl⟩ := h
          obtain ⟨raw, ps, f, qt, g1, g2, g3, -⟩ := (C68_rm_options ..).mp hr
          have hm : some c ∈ o.args.map (Cid.ofText env.block.q.mb) := by
            rw [(parseCids_ok ..).mp hc]
            exact List.mem_map.mpr ⟨c, hc', rfl⟩
          obtain ⟨v, hv, hv2⟩ := List.mem_map.mp hm
          rw [g3, valuesOf, List.mem_map] at hv
          obtain ⟨⟨k, v'⟩, hv3, rfl⟩ := hv
          obtain ⟨hv4, hv5⟩ := List.mem_filter.mp hv3
          refine ⟨query, rfl, ps, v', ⟨raw, g1, g2⟩, ?_, hv2⟩
          rw [show k = "arg".toUTF8.toList by simpa using hv5] at hv4
          exact hv4
  | arrive b =>
    simp only [reqOps, List.mem_singleton] at h
    subst h
    rfl

theorem pinFailed_not (e : PinFail ε) : succeeded (pinFailed e) = false := by cases e <;> rfl

theorem nodeRun_removes (env : PinEnv) (st : PinStore σ ε) (cs : List Cid) (s : RepoState σ) (p : Pins) :
    (nodeRun env st pinsMoved s p (cs.map .remove)).2 = p := by
  induction cs generalizing s with
  | nil => rfl
  | cons c cs ih =>
    have : ∀ b, pinsMoved p (.remove c) b = p := by intro b; cases b <;> rfl
    simp only [List.map_cons, nodeRun, this]
    exact ih _

theorem reqOps_means (env : PinHttp ε) (st : PinStore σ ε) (ls : PinLister σ ε) (s : RepoState σ) (r : PinRequest) (p : Pins)
    (ho : ∀ query o, r = .add query o → ∀ l, (o l).Perm l) :
    PinMeans env.block p r (succeeded (servePin env st ls s r).2) (nodeRun env.pin st pinsMoved s p (reqOps env st s r)).2 := by
  have hput : ∀ b : Block, (nodeRun env.pin st pinsMoved s p [.put b]).2 = p := fun b => rfl
  cases r with
  | add query order =>
    cases query with
    | none => exact .refused
    | some query =>
      simp only [servePin, pinAdd, reqOps]
      cases ha : addRequest env.block.q query with
      | error e => exact .refused
      | ok a =>
        simp only
        split
        · exact .refused
        · rename_i hp
          obtain ⟨made, h1, h2, h3⟩ := insertLog_pins env.pin st a.recursive (order a.args) s p
          rw [h2]
          have hq : AddAsked env.block.q query a.args a.recursive false := by
            have := (C70_add_query env.block.q query a).mp ha
            rw [show a.progress = false by simpa using hp] at this
            exact this
          have hperm := ho _ _ rfl a.args
          cases hr : (insertPins env.pin st a.recursive s (order a.args)).1 with
          | error e =>
            simp only [addedAnswer, pinFailed_not]
            exact .partly hq (fun c hc => hperm.mem_iff.mp (h1 c hc))
          | ok u =>
            rw [h3 (by rw [hr]; rfl), pinAll_perm _ _ hperm]
            exact .added hq
  | ls query => exact .ls
  | rm query =>
    simp only [servePin, pinRm, reqOps]
    cases ha : removeRequest env.block.q (query.getD []) with
    | error e => exact .stays
    | ok a =>
      obtain ⟨c, r⟩ := a
      have hq := (C70_remove_query ..).mp ha
      simp only [nodeRun, nodeStep]
      cases hr : (removePin env.pin st s c r).1 with
      | error e =>
        simp only [removedAnswer, pinFailed_not, Except.isOk, Except.toBool, pinsMoved_false]
        exact .stays
      | ok u =>
        cases r with
        | true => exact .unpinnedAll hq
        | false => exact .unpinned hq
  | put query u =>
    simp only [reqOps]
    cases putBlock? env.block query u with
    | none => exact .put
    | some b => exact .put
  | dagPut query u =>
    simp only [reqOps]
    cases dagBlock? env.block query u with
    | none => exact .dagPut
    | some b => exact .dagPut
  | get query el => exact .get
  | stat query el => exact .stat
  | removeBlocks query =>
    cases query with
    | none => exact .removeBlocks
    | some query =>
      simp only [reqOps]
      cases rmOptions env.block.q.lossy query with
      | error e => exact .removeBlocks
      | ok o =>
        simp only
        cases parseCids env.block.q.mb o.args with
        | error e => exact .removeBlocks
        | ok cids =>
          simp only [nodeRun_removes]
          exact .removeBlocks
  | arrive b => exact .arrive

/-! ### Histories -/

theorem ReqsInUse.tail {env : PinHttp ε} {content : Cid → Bytes} {U : Cid → Prop} {r : PinRequest} {reqs : List PinRequest}
    (h : ReqsInUse env content U (r :: reqs)) : ReqsInUse env content U reqs :=
  ⟨h.apart, h.closed, fun a ha => h.put a (by simp [ha]), fun a ha => h.pin a (by simp [ha]),
   fun a ha => h.unpin a (by simp [ha]), fun a ha => h.remove a (by simp [ha]), fun q o ha => h.order q o (by simp [ha])⟩

theorem ReqsInUse.uses {env : PinHttp ε} {content : Cid → Bytes} {U : Cid → Prop} {r : PinRequest} {reqs : List PinRequest}
    (h : ReqsInUse env content U (r :: reqs)) (op : NodeOp) (ha : AsksFor env.block r op) : Uses content U op := by
  cases op with
  | put b => exact h.put r (by simp) b ha
  | pin c x => exact h.pin r (by simp) c x ha
  | unpin c x => exact h.unpin r (by simp) c x ha
  | remove c => exact h.remove r (by simp) c ha

theorem ReqsInUse.v1 {env : PinHttp ε} {content : Cid → Bytes} {U : Cid → Prop} {reqs : List PinRequest}
    (h : ReqsInUse env content U reqs) (a b : Cid) (ha : U a) (hb : U b) (he : Cid.asV1 a = Cid.asV1 b) : a = b := by
  refine h.apart a b ha hb ?_
  have h1 := congrArg Cid.mhCode he
  have h2 := congrArg Cid.digest he
  simp only [Cid.asV1] at h1 h2
  simp [Cid.mh, h1, h2]

theorem insertPin_blocks (env : PinEnv) (st : PinStore σ ε) (s : RepoState σ) (c : Cid) (r : Bool) :
    (insertPin env st s c r).2.blocks = s.blocks := by
  have hp : ∀ x : Except ε Unit × σ, (pinsAfter s x).2.blocks = s.blocks := by
    intro x
    unfold pinsAfter
    split <;> rfl
  unfold insertPin
  split
  · rfl
  · split
    · split
      · rfl
      · exact hp _
    · exact hp _

/-- The pins of one request do not change what is there. -/
theorem allThere_log (env : PinEnv) (content : Cid → Bytes) (st : PinStore σ ε) (r : Bool) (cs : List Cid) (s : RepoState σ)
    (h : r = true → ∀ c ∈ cs, ∀ d, Below env content c d → Here env content s.blocks d) :
    AllThere env content st s (insertLog env st r s cs) := by
  induction cs generalizing s with
  | nil => trivial
  | cons c cs ih =>
    unfold insertLog
    refine ⟨fun x hx d hd => ?_, ?_⟩
    · simp only [NodeOp.pin.injEq] at hx
      obtain ⟨rfl, hx⟩ := hx
      exact h hx _ (by simp) d hd
    · show AllThere env content st (insertPin env st s c r).2 _
      split
      · refine ih _ (fun hr x hx d hd => ?_)
        have := h hr x (by simp [hx]) d hd
        unfold Here at this ⊢
        rw [insertPin_blocks]
        exact this
      · trivial

theorem allThere_noPin (env : PinEnv) (content : Cid → Bytes) (st : PinStore σ ε) (ops : List NodeOp) (s : RepoState σ)
    (h : ∀ c, .pin c true ∉ ops) : AllThere env content st s ops := by
  induction ops generalizing s with
  | nil => trivial
  | cons op ops ih =>
    refine ⟨fun c hc => ?_, ih _ (fun c hc => h c (by simp [hc]))⟩
    subst hc
    exact absurd (by simp) (h c)

theorem allThere_req (env : PinHttp ε) (content : Cid → Bytes) (st : PinStore σ ε) (s : RepoState σ) (r : PinRequest)
    (ho : ∀ query o, r = .add query o → ∀ l, (o l).Perm l)
    (h : ∀ c, AsksFor env.block r (.pin c true) → ∀ d, Below env.pin content c d → Here env.pin content s.blocks d) :
    AllThere env.pin content st s (reqOps env st s r) := by
  cases r with
  | add query order =>
    cases query with
    | none => trivial
    | some query =>
      have ha := reqOps_asked env st s (.add (some query) order) ho
      simp only [reqOps]
      cases hq : addRequest env.block.q query with
      | error e => trivial
      | ok a =>
        simp only
        split
        · trivial
        · rename_i hp
          refine allThere_log _ _ _ _ _ _ (fun hr c hc => h c ⟨query, a.args, rfl, ?_, (ho _ _ rfl _).mem_iff.mp hc⟩)
          have := (C70_add_query env.block.q query a).mp hq
          rw [show a.progress = false by simpa using hp, hr] at this
          exact this
  | _ =>
    refine allThere_noPin _ _ _ _ _ (fun c hc => ?_)
    exact reqOps_asked env st s _ ho _ hc

theorem servePins_inv (env : PinHttp ε) (content : Cid → Bytes) (U : Cid → Prop) {cut : Prop} {Inv : σ → Pins → Prop}
    {st : PinStore σ ε} {ls : PinLister σ ε}
    (G : Guard st (treeRefs env.pin content) U cut pinsMoved (fun k r => k.root r = true)
      (fun k c => k.Pinned (treeRefs env.pin content) c) Inv) (reqs : List PinRequest) (s : RepoState σ) (p : Pins)
    (hu : ReqsInUse env content U reqs) (hcut : cut ∨ AllAtHand env content st ls s reqs)
    (h : NodeInv env.pin content U (fun k r => k.root r = true) (fun k c => k.Pinned (treeRefs env.pin content) c) Inv s p) :
    ∃ p', PinExplained env.block p reqs ((servePins env st ls s reqs).2.map succeeded) p' ∧
      NodeInv env.pin content U (fun k r => k.root r = true) (fun k c => k.Pinned (treeRefs env.pin content) c) Inv
        (servePins env st ls s reqs).1 p' := by
  induction reqs generalizing s p with
  | nil => exact ⟨p, .nil, h⟩
  | cons r reqs ih =>
    have ho : ∀ query o, r = .add query o → ∀ l, (o l).Perm l := fun query o e => hu.order query o (by simp [e])
    have h1 := NodeInv.run hu.apart hu.closed G (reqOps env st s r) h
      (fun op hop => hu.uses op (reqOps_asked env st s r ho op hop))
      (hcut.imp id (fun hc => allThere_req env content st s r ho hc.1))
    rw [← reqOps_run env st ls s r pinsMoved p] at h1
    obtain ⟨p', h2, h3⟩ := ih _ _ hu.tail (hcut.imp id (fun hc => hc.2)) h1
    exact ⟨p', .cons (reqOps_means env st ls s r p ho) h2, h3⟩

/-! ### The store on disk, with what it lists -/

theorem fs_moved_tidy {le : Cid → Cid → Bool} {refs : Cid → List Cid} {g : FsPins} {k : Pins} (h : FsInv refs g k ∧ Tidy g k)
    (op : PinOp) (nop : NodeOp) (hn : pinsMoved k nop true = k.after op) :
    FsInv refs (diskResult g (fsSteps le refs g op)).2 (pinsMoved k nop (diskResult g (fsSteps le refs g op)).1.isOk) ∧
      Tidy (diskResult g (fsSteps le refs g op)).2 (pinsMoved k nop (diskResult g (fsSteps le refs g op)).1.isOk) := by
  rcases fs_steps (le := le) h.1 op with ⟨_, st, e, i, _⟩ | ⟨_, x, e⟩
  · rw [e]
    show FsInv refs (runSteps g st) (pinsMoved k nop true) ∧ Tidy (runSteps g st) (pinsMoved k nop true)
    rw [hn]
    exact ⟨i, tidy_steps h.1 h.2 op e i⟩
  · rw [e]
    show FsInv refs g (pinsMoved k nop false) ∧ Tidy g (pinsMoved k nop false)
    rw [pinsMoved_false]
    exact h

theorem fsGuardTidy (le : Cid → Cid → Bool) (refs : Cid → List Cid) (U : Cid → Prop) :
    Guard (fsStore le) refs U True pinsMoved (fun k r => k.root r = true) (fun k c => k.Pinned refs c)
      (fun g k => FsInv refs g k ∧ Tidy g k) := by
  have hcut : ∀ g c L, none ∈ L → FsPins.insertRecursive le g c L = .error .refs := by
    intro g c L hL
    simp [FsPins.insertRecursive, collectRefs_fails le L hL]
  refine pinsGuard ?_ ?_ ?_ ?_ ?_ ?_
  · intro g k c h hp
    obtain ⟨b, h1, h2⟩ := h.1.isPinned c
    simp only [fsStore, h1]
    exact h2.mpr hp
  · intro g k c _ h
    exact fs_moved_tidy (le := le) h (.insertDirect c) (.pin c false) rfl
  · intro g k c _ h
    exact fs_moved_tidy (le := le) h (.removeDirect c) (.unpin c false) rfl
  · intro g k c L _ h hL
    rcases hL with rfl | ⟨-, hL⟩
    · exact fs_moved_tidy (le := le) h (.insertRecursive c) (.pin c true) rfl
    · simp only [fsStore, hcut g c L hL]
      show FsInv refs g (pinsMoved k _ false) ∧ Tidy g (pinsMoved k _ false)
      rw [pinsMoved_false]; exact h
  · intro g c L hL
    simp only [fsStore, hcut g c L hL]
    rfl
  · intro g k c L _ h _
    exact fs_moved_tidy (le := le) h (.removeRecursive c) (.unpin c true) rfl

/-! ### Listings -/

theorem readLine_pinLine (c : Cid) (t : Bytes) (h : utf8Ok t = true) : readLine (pinLine c t) = some (c.toText, t) := by
  have hw : Writable (.obj [("Cid".toUTF8.toList, .str c.toText), ("Type".toUTF8.toList, .str t)]) :=
    ⟨by decide +kernel, utf8Ok_toText c, by decide +kernel, h, trivial⟩
  unfold readLine pinLine
  rw [C65_write _ hw [10] (fun n hn => by cases hn), if_pos (by simp [nesting, nestingMap])]
  simp

theorem modeName_utf8 (m : PinMode) : utf8Ok (modeName m) = true := by cases m <;> decide +kernel

theorem kindName_utf8 (k : PinKind) : utf8Ok (kindName k) = true := by
  cases k with
  | indirectFrom c =>
    unfold kindName
    rw [utf8Ok_append (by decide +kernel)]
    exact utf8Ok_toText c
  | _ => simp only [kindName]; decide +kernel

theorem listing_of {env : PinHttp ε} {content : Cid → Bytes} {ls : PinLister σ ε} {s : RepoState σ} {p : Pins} {named : Cid → Cid}
    {Asked : List Cid → Prop} {shown : Option PinMode → Cid → Bytes → Prop} (L : Option PinMode → Cid → PinMode → Prop)
    (K : Option PinMode → Cid → PinKind → Prop)
    (hlist : ∀ filter, ∃ l : List (Cid × PinMode), ls.list s.pins filter = l.map Except.ok ∧ (l.map Prod.fst).Nodup ∧
      ∀ c m, (c, m) ∈ l ↔ L filter c m)
    (hquery : ∀ cids filter, Asked cids → (∃ l, ls.query s.pins cids filter = .ok l ∧ l.map Prod.fst = cids ∧
        ∀ e ∈ l, K filter e.1 e.2) ∨
      (∃ e, ls.query s.pins cids filter = .error e ∧ ∃ c ∈ cids, ∀ m, ¬ L filter c m))
    (hshown : ∀ filter c t, shown filter c t ↔ ∃ m, t = modeName m ∧ L filter c m)
    (hanswer : ∀ filter c k, K filter c k → L filter c (kindMode k) ∧
      ∀ r, k = .indirectFrom r → NamesRoot env.pin content p named c (kindName (.indirectFrom r))) :
    Listing env content ls s p named Asked shown := by
  have hmode : ∀ m n, modeName m = modeName n → m = n := by
    intro m n; cases m <;> cases n <;> decide +kernel
  have hno : ∀ filter c, (∀ m, ¬ L filter c m) → ¬ ∃ t, shown filter c t := by
    rintro filter c h ⟨t, ht⟩
    obtain ⟨m, -, hm⟩ := (hshown ..).mp ht
    exact h m hm
  refine ⟨?_, ?_, ?_⟩
  · intro query filter hq
    have hr := (C70_list_query env.block.q query ⟨[], filter, true⟩).mpr hq
    obtain ⟨l, h1, h2, h3⟩ := hlist filter
    refine ⟨l.map (fun e => (e.1, modeName e.2)), ⟨l.map (fun e => pinLine e.1 (modeName e.2)), ?_, ?_⟩, ?_, ?_⟩
    · simp only [pinList, hr, if_true, h1, List.map_map]
      rfl
    · simp only [List.map_map]
      exact List.map_congr_left (fun e _ => readLine_pinLine _ _ (modeName_utf8 _))
    · rw [List.map_map]; exact h2
    · intro c t
      rw [hshown, List.mem_map]
      constructor
      · rintro ⟨⟨c', m⟩, hm, he⟩
        simp only [Prod.mk.injEq] at he
        obtain ⟨rfl, rfl⟩ := he
        exact ⟨m, rfl, (h3 _ _).mp hm⟩
      · rintro ⟨m, rfl, hm⟩
        exact ⟨(c, m), (h3 _ _).mpr hm, rfl⟩
  · intro query cids filter hne ha hq
    have hr := (C70_list_query env.block.q query ⟨cids, filter, true⟩).mpr hq
    refine ⟨fun hall => ?_, fun hex => ?_⟩
    · rcases hquery cids filter ha with ⟨l, h1, h2, h3⟩ | ⟨e, -, c, hc, hm⟩
      · refine ⟨l.map (fun e => (e.1, kindName e.2)), ⟨l.map (fun e => pinLine e.1 (kindName e.2)), ?_, ?_⟩, ?_, ?_⟩
        · simp only [pinList, hr, hne, if_false, h1, if_true]
        · simp only [List.map_map]
          exact List.map_congr_left (fun e _ => readLine_pinLine _ _ (kindName_utf8 _))
        · rw [List.map_map]; exact h2
        · intro e he
          obtain ⟨⟨c, k⟩, hk, rfl⟩ := List.mem_map.mp he
          obtain ⟨h4, h5⟩ := hanswer filter c k (h3 _ hk)
          simp only
          cases k with
          | indirectFrom r => exact Or.inr ⟨(hshown ..).mpr ⟨.indirect, rfl, h4⟩, h5 r rfl⟩
          | recursive n => exact Or.inl ⟨(hshown ..).mpr ⟨.recursive, rfl, h4⟩, by simp only [kindName]; decide +kernel⟩
          | recursiveIntention => exact Or.inl ⟨(hshown ..).mpr ⟨.recursive, rfl, h4⟩, by simp only [kindName]; decide +kernel⟩
          | direct => exact Or.inl ⟨(hshown ..).mpr ⟨.direct, rfl, h4⟩, by simp only [kindName]; decide +kernel⟩
      · exact absurd (hall c hc) (hno filter c hm)
    · rcases hquery cids filter ha with ⟨l, h1, h2, h3⟩ | ⟨e, h1, -⟩
      · obtain ⟨c, hc, hn⟩ := hex
        rw [← h2] at hc
        obtain ⟨⟨c', k⟩, hk, rfl⟩ := List.mem_map.mp hc
        exact absurd ((hshown ..).mpr ⟨_, rfl, (hanswer filter _ k (h3 _ hk)).1⟩) (hn _)
      · exact ⟨e, by simp only [pinList, hr, hne, if_false, h1]⟩
  · intro query cids filter ha hq hall
    have hr := (C70_list_query env.block.q query ⟨cids, filter, false⟩).mpr hq
    simp only [pinList, hr]
    split
    · rfl
    · rcases hquery cids filter ha with ⟨l, h1, h2, h3⟩ | ⟨e, -, c, hc, hm⟩
      · rw [h1]; rfl
      · exact absurd (hall c hc) (hno filter c hm)

theorem indirect_iff {env : PinEnv} {content : Cid → Bytes} {p : Pins}
    (h : ∀ r, p.root r = true → ∃ ls items, Whole env content r ls items) (c : Cid) :
    p.Indirect (treeRefs env content) c ↔ IsBelow env content p c := by
  constructor
  · rintro ⟨r, h1, h2⟩
    obtain ⟨ls, items, hw⟩ := h r h1
    exact ⟨r, h1, (hw.below c).mp h2⟩
  · rintro ⟨r, h1, h2⟩
    obtain ⟨ls, items, hw⟩ := h r h1
    exact ⟨r, h1, (hw.below c).mpr h2⟩

/-- **C70** (store on disk): after every history of requests that pin, unpin, list, store, read and remove, what the answers
with success say is pinned is there, with everything below what was pinned recursively; it is refused to be removed, nothing
else is, and `pin/ls` lists exactly this. -/
theorem C70_disk (env : PinHttp PinErr) (content : Cid → Bytes) (U : Cid → Prop) (le : Cid → Cid → Bool) (reqs : List PinRequest)
    (hu : ReqsInUse env content U reqs) :
    let r := servePins env (fsStore le) fsLister ⟨[], [], []⟩ reqs
    ∃ p, PinExplained env.block Pins.none reqs (r.2.map succeeded) p ∧ Guarded env.pin content (fsStore le) r.1 p ∧
      Listing env content fsLister r.1 p id List.Nodup (ShownDisk env.pin content p) := by
  intro r
  obtain ⟨p, h1, h2⟩ := servePins_inv env content U (ls := fsLister) (fsGuardTidy le _ U) reqs ⟨[], [], []⟩ Pins.none hu (Or.inl trivial) (by
    refine ⟨⟨FsInv.nil _, by intro c hc; simp [FsPins.isFile, AMap.get] at hc⟩, ?_, ?_, ?_⟩
    · intro c _ b hb; simp [MemBlocks.getBlock, AMap.get] at hb
    · intro d hd; simp [Pins.Pinned, Pins.Indirect, Pins.none] at hd
    · intro r hr; simp [Pins.none] at hr)
  refine ⟨p, h1, guarded_of h2 (fun c => ?_), ?_⟩
  · obtain ⟨b, h3, h4⟩ := h2.pins.1.isPinned c
    simp only [fsStore]
    rw [h3]
    exact h4
  · have hi := indirect_iff h2.whole
    refine listing_of (FsListed (treeRefs env.pin content) p) (FsFits (treeRefs env.pin content) p) ?_ ?_ ?_ ?_
    · intro filter
      obtain ⟨l, h3, h4, h5⟩ := h2.pins.1.list h2.pins.2 filter
      refine ⟨l, ?_, h4, h5⟩
      show streamed (FsPins.list _ filter) = _
      rw [h3]; rfl
    · intro cids filter hn
      rcases h2.pins.1.query cids filter with ⟨l, h3, h4, h5, h6⟩ | h3
      · exact Or.inl ⟨l, h3, sublist_cover_eq hn h4 h5, h6⟩
      · exact Or.inr h3
    · intro filter c t
      constructor
      · rintro (⟨rfl, h3, h4⟩ | ⟨rfl, h3, h4, h5⟩ | ⟨rfl, h3, h4⟩)
        · refine ⟨.recursive, rfl, ?_⟩
          rcases h3 with rfl | rfl
          · exact h4
          · exact ⟨rfl, h4⟩
        · refine ⟨.direct, rfl, ?_⟩
          rcases h3 with rfl | rfl
          · exact ⟨h4, h5⟩
          · exact ⟨rfl, h4, h5⟩
        · refine ⟨.indirect, rfl, ?_⟩
          rcases h3 with rfl | ⟨rfl, h5, h6⟩
          · exact ⟨rfl, (hi c).mpr h4⟩
          · exact ⟨h5, h6, (hi c).mpr h4⟩
      · rintro ⟨m, rfl, h3⟩
        cases filter with
        | none =>
          cases m with
          | recursive => exact Or.inl ⟨rfl, Or.inl rfl, h3⟩
          | direct => exact Or.inr (Or.inl ⟨rfl, Or.inl rfl, h3⟩)
          | indirect => exact Or.inr (Or.inr ⟨rfl, Or.inr ⟨rfl, h3.1, h3.2.1⟩, (hi c).mp h3.2.2⟩)
        | some o =>
          cases o with
          | recursive => obtain ⟨rfl, h4⟩ := h3; exact Or.inl ⟨rfl, Or.inr rfl, h4⟩
          | direct => obtain ⟨rfl, h4⟩ := h3; exact Or.inr (Or.inl ⟨rfl, Or.inr rfl, h4⟩)
          | indirect => obtain ⟨rfl, h4⟩ := h3; exact Or.inr (Or.inr ⟨rfl, Or.inl rfl, (hi c).mp h4⟩)
    · rintro filter c k ⟨h3, h4⟩
      refine ⟨h3, fun x hx => ?_⟩
      obtain ⟨h5, h6⟩ := h4 x hx
      obtain ⟨ls, items, hw⟩ := h2.whole x h5
      exact ⟨x, h5, (hw.below c).mp h6, rfl⟩

theorem mem_query_cases {refs : Cid → List Cid} {T : Cid → Prop} {g : MemPins} {s : Pins} (h : MemInv refs T g s)
    (cids : List Cid) (req : Option PinMode) :
    (∃ l, g.query cids req = .ok l ∧ l.map Prod.fst = cids ∧
      ∀ e ∈ l, KindFits refs s e.1 e.2 ∧ (req = none ∨ req = some (kindMode e.2))) ∨
    (∃ e, g.query cids req = .error e ∧ ∃ c ∈ cids, ¬ PinnedAs (MemMode refs s) req c) := by
  unfold MemPins.query
  induction cids with
  | nil => exact Or.inl ⟨[], rfl, rfl, by simp⟩
  | cons c cs ih =>
    rcases h.queryOne req c with ⟨-, k, hk, hf, hr⟩ | ⟨hp, e, he⟩
    · rcases ih with ⟨l, h1, h2, h3⟩ | ⟨e, h1, x, hx, h2⟩
      · refine Or.inl ⟨(c, k) :: l, ?_, by simp [h2], ?_⟩
        · simp only [List.mapM_cons, hk]
          rw [h1]; rfl
        · intro e he
          rcases List.mem_cons.mp he with rfl | he
          · exact ⟨hf, hr⟩
          · exact h3 e he
      · refine Or.inr ⟨e, ?_, x, by simp [hx], h2⟩
        simp only [List.mapM_cons, hk]
        rw [h1]; rfl
    · refine Or.inr ⟨e, ?_, c, by simp, hp⟩
      simp only [List.mapM_cons, he]; rfl

/-- **C70** (in-memory store): the same if everything below what is asked to be pinned recursively is at hand. A cid that is
pinned both directly and indirectly is shown as indirect, and the root is named by its version 1. -/
theorem C70_memory (env : PinHttp PinErr) (content : Cid → Bytes) (U : Cid → Prop) (le : Cid → Cid → Bool) (reqs : List PinRequest)
    (hu : ReqsInUse env content U reqs) (ha : AllAtHand env content (memStore le) memLister ⟨[], [], []⟩ reqs) :
    let r := servePins env (memStore le) memLister ⟨[], [], []⟩ reqs
    ∃ p, PinExplained env.block Pins.none reqs (r.2.map succeeded) p ∧ Guarded env.pin content (memStore le) r.1 p ∧
      Listing env content memLister r.1 p (fun c => ⟨.v1, c.codec, c.mhCode, c.digest⟩) (fun _ => True)
        (ShownMemory env.pin content p) := by
  intro r
  obtain ⟨p, h1, h2⟩ := servePins_inv env content U (memGuard le _ (treeRefs_nodup env.pin content) U hu.v1) reqs
    ⟨[], [], []⟩ Pins.none hu (Or.inr ha) (by
    refine ⟨MemInv.nil _ _, ?_, ?_, ?_⟩
    · intro c _ b hb; simp [MemBlocks.getBlock, AMap.get] at hb
    · intro d hd; simp [Pins.Pinned, Pins.Indirect, Pins.none] at hd
    · intro r hr; simp [Pins.none] at hr)
  refine ⟨p, h1, guarded_of h2 (fun c => h2.pins.isPinned c), ?_⟩
  have hi := indirect_iff h2.whole
  refine listing_of (fun filter c m => MemMode (treeRefs env.pin content) p c m ∧ (filter = none ∨ filter = some m))
    (fun filter c k => KindFits (treeRefs env.pin content) p c k ∧ (filter = none ∨ filter = some (kindMode k))) ?_ ?_ ?_ ?_
  · intro filter
    exact h2.pins.list filter
  · intro cids filter _
    rcases mem_query_cases h2.pins cids filter with h3 | ⟨e, h3, c, hc, h4⟩
    · exact Or.inl h3
    · exact Or.inr ⟨e, h3, c, hc, fun m hm => h4 ⟨m, hm⟩⟩
  · intro filter c t
    constructor
    · rintro (⟨rfl, h3, h4⟩ | ⟨rfl, h3, h4, h5⟩ | ⟨rfl, h3, h4, h5, h6⟩)
      · exact ⟨.recursive, rfl, h4, h3⟩
      · exact ⟨.indirect, rfl, ⟨h4, (hi c).mpr h5⟩, h3⟩
      · exact ⟨.direct, rfl, ⟨h4, fun hx => h5 ((hi c).mp hx), h6⟩, h3⟩
    · rintro ⟨m, rfl, h3, h4⟩
      cases m with
      | recursive => exact Or.inl ⟨rfl, h4, h3⟩
      | indirect => exact Or.inr (Or.inl ⟨rfl, h4, h3.1, (hi c).mp h3.2⟩)
      | direct => exact Or.inr (Or.inr ⟨rfl, h4, h3.1, fun hx => h3.2.1 ((hi c).mpr hx), h3.2.2⟩)
  · rintro filter c k ⟨h3, h4⟩
    refine ⟨⟨h3.mode, h4⟩, fun x hx => ?_⟩
    subst hx
    obtain ⟨-, y, h5, h6, rfl⟩ := h3
    obtain ⟨ls, items, hw⟩ := h2.whole y h5
    exact ⟨y, h5, (hw.below c).mp h6, rfl⟩

/-! ### When requests succeed -/

theorem insertPins_cons_ok (env : PinEnv) (st : PinStore σ ε) (r : Bool) (s : RepoState σ) (c : Cid) (cs : List Cid) :
    (insertPins env st r s (c :: cs)).1.isOk = true ↔
      (insertPin env st s c r).1.isOk = true ∧ (insertPins env st r (insertPin env st s c r).2 cs).1.isOk = true := by
  rw [insertPins]
  cases insertPin env st s c r with
  | mk res s' => cases res <;> simp [Except.isOk, Except.toBool]

theorem insertPins_direct {env : PinEnv} {content : Cid → Bytes} {U : Cid → Prop} {cut : Prop} {Inv : σ → Pins → Prop}
    {st : PinStore σ ε} (hU : ∀ a b, U a → U b → a.mh = b.mh → a = b) (hcl : ∀ a b, U a → LinkTo env content a b → U b)
    (G : Guard st (treeRefs env content) U cut pinsMoved (fun k r => k.root r = true)
      (fun k c => k.Pinned (treeRefs env content) c) Inv)
    (hA : ∀ g p c, Inv g p → U c → ((st.insertDirect g c).1.isOk = true ↔ p.root c = false))
    (cs : List Cid) (hc : ∀ c ∈ cs, U c) (s : RepoState σ) (p : Pins)
    (h : NodeInv env content U (fun k r => k.root r = true) (fun k c => k.Pinned (treeRefs env content) c) Inv s p) :
    (insertPins env st false s cs).1.isOk = true ↔ ∀ c ∈ cs, (s.blocks.getBlock c).isSome = true ∧ p.root c = false := by
  induction cs generalizing s p with
  | nil => simp [insertPins, Except.isOk, Except.toBool]
  | cons c cs ih =>
    rw [insertPins_cons_ok, pin_direct_answer, hA _ _ _ h.pins (hc c (by simp))]
    have hs := h.step hU hcl G (.pin c false) (hc c (by simp)) (Or.inr (fun _ hx => by cases hx))
    have hr := ih (fun x hx => hc x (by simp [hx])) _ _ hs
    have hb : (nodeStep env st s (.pin c false)).2.blocks = s.blocks := insertPin_blocks ..
    have hroot : ∀ ok, (pinsMoved p (.pin c false) ok).root = p.root := by intro ok; cases ok <;> rfl
    rw [hb, hroot] at hr
    show _ ∧ (insertPins env st false (nodeStep env st s (.pin c false)).2 cs).1.isOk = true ↔ _
    rw [hr]
    simp

/-- Everything is at hand. -/
def AllHere (env : PinEnv) (content : Cid → Bytes) (blocks : MemBlocks) (c : Cid) : Prop :=
  Here env content blocks c ∧ ∀ d, Below env content c d → Here env content blocks d

/-- The store lets the pins be made, one after another. -/
def OneByOne (A : Pins → Cid → Prop) : Pins → List Cid → Prop
  | _, [] => True
  | p, c :: cs => A p c ∧ OneByOne A (pinsMoved p (.pin c true) true) cs

theorem insertPin_endless {env : PinEnv} {st : PinStore σ ε} {s s' : RepoState σ} (hb : s'.blocks = s.blocks) (c : Cid)
    (h : (insertPin env st s c true).1 ≠ .error .endless) : (insertPin env st s' c true).1 ≠ .error .endless := by
  have hstore : ∀ (s : RepoState σ) (r : Except ε Unit × σ), (pinsAfter s r).1 ≠ .error .endless := by
    intro s r
    unfold pinsAfter
    split <;> simp
  unfold insertPin at h ⊢
  rw [hb]
  cases hg : s.blocks.getBlock c with
  | none => simp
  | some b =>
    simp only [hg, if_true] at h ⊢
    cases hd : descendants (ε := ε) env s.blocks c b.data with
    | error e => simpa [hd] using h
    | ok L => exact hstore _ _

theorem insertPins_recursive {env : PinEnv} {content : Cid → Bytes} {U : Cid → Prop} {cut : Prop} {Inv : σ → Pins → Prop}
    {st : PinStore σ ε} (hU : ∀ a b, U a → U b → a.mh = b.mh → a = b) (hcl : ∀ a b, U a → LinkTo env content a b → U b)
    (G : Guard st (treeRefs env content) U cut pinsMoved (fun k r => k.root r = true)
      (fun k c => k.Pinned (treeRefs env content) c) Inv) (A : Pins → Cid → Prop)
    (hA : ∀ g p c, Inv g p → U c →
      ((st.insertRecursive g c ((treeRefs env content c).map some)).1.isOk = true ↔ A p c))
    (cs : List Cid) (hc : ∀ c ∈ cs, U c) (s : RepoState σ) (p : Pins)
    (he : ∀ c ∈ cs, (insertPin env st s c true).1 ≠ .error .endless)
    (h : NodeInv env content U (fun k r => k.root r = true) (fun k c => k.Pinned (treeRefs env content) c) Inv s p) :
    (insertPins env st true s cs).1.isOk = true ↔ (∀ c ∈ cs, AllHere env content s.blocks c) ∧ OneByOne A p cs := by
  induction cs generalizing s p with
  | nil => simp [insertPins, Except.isOk, Except.toBool, OneByOne]
  | cons c cs ih =>
    have hcU := hc c (by simp)
    rw [insertPins_cons_ok, pin_answer hcl G.insertCut h hcU (he c (by simp)), hA _ _ _ h.pins hcU]
    by_cases hx : AllHere env content s.blocks c ∧ A p c
    · have hok : (insertPin env st s c true).1.isOk = true := by
        rw [pin_answer hcl G.insertCut h hcU (he c (by simp)), hA _ _ _ h.pins hcU]
        exact hx
      have hs := h.step hU hcl G (.pin c true) hcU (Or.inr (fun x hxc b L hg hL => by
        cases hxc
        exact walk_notCut hcl h.blocks hcU hx.1.2 hg hL))
      have hb : (nodeStep env st s (.pin c true)).2.blocks = s.blocks := insertPin_blocks ..
      have hok' : (nodeStep env st s (.pin c true)).1 = true := hok
      rw [hok'] at hs
      have hr := ih (fun x hx => hc x (by simp [hx])) _ _ (fun x hx => insertPin_endless hb x (he x (by simp [hx]))) hs
      rw [hb] at hr
      show _ ∧ (insertPins env st true (nodeStep env st s (.pin c true)).2 cs).1.isOk = true ↔ _
      rw [hr]
      simp only [List.forall_mem_cons, OneByOne]
      constructor
      · rintro ⟨-, h2, h3⟩
        exact ⟨⟨hx.1, h2⟩, hx.2, h3⟩
      · rintro ⟨⟨-, h2⟩, -, h3⟩
        exact ⟨hx, h2, h3⟩
    · simp only [List.forall_mem_cons, OneByOne]
      constructor
      · rintro ⟨h1, -⟩
        exact absurd h1 hx
      · rintro ⟨⟨h1, -⟩, h2, -⟩
        exact absurd ⟨h1, h2⟩ hx

theorem addAsked_functional {q : QueryEnv} {query : Bytes} {cids : List Cid} {r pr : Bool} (h : AddAsked q query cids r pr) :
    addRequest q query = .ok ⟨cids, r, pr⟩ := (C70_add_query q query ⟨cids, r, pr⟩).mpr h

theorem succeeded_added (args : List Cid) (res : Except (PinFail ε) Unit) : succeeded (addedAnswer args res) = res.isOk := by
  cases res with
  | error e => exact pinFailed_not e
  | ok u => rfl

theorem succeeded_removed (c : Cid) (res : Except (PinFail ε) Unit) : succeeded (removedAnswer c res) = res.isOk := by
  cases res with
  | error e => exact pinFailed_not e
  | ok u => rfl

theorem add_succeeded (env : PinHttp ε) (st : PinStore σ ε) (ls : PinLister σ ε) (s : RepoState σ) {query : Bytes}
    {cids : List Cid} {r : Bool} (h : AddAsked env.block.q query cids r false) (order : List Cid → List Cid) :
    succeeded (servePin env st ls s (.add (some query) order)).2 = (insertPins env.pin st r s (order cids)).1.isOk := by
  simp only [servePin, pinAdd, addAsked_functional h, Bool.false_eq_true, if_false, succeeded_added]

theorem rm_succeeded (env : PinHttp ε) (st : PinStore σ ε) (ls : PinLister σ ε) (s : RepoState σ) {query : Option Bytes}
    {c : Cid} {r : Bool} (h : UnpinAsked env.block.q (query.getD []) c r) :
    succeeded (servePin env st ls s (.rm query)).2 = (removePin env.pin st s c r).1.isOk := by
  simp only [servePin, pinRm, (C70_remove_query ..).mpr h, succeeded_removed]

/-- **C70** (store on disk): when `pin/add` and `pin/rm` succeed after such a history. -/
theorem C70_disk_answers (env : PinHttp PinErr) (content : Cid → Bytes) (U : Cid → Prop) (le : Cid → Cid → Bool)
    (reqs : List PinRequest) (hu : ReqsInUse env content U reqs) :
    let r := servePins env (fsStore le) fsLister ⟨[], [], []⟩ reqs
    let ok := fun req => succeeded (servePin env (fsStore le) fsLister r.1 req).2
    ∃ p, PinExplained env.block Pins.none reqs (r.2.map succeeded) p ∧
      (∀ query cids order, (∀ l, (order l).Perm l) → (∀ c ∈ cids, U c) → AddAsked env.block.q query cids false false →
        (ok (.add (some query) order) = true ↔
          ∀ c ∈ cids, (r.1.blocks.getBlock c).isSome = true ∧ p.root c = false)) ∧
      (∀ query cids order, (∀ l, (order l).Perm l) → (∀ c ∈ cids, U c) → AddAsked env.block.q query cids true false →
        (∀ c ∈ cids, (insertPin env.pin (fsStore le) r.1 c true).1 ≠ .error .endless) →
        (ok (.add (some query) order) = true ↔ ∀ c ∈ cids, AllHere env.pin content r.1.blocks c)) ∧
      (∀ query c, U c → UnpinAsked env.block.q (query.getD []) c false → (ok (.rm query) = true ↔ p.direct c = true)) ∧
      (∀ query c, U c → UnpinAsked env.block.q (query.getD []) c true →
        (removePin env.pin (fsStore le) r.1 c true).1 ≠ .error .endless →
        (ok (.rm query) = true ↔ p.root c = true ∨ (p.direct c = true ∧ Here env.pin content r.1.blocks c))) := by
  intro r ok
  obtain ⟨p, h1, h⟩ := servePins_inv env content U (ls := fsLister) (fsGuard le _ U) reqs ⟨[], [], []⟩ Pins.none hu (Or.inl trivial) (by
    refine ⟨FsInv.nil _, ?_, ?_, ?_⟩
    · intro c _ b hb; simp [MemBlocks.getBlock, AMap.get] at hb
    · intro d hd; simp [Pins.Pinned, Pins.Indirect, Pins.none] at hd
    · intro r hr; simp [Pins.none] at hr)
  refine ⟨p, h1, ?_, ?_, ?_, ?_⟩
  · intro query cids order ho hc hq
    simp only [ok, add_succeeded _ _ _ _ hq]
    rw [insertPins_direct hu.apart hu.closed (fsGuard le _ U)
      (fun g p c hi _ => fs_allows (le := le) hi (.insertDirect c)) (order cids)
      (fun c hx => hc c ((ho cids).mem_iff.mp hx)) _ p h]
    exact ⟨fun hx c hc => hx c ((ho cids).mem_iff.mpr hc), fun hx c hc => hx c ((ho cids).mem_iff.mp hc)⟩
  · intro query cids order ho hc hq he
    simp only [ok, add_succeeded _ _ _ _ hq]
    rw [insertPins_recursive hu.apart hu.closed (fsGuard le _ U) (fun _ _ => True)
      (fun g p c hi _ => fs_allows (le := le) hi (.insertRecursive c)) (order cids)
      (fun c hx => hc c ((ho cids).mem_iff.mp hx)) _ p (fun c hx => he c ((ho cids).mem_iff.mp hx)) h]
    have hone : ∀ cs p, OneByOne (fun _ _ => True) p cs := by
      intro cs
      induction cs with
      | nil => exact fun _ => trivial
      | cons c cs ih => exact fun _ => ⟨trivial, ih _⟩
    exact ⟨fun hx c hc => hx.1 c ((ho cids).mem_iff.mpr hc), fun hx => ⟨fun c hc => hx c ((ho cids).mem_iff.mp hc), hone _ _⟩⟩
  · intro query c hc hq
    simp only [ok, rm_succeeded _ _ _ _ hq, removePin, Bool.false_eq_true, if_false, (pinsAfter_isOk _ _).1]
    exact fs_allows (le := le) h.pins (.removeDirect c)
  · intro query c hc hq he
    simp only [ok, rm_succeeded _ _ _ _ hq]
    rw [unpin_answer h hc ((fsGuard le (treeRefs env.pin content) U).rootKeeps _ c) (fun L _ => rfl) he]
    have := fs_allows (le := le) h.pins (.removeRecursive c)
    have this' : ((fsStore le).removeRecursive r.1.pins c ((treeRefs env.pin content c).map some)).1.isOk = true ↔
        p.root c = true ∨ p.direct c = true := this
    rw [this']
    exact ⟨fun ⟨h1, h2⟩ => by rcases h2 with h2 | h2
                              · exact Or.inl h2
                              · exact h1.imp id (fun h1 => ⟨h2, h1⟩),
      fun h => by rcases h with h | h
                  · exact ⟨Or.inl h, Or.inl h⟩
                  · exact ⟨Or.inr h.2, Or.inr h.1⟩⟩

/-- **C70** (in-memory store): when `pin/add` and `pin/rm` succeed. A cid that is pinned recursively, or given twice, makes a
recursive request fail. -/
theorem C70_memory_answers (env : PinHttp PinErr) (content : Cid → Bytes) (U : Cid → Prop) (le : Cid → Cid → Bool)
    (reqs : List PinRequest) (hu : ReqsInUse env content U reqs)
    (ha : AllAtHand env content (memStore le) memLister ⟨[], [], []⟩ reqs) :
    let r := servePins env (memStore le) memLister ⟨[], [], []⟩ reqs
    let ok := fun req => succeeded (servePin env (memStore le) memLister r.1 req).2
    ∃ p, PinExplained env.block Pins.none reqs (r.2.map succeeded) p ∧
      (∀ query cids order, (∀ l, (order l).Perm l) → (∀ c ∈ cids, U c) → AddAsked env.block.q query cids false false →
        (ok (.add (some query) order) = true ↔
          ∀ c ∈ cids, (r.1.blocks.getBlock c).isSome = true ∧ p.root c = false)) ∧
      (∀ query cids order, (∀ l, (order l).Perm l) → (∀ c ∈ cids, U c) → AddAsked env.block.q query cids true false →
        (∀ c ∈ cids, (insertPin env.pin (memStore le) r.1 c true).1 ≠ .error .endless) →
        (ok (.add (some query) order) = true ↔
          cids.Nodup ∧ ∀ c ∈ cids, AllHere env.pin content r.1.blocks c ∧ p.root c = false)) ∧
      (∀ query c, U c → UnpinAsked env.block.q (query.getD []) c false → (ok (.rm query) = true ↔ p.direct c = true)) ∧
      (∀ query c, U c → UnpinAsked env.block.q (query.getD []) c true →
        (removePin env.pin (memStore le) r.1 c true).1 ≠ .error .endless →
        (ok (.rm query) = true ↔ p.root c = true ∨
          (p.direct c = true ∧ ¬ IsBelow env.pin content p c ∧ Here env.pin content r.1.blocks c))) := by
  intro r ok
  have hn := treeRefs_nodup env.pin content
  have G := memGuard le _ hn U hu.v1
  obtain ⟨p, h1, h⟩ := servePins_inv env content U G reqs ⟨[], [], []⟩ Pins.none hu (Or.inr ha) (by
    refine ⟨MemInv.nil _ _, ?_, ?_, ?_⟩
    · intro c _ b hb; simp [MemBlocks.getBlock, AMap.get] at hb
    · intro d hd; simp [Pins.Pinned, Pins.Indirect, Pins.none] at hd
    · intro r hr; simp [Pins.none] at hr)
  refine ⟨p, h1, ?_, ?_, ?_, ?_⟩
  · intro query cids order ho hc hq
    simp only [ok, add_succeeded _ _ _ _ hq]
    rw [insertPins_direct hu.apart hu.closed G
      (fun g p c hi _ => mem_allows (le := le) hn hu.v1 hi (.insertDirect c) (by simp [PinOp.root?])) (order cids)
      (fun c hx => hc c ((ho cids).mem_iff.mp hx)) _ p h]
    exact ⟨fun hx c hc => hx c ((ho cids).mem_iff.mpr hc), fun hx c hc => hx c ((ho cids).mem_iff.mp hc)⟩
  · intro query cids order ho hc hq he
    simp only [ok, add_succeeded _ _ _ _ hq]
    rw [insertPins_recursive hu.apart hu.closed G (fun p c => p.root c = false)
      (fun g p c hi hcU => mem_allows (le := le) hn hu.v1 hi (.insertRecursive c) (by
        simp only [PinOp.root?, Option.some.injEq]; rintro _ rfl; exact hcU)) (order cids)
      (fun c hx => hc c ((ho cids).mem_iff.mp hx)) _ p (fun c hx => he c ((ho cids).mem_iff.mp hx)) h]
    have hone : ∀ cs p, OneByOne (fun p c => p.root c = false) p cs ↔ cs.Nodup ∧ ∀ c ∈ cs, p.root c = false := by
      intro cs
      induction cs with
      | nil => simp [OneByOne]
      | cons c cs ih =>
        intro p
        simp only [OneByOne, ih, List.nodup_cons, List.forall_mem_cons]
        have hroot : ∀ x, (pinsMoved p (.pin c true) true).root x = if x = c then true else p.root x := fun x => rfl
        simp only [hroot]
        constructor
        · rintro ⟨h1, h2, h3⟩
          refine ⟨⟨fun hm => by simpa using h3 c hm, h2⟩, h1, fun x hx => ?_⟩
          have := h3 x hx
          split at this
          · cases this
          · exact this
        · rintro ⟨⟨h1, h2⟩, h3, h4⟩
          refine ⟨h3, h2, fun x hx => ?_⟩
          rw [if_neg (by rintro rfl; exact h1 hx)]
          exact h4 x hx
    rw [hone, (ho cids).nodup_iff]
    constructor
    · rintro ⟨h2, h3, h4⟩
      exact ⟨h3, fun c hc => ⟨h2 c ((ho cids).mem_iff.mpr hc), h4 c ((ho cids).mem_iff.mpr hc)⟩⟩
    · rintro ⟨h3, h4⟩
      exact ⟨fun c hc => (h4 c ((ho cids).mem_iff.mp hc)).1, h3, fun c hc => (h4 c ((ho cids).mem_iff.mp hc)).2⟩
  · intro query c hc hq
    simp only [ok, rm_succeeded _ _ _ _ hq, removePin, Bool.false_eq_true, if_false, (pinsAfter_isOk _ _).1]
    exact mem_allows (le := le) hn hu.v1 h.pins (.removeDirect c) (by simp [PinOp.root?])
  · intro query c hc hq he
    simp only [ok, rm_succeeded _ _ _ _ hq]
    rw [unpin_answer h hc (G.rootKeeps _ c) ?_ he]
    · have h3 := mem_allows (le := le) hn hu.v1 h.pins (.removeRecursive c) (by
        simp only [PinOp.root?, Option.some.injEq]; rintro _ rfl; exact hc)
      have h3' : ((memStore le).removeRecursive r.1.pins c ((treeRefs env.pin content c).map some)).1.isOk = true ↔
          p.root c = true ∨ (p.direct c = true ∧ ¬ p.Indirect (treeRefs env.pin content) c) := h3
      rw [h3', indirect_iff h.whole]
      constructor
      · rintro ⟨h4, h5 | h5⟩
        · exact Or.inl h5
        · exact h4.imp id (fun h4 => ⟨h5.1, h5.2, h4⟩)
      · rintro (h4 | ⟨h4, h5, h6⟩)
        · exact ⟨Or.inl h4, Or.inl h4⟩
        · exact ⟨Or.inr h6, Or.inr ⟨h4, h5⟩⟩
    · intro L hL
      cases hr : p.root c with
      | true => rw [hL hr]
      | false => exact congrArg (fun x => x.1.isOk) (mem_removeUnread (le := le) h.pins c hr L)

/-! ### Bodies and messages -/

theorem readJson_pins (cids : List Cid) : readJson (pinsObject cids).write =
    some (.obj [("Pins".toUTF8.toList, .arr (cids.map (fun c => .str c.toText)))], []) := by
  have hw : WritableList (cids.map (fun c => Json.str c.toText)) := by
    rw [writableList_iff]
    intro j hj
    obtain ⟨c, -, rfl⟩ := List.mem_map.mp hj
    exact utf8Ok_toText c
  have hn : nestingList (cids.map (fun c => Json.str c.toText)) ≤ 0 := by
    rw [nestingList_le]
    intro j hj
    obtain ⟨c, -, rfl⟩ := List.mem_map.mp hj
    simp [nesting]
  refine readJson_write _ ⟨by decide +kernel, hw, trivial⟩ ?_ (by simp [pinsObject])
  simp only [pinsObject, nesting, nestingMap]
  omega

/-- **C70**: a request to `pin/add` or `pin/rm` that succeeded is answered with the cids asked for, in order. -/
theorem C70_bodies (env : PinHttp ε) (st : PinStore σ ε) (ls : PinLister σ ε) (s : RepoState σ) :
    (∀ query cids r order, AddAsked env.block.q query cids r false →
      succeeded (servePin env st ls s (.add (some query) order)).2 = true →
      ∃ body, (servePin env st ls s (.add (some query) order)).2 = .ok body ∧
        readJson body = some (.obj [("Pins".toUTF8.toList, .arr (cids.map (fun c => .str c.toText)))], [])) ∧
    (∀ query c r, UnpinAsked env.block.q (query.getD []) c r →
      succeeded (servePin env st ls s (.rm query)).2 = true →
      ∃ body, (servePin env st ls s (.rm query)).2 = .ok body ∧
        readJson body = some (.obj [("Pins".toUTF8.toList, .arr [.str c.toText])], [])) := by
  refine ⟨fun query cids r order hq hs => ?_, fun query c r hq hs => ?_⟩
  · rw [add_succeeded env st ls s hq order] at hs
    simp only [servePin, pinAdd, addAsked_functional hq, Bool.false_eq_true, if_false]
    cases hr : (insertPins env.pin st r s (order cids)).1 with
    | error e => rw [hr] at hs; cases hs
    | ok u => exact ⟨_, rfl, readJson_pins cids⟩
  · rw [rm_succeeded env st ls s hq] at hs
    simp only [servePin, pinRm, (C70_remove_query ..).mpr hq]
    cases hr : (removePin env.pin st s c r).1 with
    | error e => rw [hr] at hs; cases hs
    | ok u => exact ⟨_, rfl, readJson_pins [c]⟩

/-- **C70**: requests that are refused because of their query. Without a query even `pin/ls` is. -/
theorem C70_refused (env : PinHttp ε) (st : PinStore σ ε) (ls : PinLister σ ε) (s : RepoState σ) :
    (∀ order, servePin env st ls s (.add none order) = (s, .failed .badQuery)) ∧
    servePin env st ls s (.ls none) = (s, .failed .badQuery) ∧
    (∀ query order ps e, Decoded env.block.q query ps → FirstWrong (AddWrong env.block.q) ps e →
      servePin env st ls s (.add (some query) order) = (s, .failed (.options e))) ∧
    (∀ query order ps, Decoded env.block.q query ps → (∀ e, ¬ FirstWrong (AddWrong env.block.q) ps e) →
      ¬ GivenIn "arg".toUTF8.toList ps →
      servePin env st ls s (.add (some query) order) = (s, .failed (.options (.opt .missingArg)))) ∧
    (∀ query order cids r, AddAsked env.block.q query cids r true →
      servePin env st ls s (.add (some query) order) = (s, .failed .notImplemented)) ∧
    (∀ query ps e, Decoded env.block.q query ps → FirstWrong (ListWrong env.block.q) ps e →
      servePin env st ls s (.ls (some query)) = (s, .failed (.options e))) ∧
    (∀ query, (¬ ∃ c r, UnpinAsked env.block.q (query.getD []) c r) →
      servePin env st ls s (.rm query) = (s, .failed .badQuery)) := by
  refine ⟨fun order => rfl, rfl, fun query order ps e hd hw => ?_, fun query order ps hd hw hn => ?_, fun query order cids r hq => ?_,
    fun query ps e hd hw => ?_, fun query hq => ?_⟩
  · have := (C70_add_refused env.block.q query e).mpr ⟨ps, hd, Or.inl hw⟩
    simp only [servePin, pinAdd, this]
  · have := (C70_add_refused env.block.q query (.opt .missingArg)).mpr ⟨ps, hd, Or.inr ⟨rfl, hn, hw⟩⟩
    simp only [servePin, pinAdd, this]
  · simp only [servePin, pinAdd, addAsked_functional hq, if_true]
  · have := (C70_list_refused env.block.q query e).mpr ⟨ps, hd, hw⟩
    simp only [servePin, pinList, this]
  · simp only [servePin, pinRm]
    cases hr : removeRequest env.block.q (query.getD []) with
    | error u => rfl
    | ok a => exact absurd ⟨a.1, a.2, (C70_remove_query ..).mp hr⟩ hq

/-- **C70**: every answer that is an error is a JSON object with a message, and has the status 400 for a request without a query
or a query to `pin/rm` that is not well-formed, 501 for what is not implemented, and 500 otherwise. -/
theorem C70_errors (libText : PinReqFail ε → Bytes) (blockText : BlockFail → Bytes) (hl : ∀ e, utf8Ok (libText e) = true) (e : PinReqFail ε)
    (hk : ∀ key, e = .options (.opt (.duplicate key)) → utf8Ok key = true) :
    ∃ status body message, pinAnswer libText blockText (.failed e) = some (status, body) ∧
      (status = 400 ↔ e = .badQuery) ∧ (status = 501 ↔ e = .notImplemented) ∧ (status = 400 ∨ status = 501 ∨ status = 500) ∧
      readJson body = some (.obj [("Message".toUTF8.toList, .str message), ("Code".toUTF8.toList, .num ⟨false, [48], []⟩),
        ("Type".toUTF8.toList, .str "error".toUTF8.toList)], []) ∧
      (e = .notImplemented → message = "Not implemented".toUTF8.toList) ∧
      (e = .options (.opt .missingArg) → message = "required field \"arg\" missing".toUTF8.toList) ∧
      (∀ key, e = .options (.opt (.duplicate key)) →
        message = "field \"".toUTF8.toList ++ key ++ "\" was duplicated".toUTF8.toList) := by
  refine ⟨_, _, pinFailText libText e, rfl, ?_, ?_, ?_, ?_, ?_, ?_, ?_⟩
  · cases e <;> simp [pinFailStatus]
  · cases e <;> simp [pinFailStatus]
  · cases e <;> simp [pinFailStatus]
  · have e0 : JNum.ofInt 0 = ⟨false, [48], []⟩ := by decide +kernel
    have hn := ofInt_number 0
    rw [e0] at hn
    have : messageResponse (pinFailText libText e) = .obj [("Message".toUTF8.toList, .str (pinFailText libText e)),
        ("Code".toUTF8.toList, .num ⟨false, [48], []⟩), ("Type".toUTF8.toList, .str "error".toUTF8.toList)] := by
      simp only [messageResponse, e0]
    rw [this]
    refine readJson_write _ ?_ (by simp [nesting, nestingMap]) (by simp)
    refine ⟨by decide +kernel, ?_, by decide +kernel, hn, by decide +kernel, ?_, trivial⟩
    rotate_left
    · show utf8Ok "error".toUTF8.toList = true
      decide +kernel
    show utf8Ok (pinFailText libText e) = true
    unfold pinFailText
    split
    · decide +kernel
    · decide +kernel
    · rename_i key
      rw [List.append_assoc, utf8Ok_append (by decide +kernel), utf8Ok_append (hk key rfl)]
      decide +kernel
    · exact hl _
  · rintro rfl; rfl
  · rintro rfl; rfl
  · rintro key rfl; rfl

/-! ### What goes wrong, and examples -/

/-- **C70 fails** in that "stream" has no effect: the answer is in lines even if it is "false", and what makes it not
implemented is "quiet". -/
theorem C70_stream_ignored (errText : ε → Bytes) (ls : PinLister σ ε) (s : RepoState σ) :
    (∃ lines, pinList exQueryEnv errText ls s (some "stream=false".toUTF8.toList) = .lines lines) ∧
    pinList exQueryEnv errText ls s (some "quiet=false".toUTF8.toList) = .failed .notImplemented := by
  have h1 : listRequest exQueryEnv "stream=false".toUTF8.toList = .ok ⟨[], none, true⟩ := by decide +kernel
  have h2 : listRequest exQueryEnv "quiet=false".toUTF8.toList = .ok ⟨[], none, false⟩ := by decide +kernel
  simp only [pinList, h1, h2]
  exact ⟨⟨_, rfl⟩, rfl⟩

def exPinHttp : PinHttp PinErr := ⟨exBlockEnv, exPinEnv, fun _ => []⟩

/-- A query with these arguments. -/
def exArgs (rest : String) (cids : List Cid) : Option Bytes :=
  some (rest.toUTF8.toList ++ cids.flatMap (fun c => "&arg=".toUTF8.toList ++ c.toText))

def exPinReqs : List PinRequest :=
  [.arrive (exBlockOf exLeaf), .arrive (exBlockOf exRootA), .add (exArgs "recursive=true" [exRootA]) id, .ls (some []),
   .removeBlocks (exArgs "" [exLeaf]), .rm (exArgs "" [exRootA]), .removeBlocks (exArgs "" [exLeaf])]

/-- The history of the example: pinned, listed with what is below, kept, unpinned and removed. -/
example : (servePins exPinHttp (fsStore exLe) fsLister ⟨[], [], []⟩ exPinReqs).2.drop 2 =
    [.ok ("{\"Pins\":[\"".toUTF8.toList ++ exRootA.toText ++ "\"]}".toUTF8.toList),
     .lines ["{\"Cid\":\"".toUTF8.toList ++ exRootA.toText ++ "\",\"Type\":\"recursive\"}\n".toUTF8.toList,
       "{\"Cid\":\"".toUTF8.toList ++ exLeaf.toText ++ "\",\"Type\":\"indirect\"}\n".toUTF8.toList],
     .block (.chunks ["{\"Error\":\"block to remove is pinned\",\"Hash\":\"".toUTF8.toList ++ exLeaf.toText ++ "\"}\n".toUTF8.toList]),
     .ok ("{\"Pins\":[\"".toUTF8.toList ++ exRootA.toText ++ "\"]}".toUTF8.toList),
     .block (.chunks ["{\"Error\":\"\",\"Hash\":\"".toUTF8.toList ++ exLeaf.toText ++ "\"}\n".toUTF8.toList])] := by
  decide +kernel

/-- A request of the example asks only for these. -/
theorem exPinReqs_asks : ∀ r ∈ exPinReqs, ∀ op, AsksFor exPinHttp.block r op →
    op ∈ [.put (exBlockOf exLeaf), .put (exBlockOf exRootA), .pin exRootA true, .remove exLeaf, .unpin exRootA true] := by
  have hadd : addRequest exPinHttp.block.q ((exArgs "recursive=true" [exRootA]).getD []) = .ok ⟨[exRootA], true, false⟩ := by
    decide +kernel
  have hrm : removeRequest exPinHttp.block.q ((exArgs "" [exRootA]).getD []) = .ok (exRootA, true) := by decide +kernel
  have hblocks : ∀ p ∈ formPairs exPinHttp.block.q.lossy ((exArgs "" [exLeaf]).getD []), p.1 = "arg".toUTF8.toList →
      Cid.ofText exPinHttp.block.q.mb p.2 = some exLeaf := by decide +kernel
  intro r hr op ha
  simp only [exPinReqs, List.mem_cons, List.not_mem_nil, or_false] at hr
  rcases hr with rfl | rfl | rfl | rfl | rfl | rfl | rfl <;> cases op <;> simp only [AsksFor] at ha
  · subst ha; simp
  · subst ha; simp
  · obtain ⟨text, cids, h1, h2, h3⟩ := ha
    rw [h1] at hadd
    have := (addAsked_functional h2).symm.trans hadd
    simp only [Except.ok.injEq, AddRequest.mk.injEq, and_true] at this
    obtain ⟨rfl, rfl⟩ := this
    simp only [List.mem_singleton] at h3
    subst h3; simp
  · obtain ⟨text, h1, ps, v, h2, h3, h4⟩ := ha
    rw [h1] at hblocks
    rw [decoded_iff] at h2
    have := hblocks _ (by rw [Option.getD_some, h2]; exact h3) rfl
    rw [h4] at this
    cases this; simp
  · have := ((C70_remove_query ..).mpr ha).symm.trans hrm
    simp only [Except.ok.injEq, Prod.mk.injEq] at this
    obtain ⟨rfl, rfl⟩ := this
    simp
  · obtain ⟨text, h1, ps, v, h2, h3, h4⟩ := ha
    rw [h1] at hblocks
    rw [decoded_iff] at h2
    have := hblocks _ (by rw [Option.getD_some, h2]; exact h3) rfl
    rw [h4] at this
    cases this; simp

/-- The hypotheses of `C70_disk` and `C70_memory`. -/
example : ReqsInUse exPinHttp exPinContent (fun c => c ∈ [exLeaf, exRootA, exRootB]) exPinReqs := by
  refine ⟨exInUse.apart, exInUse.closed, ?_, ?_, ?_, ?_, ?_⟩
  · intro r hr b ha
    have := exPinReqs_asks r hr _ ha
    simp only [List.mem_cons, NodeOp.put.injEq, reduceCtorEq, List.not_mem_nil, or_false] at this
    rcases this with rfl | rfl <;> simp [exBlockOf]
  · intro r hr c x ha
    have := exPinReqs_asks r hr _ ha
    simp only [List.mem_cons, NodeOp.pin.injEq, reduceCtorEq, List.not_mem_nil, or_false, false_or] at this
    rw [this.1]; simp
  · intro r hr c x ha
    have := exPinReqs_asks r hr _ ha
    simp only [List.mem_cons, NodeOp.unpin.injEq, reduceCtorEq, List.not_mem_nil, or_false, false_or] at this
    rw [this.1]; simp
  · intro r hr c ha
    have := exPinReqs_asks r hr _ ha
    simp only [List.mem_cons, NodeOp.remove.injEq, reduceCtorEq, List.not_mem_nil, or_false, false_or] at this
    rw [this]; simp
  · intro query o ho l
    simp only [exPinReqs, List.mem_cons, List.not_mem_nil, or_false, reduceCtorEq, false_or, PinRequest.add.injEq] at ho
    rw [ho.2]
    exact List.Perm.refl _

example : AllAtHand exPinHttp exPinContent (memStore exLe) memLister ⟨[], [], []⟩ exPinReqs := by
  have hno : ∀ r ∈ exPinReqs, ∀ c, AsksFor exPinHttp.block r (.pin c true) → c = exRootA := by
    intro r hr c ha
    have := exPinReqs_asks r hr _ ha
    simp only [List.mem_cons, NodeOp.pin.injEq, reduceCtorEq, List.not_mem_nil, or_false, false_or] at this
    exact this.1
  have hskip : ∀ r c, AsksFor exPinHttp.block r (.pin c true) → ∃ q o, r = .add q o := by
    intro r c ha
    cases r <;> simp only [AsksFor] at ha
    exact ⟨_, _, rfl⟩
  refine ⟨fun c ha => ?_, fun c ha => ?_, fun c ha d hd => ?_, fun c ha => ?_, fun c ha => ?_, fun c ha => ?_, fun c ha => ?_, trivial⟩
  case refine_3 =>
    have := hno _ (by simp [exPinReqs]) c ha
    subst this
    rw [exBelowA d hd]
    exact ⟨by decide +kernel, _, exFullLook.1⟩
  all_goals
    obtain ⟨q, o, he⟩ := hskip _ _ ha
    cases he

/-- **C70 fails** in that a request that is refused may have had an effect: the second cid is not there, and the first is pinned. -/
theorem C70_partly :
    let r := servePins exPinHttp (fsStore exLe) fsLister ⟨[], [], []⟩
      [.arrive (exBlockOf exLeaf), .add (exArgs "" [exLeaf, exRootA]) id, .ls (some [])]
    r.2.drop 1 = [.waits, .lines ["{\"Cid\":\"".toUTF8.toList ++ exLeaf.toText ++ "\",\"Type\":\"direct\"}\n".toUTF8.toList]] := by
  decide +kernel

/-- **C70 fails** with the in-memory store: a cid given twice is pinned, yet the answer is an error. -/
theorem C70_twice :
    let r := servePins exPinHttp (memStore exLe) memLister ⟨[], [], []⟩
      [.arrive (exBlockOf exLeaf), .add (exArgs "recursive=true" [exLeaf, exLeaf]) id, .ls (some [])]
    succeeded (r.2[1]?.getD .waits) = false ∧
    r.2.drop 2 = [.lines ["{\"Cid\":\"".toUTF8.toList ++ exLeaf.toText ++ "\",\"Type\":\"recursive\"}\n".toUTF8.toList]] := by
  decide +kernel

/-- **C70 fails** in that a pin made with nothing but a cid cannot always be removed that way: `pin/add` pins directly and `pin/rm`
walks the tree, for which the codec has to be known. -/
theorem C70_defaults :
    let c : Cid := ⟨.v1, 0x78, 0x12, List.replicate 32 7⟩
    let r := servePins exPinHttp (fsStore exLe) fsLister ⟨[], [], []⟩
      [.arrive ⟨c, [1]⟩, .add (exArgs "" [c]) id, .rm (exArgs "" [c]), .rm (exArgs "recursive=false" [c])]
    r.2.map succeeded = [false, true, false, true] := by
  decide +kernel

/-- `C70_disk_answers`: several at once. -/
example : AddAsked exPinHttp.block.q ((exArgs "recursive=true" [exRootA, exLeaf]).getD []) [exRootA, exLeaf] true false :=
  (C70_add_query _ _ ⟨_, _, _⟩).mp (by decide +kernel)

example : ListAsked exPinHttp.block.q ((exArgs "type=indirect&stream=false" [exLeaf]).getD []) [exLeaf] (some .indirect) true :=
  (C70_list_query _ _ ⟨_, _, _⟩).mp (by decide +kernel)

example : pinList exPinHttp.block.q exPinHttp.errText fsLister (servePins exPinHttp (fsStore exLe) fsLister ⟨[], [], []⟩ (exPinReqs.take 3)).1
    (exArgs "type=indirect" [exLeaf]) = .lines ["{\"Cid\":\"".toUTF8.toList ++ exLeaf.toText ++
      "\",\"Type\":\"indirect through ".toUTF8.toList ++ exRootA.toText ++ "\"}\n".toUTF8.toList] := by
  decide +kernel

end Verif.Props
