import Verif.Net.Kad
import Verif.Props.Dial

/-! # C72: a request to the DHT is answered with the outcome of its own query -/

namespace Verif.Props

open Verif Verif.Ipfs Verif.Net Verif.Repo.Subs

/-! ### Specification -/

/-- What is told of the last report about a query. -/
inductive Told : KadQuery → QueryResult → KadRes → Prop
  | bootstrap : Told .bootstrap .bootstrapOk (.ok .complete)
  | noBootstrap : Told .bootstrap .bootstrapTimeout (.err "kad: timed out while trying to bootstrap".toUTF8.toList)
  | closest {p l} : Told (.closest p) (.closestOk l) (.ok (.peers l))
  | noClosest {p} : Told (.closest p) .closestTimeout
      (.err "timed out while trying to get providers for the given key".toUTF8.toList)
  | providers {k l} : Told (.providers k) (.providersOk l) (.ok (.peers l))
  | noProviders {k} : Told (.providers k) .providersTimeout
      (.err "timed out while trying to get providers for the given key".toUTF8.toList)
  | provide {k} : Told (.provide k) .provideOk (.ok .complete)
  | notProvided {k} : Told (.provide k) .provideTimeout (.err "kad: timed out while trying to provide the record".toUTF8.toList)
  | get {k n l} : Told (.get k n) (.getOk l) (.ok (.records (l.map Prod.snd)))
  | notFound {k n} : Told (.get k n) .getNotFound (.err "couldn't find a record for the given key".toUTF8.toList)
  | getQuorum {k n} : Told (.get k n) .getQuorum
      (.err "quorum failed when trying to obtain a record for the given key".toUTF8.toList)
  | getTimeout {k n} : Told (.get k n) .getTimeout (.err "timed out while trying to get a record for the given key".toUTF8.toList)
  | put {r n} : Told (.put r n) .putOk (.ok .complete)
  | putQuorum {r n} : Told (.put r n) .putQuorum (.err "kad: quorum failed when trying to put the record".toUTF8.toList)
  | putTimeout {r n} : Told (.put r n) .putTimeout (.err "kad: timed out while trying to put the record".toUTF8.toList)

/-- The queries that can be asked for. -/
def CanBeAsked : KadQuery → Prop
  | .republishProvider _ => False
  | .republishRecord _ => False
  | _ => True

/-- What may happen: reports are about queries that `Kademlia` has, of their kind, and only about bootstrapping there
is more than one. -/
inductive KadLegal (s : KadSt) : KadEv → Prop
  | request {q} : CanBeAsked q → KadLegal s (.request q)
  | background {q} : KadLegal s (.background q)
  | report {id q r last} : AMap.get s.queries id = some q → q.gives r = true → last = true ∨ q = .bootstrap →
      KadLegal s (.report id r last)
  | pollFut {i} : KadLegal s (.pollFut i)
  | dropFut {i} : KadLegal s (.dropFut i)
  | dropDone {i} : KadLegal s (.dropDone i)

/-- Histories, without a panic so far. -/
inductive KadRun (debug : Bool) : List KadEv → KadSt → Prop
  | nil : KadRun debug [] KadSt.init
  | snoc {es s s' e} : KadRun debug es s → KadLegal s e → s.step debug e = some s' → KadRun debug (es ++ [e]) s'

/-- How many requests there were: the number of the next future. -/
def requestsIn : List KadEv → Nat
  | [] => 0
  | .request _ :: es => requestsIn es + 1
  | _ :: es => requestsIn es

/-- How many queries were started: the number of the next one. -/
def startedIn : List KadEv → Nat
  | [] => 0
  | .request _ :: es => startedIn es + 1
  | .background _ :: es => startedIn es + 1
  | _ :: es => startedIn es

/-- What has become of a request. -/
inductive Phase where
  | waiting
  /-- the last report came -/
  | finished (r : QueryResult)
  /-- the caller got the outcome -/
  | taken
  /-- the caller went away -/
  | dropped
deriving DecidableEq, Repr

/-- What an event is for the request with this query and this future. -/
def Phase.next (id i : Nat) : Phase → KadEv → Phase
  | .waiting, .report id' r true => if id' = id then .finished r else .waiting
  | .finished r, .pollFut j => if j = i then .taken else .finished r
  | p, .dropFut j => if j = i then .dropped else p
  | p, _ => p

/-! ### The registry -/

theorem requestsIn_snoc (es : List KadEv) (e : KadEv) : requestsIn (es ++ [e]) = requestsIn es + requestsIn [e] := by
  induction es with
  | nil => simp [requestsIn]
  | cons x es ih => cases x <;> simp [requestsIn, ih] <;> omega

theorem startedIn_snoc (es : List KadEv) (e : KadEv) : startedIn (es ++ [e]) = startedIn es + startedIn [e] := by
  induction es with
  | nil => simp [startedIn]
  | cons x es ih => cases x <;> simp [startedIn, ih] <;> omega

variable {K R : Type} [DecidableEq K]

theorem finish_fine {debug : Bool} {reg : Reg K R} {k : K} (r : R)
    (h : ∀ i x, AMap.get reg.subs (k, i) = some x → ∃ w n, x = .pending w n) : (reg.finish debug k r).2 = .nothing := by
  unfold Reg.finish
  split
  · rename_i hk
    obtain ⟨i, hi⟩ := hasKind_iff.mp hk
    cases hg : AMap.get reg.subs (k, i) with
    | none => rw [hg] at hi; cases hi
    | some x =>
      obtain ⟨w, n, rfl⟩ := h i x hg
      have hm := mem_pendingOf hg
      have hne : (pendingOf reg.subs k).isEmpty = false := by
        cases hp : pendingOf reg.subs k with
        | nil => rw [hp] at hm; cases hm
        | cons a b => rfl
      simp [hne]
  · rfl

theorem finish_frame {debug : Bool} (reg : Reg K R) (k : K) (r : R) :
    (reg.finish debug k r).1.futs = reg.futs ∧ (reg.finish debug k r).1.shut = reg.shut ∧
    (reg.finish debug k r).1.nextId = reg.nextId := by
  unfold Reg.finish
  split
  · dsimp only
    split <;> exact ⟨rfl, rfl, rfl⟩
  · exact ⟨rfl, rfl, rfl⟩

theorem kadFinish_some {debug : Bool} {reg : Reg Nat KadRes} {id : Nat} (r : KadRes)
    (h : ∀ i x, AMap.get reg.subs (id, i) = some x → ∃ w n, x = .pending w n) :
    kadFinish debug reg id r = some (reg.finish debug id r).1 := by
  have := finish_fine (debug := debug) r h
  unfold kadFinish
  split
  · rename_i x heq; rw [heq] at this; cases this
  · rename_i a b c heq; rw [heq]

/-! ### Reports -/

/-- For queries that were asked for there is one result. -/
theorem told_once {q : KadQuery} {r : QueryResult} (hq : CanBeAsked q) (h : q.gives r = true) :
    (completesPlainly r = true ∧ completesWith r = none ∧ Told q r (.ok .complete)) ∨
    (completesPlainly r = false ∧ ∃ a, completesWith r = some a ∧ Told q r a) := by
  cases q <;> cases r <;> first
    | (simp [KadQuery.gives] at h; done)
    | exact absurd hq id
    | exact Or.inl ⟨rfl, rfl, by constructor⟩
    | exact Or.inr ⟨rfl, _, rfl, by constructor⟩

/-- What holds of all states. -/
structure KadInv (es : List KadEv) (s : KadSt) : Prop where
  subs : SubsInv s.reg
  shut : s.reg.shut = false
  futures : s.reg.nextId = requestsIn es
  started : s.nextQuery = startedIn es
  low : ∀ id q, AMap.get s.queries id = some q → id < s.nextQuery
  entry : ∀ id i x, AMap.get s.reg.subs (id, i) = some x → id < s.nextQuery ∧
    ((∃ w n, x = .pending w n ∧ ∃ q, AMap.get s.queries id = some q ∧ CanBeAsked q) ∨
     (∃ r, x = .ready r ∧ AMap.get s.queries id = none))

/-- What a report does. -/
inductive KadReported (debug : Bool) (s : KadSt) (id : Nat) (q : KadQuery) (r : QueryResult) : Bool → KadSt → Prop
  | more : KadReported debug s id q r false s
  | last {a} : CanBeAsked q → Told q r a →
      KadReported debug s id q r true { s with queries := AMap.erase s.queries id, reg := (s.reg.finish debug id a).1 }
  | nobody : ¬ CanBeAsked q → KadReported debug s id q r true { s with queries := AMap.erase s.queries id }

theorem report_cases {debug : Bool} {es : List KadEv} {s : KadSt} (hi : KadInv es s) {id : Nat} {q : KadQuery} {r : QueryResult}
    {last : Bool} (hq : AMap.get s.queries id = some q) (hg : q.gives r = true) (hl : last = true ∨ q = .bootstrap) :
    ∃ s', s.step debug (.report id r last) = some s' ∧ KadReported debug s id q r last s' := by
  cases last with
  | false =>
    refine ⟨s, ?_, .more⟩
    simp [KadSt.step, KadSt.completed, hq]
  | true =>
    have hnone : (AMap.get (AMap.erase s.queries id) id).isNone = true := by simp [AMap.get_erase]
    have hpend : CanBeAsked q → ∀ i x, AMap.get s.reg.subs (id, i) = some x → ∃ w n, x = .pending w n := by
      intro _ i x hx
      rcases (hi.entry id i x hx).2 with ⟨w, n, rfl, -⟩ | ⟨a, rfl, hn⟩
      · exact ⟨w, n, rfl⟩
      · rw [hq] at hn; cases hn
    by_cases hc : CanBeAsked q
    · rcases told_once hc hg with ⟨h1, h2, h3⟩ | ⟨h1, a, h2, h3⟩
      · refine ⟨_, ?_, .last hc h3⟩
        simp only [KadSt.step, if_true, KadSt.completed, hnone, h1, kadSecond, h2, Option.map_some]
        rw [kadFinish_some _ (hpend hc)]
      · refine ⟨_, ?_, .last hc h3⟩
        simp only [KadSt.step, if_true, KadSt.completed, hnone, h1, kadSecond, h2, Bool.false_eq_true, if_false]
        rw [kadFinish_some _ (hpend hc)]
        rfl
    · have hno : hasKind s.reg.subs id = false := by
        cases hk : hasKind s.reg.subs id with
        | false => rfl
        | true =>
          obtain ⟨i, hx⟩ := hasKind_iff.mp hk
          cases hgx : AMap.get s.reg.subs (id, i) with
          | none => rw [hgx] at hx; cases hx
          | some x =>
            rcases (hi.entry id i x hgx).2 with ⟨w, n, -, q', hq', hc'⟩ | ⟨a, -, hn⟩
            · rw [hq] at hq'; cases hq'; exact absurd hc' hc
            · rw [hq] at hn; cases hn
      have hf : ∀ a, kadFinish debug s.reg id a = some s.reg := by
        intro a
        simp [kadFinish, Reg.finish, hno]
      have hs : kadSecond debug s.reg id r = some s.reg := by
        unfold kadSecond
        split
        · rfl
        · exact hf _
      refine ⟨_, ?_, .nobody hc⟩
      simp only [KadSt.step, if_true, KadSt.completed, hnone]
      split
      · rw [hf]; simp only [hs, Option.map_some]
      · rw [hs]; rfl

theorem request_reg {es : List KadEv} {s : KadSt} (hi : KadInv es s) (q : KadQuery) :
    ∃ reg', s.request q = ⟨reg', AMap.set s.queries s.nextQuery q, s.nextQuery + 1⟩ ∧ SubsInv reg' ∧ reg'.shut = false ∧
      reg'.nextId = s.reg.nextId + 1 ∧
      reg'.subs = AMap.set s.reg.subs (s.nextQuery, s.reg.nextId) (.pending false false) ∧
      (∀ i, reg'.futs i = if i = s.reg.nextId then some ⟨s.nextQuery, .live false⟩ else s.reg.futs i) := by
  obtain ⟨reg', h1, h2, h3, -, h5, h6⟩ := create_insert hi.subs hi.shut s.nextQuery
  refine ⟨reg', ?_, h2, h3, ?_, h5, h6⟩
  · simp only [KadSt.request, KadSt.start, KadSt.subscribe, h1, Option.getD_some]
  · simp only [Reg.create, hi.shut, Bool.false_eq_true, if_false, Reg.insert, Reg.setFut, if_true, Option.some.injEq] at h1
    subst h1
    rfl

theorem poll_next {reg reg' : Reg K R} {j : Nat} {out : Out R} (h : reg.poll j = some (reg', out)) :
    reg'.nextId = reg.nextId ∧ ∀ i, i ≠ j → reg'.futs i = reg.futs i := by
  unfold Reg.poll at h
  split at h
  · split at h <;> (simp only [Option.some.injEq, Prod.mk.injEq] at h; obtain ⟨rfl, rfl⟩ := h)
    · exact ⟨rfl, fun _ _ => rfl⟩
    · exact ⟨rfl, fun _ _ => rfl⟩
    · exact ⟨rfl, fun i hi => by simp [Reg.setFut, hi]⟩
    · exact ⟨rfl, fun i hi => by simp [Reg.setFut, hi]⟩
  · cases h

theorem drop_next {reg reg' : Reg K R} {j : Nat} (h : reg.dropLocked j = some reg') :
    reg'.nextId = reg.nextId ∧ ∀ i, i ≠ j → reg'.futs i = reg.futs i := by
  unfold Reg.dropLocked at h
  split at h
  · split at h
    · simp only [Option.some.injEq] at h; subst h; exact ⟨rfl, fun i hi => by simp [Reg.setFut, hi]⟩
    · split at h <;> (simp only [Option.some.injEq] at h; subst h; exact ⟨rfl, fun i hi => by simp [Reg.setFut, hi]⟩)
  · cases h

omit [DecidableEq K] in
theorem notify_next {reg reg' : Reg K R} {j : Nat} (h : reg.dropNotify j = some reg') :
    reg'.nextId = reg.nextId ∧ ∀ i, i ≠ j → reg'.futs i = reg.futs i := by
  unfold Reg.dropNotify at h
  split at h
  · simp only [Option.some.injEq] at h; subst h; exact ⟨rfl, fun i hi => by simp [Reg.setFut, hi]⟩
  · cases h

/-- A poll or drop only removes entries, or marks a waiter. -/
theorem poll_entry {reg reg' : Reg K R} {j : Nat} {out : Out R} (h : reg.poll j = some (reg', out)) {k : K} {i : Nat} {x : Repo.Subs.Sub R}
    (hg : AMap.get reg'.subs (k, i) = some x) : AMap.get reg.subs (k, i) = some x ∨
      ∃ w n, AMap.get reg.subs (k, i) = some (.pending w n) ∧ x = .pending true n := by
  cases x with
  | ready r => exact Or.inl (poll_ready h hg)
  | pending w n =>
    unfold Reg.poll at h
    split at h
    · split at h
      · simp only [Option.some.injEq, Prod.mk.injEq] at h; obtain ⟨rfl, rfl⟩ := h; exact Or.inl hg
      · rename_i n0 h0
        simp only [Option.some.injEq, Prod.mk.injEq] at h; obtain ⟨rfl, rfl⟩ := h
        simp only [AMap.get_set] at hg
        split at hg
        · rename_i heq
          rw [heq]
          simp only [Option.some.injEq] at hg
          exact Or.inr ⟨_, _, h0, hg.symm⟩
        · exact Or.inl hg
      all_goals
        simp only [Option.some.injEq, Prod.mk.injEq] at h; obtain ⟨rfl, rfl⟩ := h
        simp only [Reg.setFut, AMap.get_erase] at hg
        split at hg
        · cases hg
        · exact Or.inl hg
    · cases h
  | cancelled =>
    unfold Reg.poll at h
    split at h
    · split at h
      · simp only [Option.some.injEq, Prod.mk.injEq] at h; obtain ⟨rfl, rfl⟩ := h; exact Or.inl hg
      · simp only [Option.some.injEq, Prod.mk.injEq] at h; obtain ⟨rfl, rfl⟩ := h
        simp only [AMap.get_set] at hg
        split at hg
        · cases hg
        · exact Or.inl hg
      all_goals
        simp only [Option.some.injEq, Prod.mk.injEq] at h; obtain ⟨rfl, rfl⟩ := h
        simp only [Reg.setFut, AMap.get_erase] at hg
        split at hg
        · cases hg
        · exact Or.inl hg
    · cases h

theorem drop_entry {reg reg' : Reg K R} {j : Nat} (h : reg.dropLocked j = some reg') {k : K} {i : Nat} {x : Repo.Subs.Sub R}
    (hg : AMap.get reg'.subs (k, i) = some x) : AMap.get reg.subs (k, i) = some x := by
  unfold Reg.dropLocked at h
  split at h
  · split at h
    · simp only [Option.some.injEq] at h; subst h; exact hg
    · split at h
      · simp only [Option.some.injEq] at h; subst h
        simp only [Reg.setFut, AMap.get_erase] at hg
        split at hg
        · cases hg
        · exact hg
      · simp only [Option.some.injEq] at h; subst h; exact hg
  · cases h

/-- The invariant holds. -/
theorem KadInv.step {debug : Bool} {es : List KadEv} {s s' : KadSt} {e : KadEv} (hi : KadInv es s) (hl : KadLegal s e)
    (h : s.step debug e = some s') : KadInv (es ++ [e]) s' := by
  cases hl with
  | @request q hq =>
    simp only [KadSt.step, Option.some.injEq] at h
    obtain ⟨reg', h1, h2, h3, h4, h5, h6⟩ := request_reg hi q
    rw [h1] at h
    subst h
    refine ⟨h2, h3, ?_, ?_, ?_, ?_⟩
    · rw [requestsIn_snoc, h4, hi.futures]; rfl
    · rw [startedIn_snoc]; show s.nextQuery + 1 = _; rw [hi.started]; rfl
    · intro id q' hq'
      simp only [AMap.get_set] at hq'
      show id < s.nextQuery + 1
      split at hq'
      · omega
      · have := hi.low id q' hq'; omega
    · intro id i x hx
      simp only [h5, AMap.get_set] at hx
      show id < s.nextQuery + 1 ∧ _
      split at hx
      · rename_i heq
        simp only [Prod.mk.injEq] at heq
        simp only [Option.some.injEq] at hx
        subst hx
        refine ⟨by omega, Or.inl ⟨_, _, rfl, q, ?_, hq⟩⟩
        simp only [AMap.get_set, heq.1, if_true]
      · obtain ⟨g1, g2⟩ := hi.entry id i x hx
        have hne : id ≠ s.nextQuery := by omega
        refine ⟨by omega, ?_⟩
        simp only [AMap.get_set, hne, if_false]
        exact g2
  | @background q =>
    simp only [KadSt.step, KadSt.start, Option.some.injEq] at h
    subst h
    refine ⟨hi.subs, hi.shut, ?_, ?_, ?_, ?_⟩
    · rw [requestsIn_snoc]; exact hi.futures
    · rw [startedIn_snoc]; show s.nextQuery + 1 = _; rw [hi.started]; rfl
    · intro id q' hq'
      simp only [AMap.get_set] at hq'
      show id < s.nextQuery + 1
      split at hq'
      · omega
      · have := hi.low id q' hq'; omega
    · intro id i x hx
      obtain ⟨g1, g2⟩ := hi.entry id i x hx
      have hne : id ≠ s.nextQuery := by omega
      show id < s.nextQuery + 1 ∧ _
      refine ⟨by omega, ?_⟩
      simp only [AMap.get_set, hne, if_false]
      exact g2
  | @report id q r last hq hg hlast =>
    obtain ⟨s1, h1, h2⟩ := report_cases (debug := debug) hi hq hg hlast
    rw [h1] at h
    cases h
    have hr : requestsIn (es ++ [KadEv.report id r last]) = requestsIn es := by rw [requestsIn_snoc]; rfl
    have hst : startedIn (es ++ [KadEv.report id r last]) = startedIn es := by rw [startedIn_snoc]; rfl
    cases h2 with
    | more => exact ⟨hi.subs, hi.shut, by rw [hr]; exact hi.futures, by rw [hst]; exact hi.started, hi.low, hi.entry⟩
    | @last a hc ht =>
      refine ⟨hi.subs.step (debug := debug) (op := .finish id a) rfl, by rw [(finish_frame ..).2.1]; exact hi.shut, ?_, ?_, ?_, ?_⟩
      · rw [hr, (finish_frame ..).2.2]; exact hi.futures
      · rw [hst]; exact hi.started
      · intro id' q' hq'
        simp only [AMap.get_erase] at hq'
        split at hq'
        · cases hq'
        · exact hi.low _ _ hq'
      · intro id' i x hx
        simp only [sub_finish] at hx
        show id' < s.nextQuery ∧ _
        simp only [AMap.get_erase]
        cases hgx : AMap.get s.reg.subs (id', i) with
        | none => rw [hgx] at hx; cases hx
        | some y =>
          obtain ⟨g1, g2⟩ := hi.entry id' i y hgx
          refine ⟨g1, ?_⟩
          rw [hgx] at hx
          rcases g2 with ⟨w, n, rfl, q', hq', hc'⟩ | ⟨a', rfl, hn⟩
          · simp only at hx
            split at hx
            · rename_i heq
              simp only [Option.some.injEq] at hx
              exact Or.inr ⟨a, hx.symm, by simp [heq]⟩
            · rename_i hne
              simp only [Option.some.injEq] at hx
              exact Or.inl ⟨w, n, hx.symm, q', by simp [hne, hq'], hc'⟩
          · simp only [Option.some.injEq] at hx
            exact Or.inr ⟨a', hx.symm, by split <;> first | rfl | exact hn⟩
    | nobody hc =>
      refine ⟨hi.subs, hi.shut, by rw [hr]; exact hi.futures, by rw [hst]; exact hi.started, ?_, ?_⟩
      · intro id' q' hq'
        simp only [AMap.get_erase] at hq'
        split at hq'
        · cases hq'
        · exact hi.low _ _ hq'
      · intro id' i x hx
        obtain ⟨g1, g2⟩ := hi.entry id' i x hx
        refine ⟨g1, ?_⟩
        simp only [AMap.get_erase]
        rcases g2 with ⟨w, n, rfl, q', hq', hc'⟩ | ⟨a', rfl, hn⟩
        · have hne : id' ≠ id := by
            rintro rfl
            rw [hq] at hq'; cases hq'; exact hc hc'
          exact Or.inl ⟨w, n, rfl, q', by simp [hne, hq'], hc'⟩
        · exact Or.inr ⟨a', rfl, by split <;> first | rfl | exact hn⟩
  | @pollFut i =>
    simp only [KadSt.step, Option.some.injEq] at h
    subst h
    have hr : requestsIn (es ++ [KadEv.pollFut i]) = requestsIn es := by rw [requestsIn_snoc]; rfl
    have hst : startedIn (es ++ [KadEv.pollFut i]) = startedIn es := by rw [startedIn_snoc]; rfl
    cases hp : s.reg.poll i with
    | none => exact ⟨hi.subs, hi.shut, by rw [hr]; exact hi.futures, by rw [hst]; exact hi.started, hi.low, hi.entry⟩
    | some p =>
      obtain ⟨reg', out⟩ := p
      refine ⟨hi.subs.step (debug := debug) (op := .poll i) hp, by
        show reg'.shut = _; rw [poll_shut hp]; exact hi.shut, by
        rw [hr]; show reg'.nextId = _; rw [(poll_next hp).1]; exact hi.futures, by rw [hst]; exact hi.started, hi.low, ?_⟩
      intro id j x hx
      rcases poll_entry hp hx with hx | ⟨w, n, hx', rfl⟩
      · exact hi.entry id j x hx
      · obtain ⟨g1, g2⟩ := hi.entry id j _ hx'
        refine ⟨g1, ?_⟩
        rcases g2 with ⟨-, -, -, hq⟩ | ⟨a, h, -⟩
        · exact Or.inl ⟨_, _, rfl, hq⟩
        · cases h
  | @dropFut i =>
    simp only [KadSt.step, Option.some.injEq] at h
    subst h
    have hr : requestsIn (es ++ [KadEv.dropFut i]) = requestsIn es := by rw [requestsIn_snoc]; rfl
    have hst : startedIn (es ++ [KadEv.dropFut i]) = startedIn es := by rw [startedIn_snoc]; rfl
    cases hp : s.reg.dropLocked i with
    | none => exact ⟨hi.subs, hi.shut, by rw [hr]; exact hi.futures, by rw [hst]; exact hi.started, hi.low, hi.entry⟩
    | some reg' =>
      refine ⟨hi.subs.step (debug := debug) (op := .dropLocked i) (by simp only [Reg.step, hp, Option.map_some]; rfl), by
        show reg'.shut = _; rw [drop_shut hp]; exact hi.shut, by
        rw [hr]; show reg'.nextId = _; rw [(drop_next hp).1]; exact hi.futures, by rw [hst]; exact hi.started, hi.low, ?_⟩
      intro id j x hx
      exact hi.entry id j x (drop_entry hp hx)
  | @dropDone i =>
    simp only [KadSt.step, Option.some.injEq] at h
    subst h
    have hr : requestsIn (es ++ [KadEv.dropDone i]) = requestsIn es := by rw [requestsIn_snoc]; rfl
    have hst : startedIn (es ++ [KadEv.dropDone i]) = startedIn es := by rw [startedIn_snoc]; rfl
    cases hp : s.reg.dropNotify i with
    | none => exact ⟨hi.subs, hi.shut, by rw [hr]; exact hi.futures, by rw [hst]; exact hi.started, hi.low, hi.entry⟩
    | some reg' =>
      refine ⟨hi.subs.step (debug := debug) (op := .dropNotify i) (by simp only [Reg.step, hp, Option.map_some]; rfl), by
        show reg'.shut = _; rw [(notify_subs hp).2]; exact hi.shut, by
        rw [hr]; show reg'.nextId = _; rw [(notify_next hp).1]; exact hi.futures, by rw [hst]; exact hi.started, hi.low, ?_⟩
      intro id j x hx
      refine hi.entry id j x ?_
      show AMap.get s.reg.subs (id, j) = some x
      rw [← (notify_subs hp).1]
      exact hx

theorem KadRun.inv {debug : Bool} {es : List KadEv} {s : KadSt} (h : KadRun debug es s) : KadInv es s := by
  induction h with
  | nil => exact ⟨SubsInv.init, rfl, rfl, rfl, (by intro _ _ h; cases h), (by intro _ _ _ h; cases h)⟩
  | snoc _ hl hs ih => exact ih.step hl hs

/-! ### One request -/

/-- What holds of the state in every phase of a request. -/
def KadAt (q : KadQuery) (id i : Nat) (s : KadSt) : Phase → Prop
  | .waiting => AMap.get s.queries id = some q ∧ (∃ w n, AMap.get s.reg.subs (id, i) = some (.pending w n)) ∧
      ∃ c, s.reg.futs i = some ⟨id, .live c⟩
  | .finished r => AMap.get s.queries id = none ∧ (∃ a, Told q r a ∧ AMap.get s.reg.subs (id, i) = some (.ready a)) ∧
      ∃ c, s.reg.futs i = some ⟨id, .live c⟩
  | .taken => AMap.get s.queries id = none ∧ AMap.get s.reg.subs (id, i) = none ∧ ∃ c, s.reg.futs i = some ⟨id, .live c⟩
  | .dropped => AMap.get s.reg.subs (id, i) = none ∧
      ∃ st, s.reg.futs i = some ⟨id, st⟩ ∧ (∀ c, st ≠ .live c) ∧ ∀ x, st ≠ .creating x

/-- The parts of a state that a phase is about. -/
theorem KadAt.frame {q : KadQuery} {id i : Nat} {s s' : KadSt} {p : Phase} (h : KadAt q id i s p)
    (h1 : AMap.get s'.queries id = AMap.get s.queries id) (h2 : AMap.get s'.reg.subs (id, i) = AMap.get s.reg.subs (id, i))
    (h3 : s'.reg.futs i = s.reg.futs i) : KadAt q id i s' p := by
  cases p <;> simp only [KadAt, h1, h2, h3] at h ⊢ <;> exact h

theorem poll_other {reg reg' : Reg K R} {j : Nat} {out : Out R} (h : reg.poll j = some (reg', out)) {k : K} {i : Nat}
    (hij : i ≠ j) : AMap.get reg'.subs (k, i) = AMap.get reg.subs (k, i) := by
  unfold Reg.poll at h
  split at h
  · split at h <;> (simp only [Option.some.injEq, Prod.mk.injEq] at h; obtain ⟨rfl, rfl⟩ := h)
    · rfl
    · simp [AMap.get_set, hij]
    · simp [Reg.setFut, AMap.get_erase, hij]
    · simp [Reg.setFut, AMap.get_erase, hij]
  · cases h

theorem drop_other {reg reg' : Reg K R} {j : Nat} (h : reg.dropLocked j = some reg') {k : K} {i : Nat}
    (hij : i ≠ j) : AMap.get reg'.subs (k, i) = AMap.get reg.subs (k, i) := by
  unfold Reg.dropLocked at h
  split at h
  · split at h
    · simp only [Option.some.injEq] at h; subst h; rfl
    · split at h
      · simp only [Option.some.injEq] at h; subst h; simp [Reg.setFut, AMap.get_erase, hij]
      · simp only [Option.some.injEq] at h; subst h; rfl
  · cases h

/-- After dropping it is gone, whether the entry was still there or not. -/
theorem drop_self {reg reg' : Reg K R} (hi : SubsInv reg) {i : Nat} {k : K} {c : Bool} (hf : reg.futs i = some ⟨k, .live c⟩)
    (h : reg.dropLocked i = some reg') : AMap.get reg'.subs (k, i) = none ∧
      ∃ st, reg'.futs i = some ⟨k, st⟩ ∧ (∀ c, st ≠ .live c) ∧ ∀ x, st ≠ .creating x := by
  have hk : hasKind reg.subs k = false → AMap.get reg.subs (k, i) = none := by
    intro hk
    cases hg : AMap.get reg.subs (k, i) with
    | none => rfl
    | some x =>
      have : hasKind reg.subs k = true := hasKind_iff.mpr ⟨i, by rw [hg]; rfl⟩
      rw [hk] at this; cases this
  unfold Reg.dropLocked at h
  simp only [hf] at h
  split at h
  · rename_i hc
    simp only [Option.some.injEq] at h; subst h
    refine ⟨?_, .gone, by simp [Reg.setFut], by simp, by simp⟩
    show AMap.get reg.subs (k, i) = none
    cases hg : AMap.get reg.subs (k, i) with
    | none => rfl
    | some x =>
      have := hi.owner k i x hg
      rw [hf] at this
      simp only [Option.some.injEq, Fut.mk.injEq, Stage.live.injEq, true_and] at this
      rw [this] at hc
      cases hc
  · split at h
    · simp only [Option.some.injEq] at h; subst h
      exact ⟨by simp [Reg.setFut, AMap.get_erase], _, by simp [Reg.setFut]; rfl, by simp, by simp⟩
    · rename_i hn
      simp only [Option.some.injEq] at h; subst h
      exact ⟨hk (by simpa using hn), _, by simp [Reg.setFut]; rfl, by simp, by simp⟩

/-- An event moves a request from one phase to the next. -/
theorem KadAt.step {debug : Bool} {es : List KadEv} {s s' : KadSt} {e : KadEv} {q : KadQuery} {id i : Nat} {p : Phase}
    (hi : KadInv es s) (hid : id < s.nextQuery) (hii : i < s.reg.nextId) (hq0 : CanBeAsked q)
    (h : KadAt q id i s p) (hl : KadLegal s e) (hs : s.step debug e = some s') : KadAt q id i s' (p.next id i e) := by
  cases hl with
  | @request q' hq' =>
    have hn : p.next id i (.request q') = p := by cases p <;> rfl
    rw [hn]
    simp only [KadSt.step, Option.some.injEq] at hs
    obtain ⟨reg', h1, h2, h3, h4, h5, h6⟩ := request_reg hi q'
    rw [h1] at hs
    subst hs
    refine h.frame ?_ ?_ ?_
    · simp only [AMap.get_set]; rw [if_neg (by omega)]
    · simp only [h5, AMap.get_set]; rw [if_neg (by simp only [Prod.mk.injEq]; omega)]
    · simp only [h6]; rw [if_neg (by omega)]
  | @background q' =>
    have hn : p.next id i (.background q') = p := by cases p <;> rfl
    rw [hn]
    simp only [KadSt.step, KadSt.start, Option.some.injEq] at hs
    subst hs
    refine h.frame ?_ rfl rfl
    simp only [AMap.get_set]; rw [if_neg (by omega)]
  | @report id' q' r last hq hg hlast =>
    obtain ⟨s1, h1, h2⟩ := report_cases (debug := debug) hi hq hg hlast
    rw [h1] at hs
    cases hs
    cases h2 with
    | more =>
      have hn : p.next id i (.report id' r false) = p := by cases p <;> rfl
      rw [hn]
      exact h
    | @last a hc ht =>
      by_cases hne : id' = id
      · subst hne
        cases p with
        | waiting =>
          obtain ⟨g1, ⟨w, n, g2⟩, g3⟩ := h
          rw [hq] at g1
          cases g1
          simp only [Phase.next, if_true]
          refine ⟨by simp [AMap.get_erase], ⟨a, ht, ?_⟩, ?_⟩
          · simp only [sub_finish, g2, if_true]
          · simp only [(finish_frame ..).1]; exact g3
        | finished r' => rw [h.1] at hq; cases hq
        | taken => rw [h.1] at hq; cases hq
        | dropped =>
          refine ⟨?_, ?_⟩
          · simp only [sub_finish, h.1]
          · simp only [(finish_frame ..).1]; exact h.2
      · have hn : p.next id i (.report id' r true) = p := by cases p <;> simp [Phase.next, hne]
        rw [hn]
        have hne' : id ≠ id' := fun h => hne h.symm
        refine h.frame ?_ ?_ ?_
        · simp [AMap.get_erase, hne']
        · simp only [sub_finish, hne', if_false]
          split <;> simp_all
        · simp only [(finish_frame ..).1]
    | nobody hc =>
      by_cases hne : id' = id
      · subst hne
        cases p with
        | waiting => rw [h.1] at hq; cases hq; exact absurd hq0 hc
        | finished r' => rw [h.1] at hq; cases hq
        | taken => rw [h.1] at hq; cases hq
        | dropped => exact h
      · have hn : p.next id i (.report id' r true) = p := by cases p <;> simp [Phase.next, hne]
        rw [hn]
        have hne' : id ≠ id' := fun h => hne h.symm
        exact h.frame (by simp [AMap.get_erase, hne']) rfl rfl
  | @pollFut j =>
    simp only [KadSt.step, Option.some.injEq] at hs
    subst hs
    by_cases hj : i = j
    · subst hj
      cases p with
      | waiting =>
        obtain ⟨g1, ⟨w, n, g2⟩, c, g3⟩ := h
        have hp : s.reg.poll i = some ({ s.reg with subs := AMap.set s.reg.subs (id, i) (.pending true n) }, .pending) := by
          simp only [Reg.poll, g3, g2]
        simp only [hp, Phase.next]
        exact ⟨g1, ⟨true, n, by simp [AMap.get_set]⟩, c, g3⟩
      | finished r =>
        obtain ⟨g1, ⟨a, g2, g4⟩, c, g3⟩ := h
        simp only [Reg.poll, g3, g4, Phase.next, if_true]
        refine ⟨g1, by simp [Reg.setFut, AMap.get_erase], !hasKind (AMap.erase s.reg.subs (id, i)) id, by simp [Reg.setFut]⟩
      | taken =>
        obtain ⟨g1, g2, c, g3⟩ := h
        simp only [Reg.poll, g3, g2, Phase.next]
        exact ⟨g1, g2, c, g3⟩
      | dropped =>
        obtain ⟨g1, st, g2, g3, g4⟩ := h
        have hp : s.reg.poll i = none := by
          unfold Reg.poll
          split
          · rename_i heq; rw [g2] at heq; cases heq; exact absurd rfl (g3 _)
          · rfl
        simp only [hp, Phase.next]
        exact ⟨g1, st, g2, g3, g4⟩
    · have hn : p.next id i (.pollFut j) = p := by
        cases p <;> simp [Phase.next]
        exact fun h => hj h.symm
      rw [hn]
      cases hp : s.reg.poll j with
      | none => exact h
      | some x =>
        obtain ⟨reg', out⟩ := x
        exact h.frame rfl (poll_other hp hj) ((poll_next hp).2 i hj)
  | @dropFut j =>
    simp only [KadSt.step, Option.some.injEq] at hs
    subst hs
    by_cases hj : i = j
    · subst hj
      have hn : p.next id i (.dropFut i) = .dropped := by cases p <;> simp [Phase.next]
      rw [hn]
      have live : ∀ c, s.reg.futs i = some ⟨id, .live c⟩ →
          KadAt q id i { s with reg := (s.reg.dropLocked i).getD s.reg } .dropped := by
        intro c hf
        cases hp : s.reg.dropLocked i with
        | none => simp only [Reg.dropLocked, hf] at hp; split at hp <;> (try split at hp) <;> cases hp
        | some reg' => exact drop_self hi.subs hf hp
      cases p with
      | waiting => obtain ⟨-, -, c, hf⟩ := h; exact live c hf
      | finished r => obtain ⟨-, -, c, hf⟩ := h; exact live c hf
      | taken => obtain ⟨-, -, c, hf⟩ := h; exact live c hf
      | dropped =>
        obtain ⟨g1, st, g2, g3, g4⟩ := h
        have hp : s.reg.dropLocked i = none := by
          unfold Reg.dropLocked
          split
          · rename_i heq; rw [g2] at heq; cases heq; exact absurd rfl (g3 _)
          · rfl
        simp only [hp]
        exact ⟨g1, st, g2, g3, g4⟩
    · have hn : p.next id i (.dropFut j) = p := by
        have hj' : j ≠ i := fun h => hj h.symm
        cases p <;> simp [Phase.next, hj']
      rw [hn]
      cases hp : s.reg.dropLocked j with
      | none => exact h
      | some reg' => exact h.frame rfl (drop_other hp hj) ((drop_next hp).2 i hj)
  | @dropDone j =>
    have hn : p.next id i (.dropDone j) = p := by cases p <;> rfl
    rw [hn]
    simp only [KadSt.step, Option.some.injEq] at hs
    subst hs
    cases hp : s.reg.dropNotify j with
    | none => exact h
    | some reg' =>
      by_cases hj : i = j
      · subst hj
        have live : ∀ c, s.reg.futs i = some ⟨id, .live c⟩ → False := by
          intro c hf
          simp only [Reg.dropNotify, hf] at hp
          cases hp
        cases p with
        | waiting => obtain ⟨-, -, c, hf⟩ := h; exact (live c hf).elim
        | finished r => obtain ⟨-, -, c, hf⟩ := h; exact (live c hf).elim
        | taken => obtain ⟨-, -, c, hf⟩ := h; exact (live c hf).elim
        | dropped =>
          obtain ⟨g1, st, g2, g3, g4⟩ := h
          refine ⟨by show AMap.get reg'.subs (id, i) = none; rw [(notify_subs hp).1]; exact g1, .gone, ?_, by simp, by simp⟩
          unfold Reg.dropNotify at hp
          split at hp
          · rename_i heq
            rw [g2] at heq; cases heq
            simp only [Option.some.injEq] at hp
            subst hp
            simp [Reg.setFut]
          · cases hp
      · exact h.frame rfl (by show AMap.get reg'.subs (id, i) = _; rw [(notify_subs hp).1]) ((notify_next hp).2 i hj)

theorem KadRun.split {debug : Bool} {es : List KadEv} {e : KadEv} {s : KadSt} (h : KadRun debug (es ++ [e]) s) :
    ∃ s0, KadRun debug es s0 ∧ KadLegal s0 e ∧ s0.step debug e = some s := by
  generalize hx : es ++ [e] = x at h
  cases h with
  | nil => simp at hx
  | snoc h1 h2 h3 =>
    obtain ⟨rfl, h4⟩ := List.append_inj' hx rfl
    cases h4
    exact ⟨_, h1, h2, h3⟩

theorem KadRun.at {debug : Bool} {pre mid : List KadEv} {q : KadQuery} {s : KadSt}
    (h : KadRun debug (pre ++ .request q :: mid) s) :
    KadAt q (startedIn pre) (requestsIn pre) s (mid.foldl (Phase.next (startedIn pre) (requestsIn pre)) .waiting) ∧
    startedIn pre < s.nextQuery ∧ requestsIn pre < s.reg.nextId ∧ CanBeAsked q := by
  induction mid using snocInd generalizing s with
  | nil =>
    obtain ⟨s0, h0, hl, hs⟩ := h.split
    have hi := h0.inv
    simp only [KadSt.step, Option.some.injEq] at hs
    obtain ⟨reg', h1, h2, h3, h4, h5, h6⟩ := request_reg hi q
    rw [h1] at hs
    subst hs
    rw [← hi.started, ← hi.futures]
    refine ⟨⟨?_, ⟨false, false, ?_⟩, false, ?_⟩, Nat.lt_succ_self _, ?_, ?_⟩
    · simp [AMap.get_set]
    · simp [h5, AMap.get_set]
    · simp [h6]
    · show s0.reg.nextId < reg'.nextId; omega
    · cases hl; assumption
  | snoc mid e ih =>
    rw [show pre ++ KadEv.request q :: (mid ++ [e]) = (pre ++ KadEv.request q :: mid) ++ [e] by simp] at h
    obtain ⟨s0, h0, hl, hs⟩ := h.split
    obtain ⟨g1, g2, g3, g4⟩ := ih h0
    have hn := h0.inv.step hl hs
    have hm1 : s0.nextQuery ≤ s.nextQuery := by
      rw [hn.started, h0.inv.started, startedIn_snoc]; omega
    have hm2 : s0.reg.nextId ≤ s.reg.nextId := by
      rw [hn.futures, h0.inv.futures, requestsIn_snoc]; omega
    refine ⟨?_, by omega, by omega, g4⟩
    rw [List.foldl_append]
    exact g1.step h0.inv g2 g3 g4 hl hs

/-! ### The theorems -/

/-- Nothing that `Kademlia` reports about its queries makes the node panic, not even with debug assertions. -/
theorem C72_no_panic {debug : Bool} {es : List KadEv} {s : KadSt} {e : KadEv} (h : KadRun debug es s) (hl : KadLegal s e) :
    ∃ s', s.step debug e = some s' := by
  cases hl with
  | report hq hg hlast =>
    obtain ⟨s', h1, -⟩ := report_cases (debug := debug) h.inv hq hg hlast
    exact ⟨s', h1⟩
  | _ => exact ⟨_, rfl⟩

/-- **C72**: the reports that may come are those something is told of. For queries nobody asked for, it is that they were
done, or not. -/
theorem C72_reports (q : KadQuery) (r : QueryResult) :
    (CanBeAsked q → (q.gives r = true ↔ ∃ a, Told q r a)) ∧
    (∀ k, q = .republishProvider k → (q.gives r = true ↔ r = .republishProviderOk ∨ r = .republishProviderTimeout)) ∧
    (∀ k, q = .republishRecord k → (q.gives r = true ↔ r = .republishOk ∨ r = .republishQuorum ∨ r = .republishTimeout)) := by
  refine ⟨?_, ?_, ?_⟩
  · intro hq
    constructor
    · intro h
      cases q <;> cases r <;> first | (cases hq; done) | (cases h; done) | exact ⟨_, by constructor⟩
    · rintro ⟨a, h⟩
      cases h <;> rfl
  · rintro k rfl; cases r <;> simp [KadQuery.gives]
  · rintro k rfl; cases r <;> simp [KadQuery.gives]

example : (KadQuery.get [1] 1).gives .getNotFound = true ∧ (KadQuery.get [1] 1).gives .putOk = false := by decide

/-- Two requests at once and a query nobody waits for; the second request is answered. -/
def kadExample : List KadEv :=
  [.background (.republishRecord [7]), .request .bootstrap, .request (.get [1] 1), .report 1 .bootstrapOk false,
   .pollFut 1, .report 2 (.getOk [(none, ⟨[1], [5]⟩)]) true, .report 0 .republishOk true, .request (.put ⟨[2], [3]⟩ 1)]

theorem kadExample_runs : ∃ s, KadRun true kadExample s :=
  ⟨_, .snoc (.snoc (.snoc (.snoc (.snoc (.snoc (.snoc (.snoc .nil .background rfl) (.request (q := .bootstrap) trivial) rfl)
    (.request (q := .get [1] 1) trivial) rfl)
    (.report (q := .bootstrap) rfl rfl (.inr rfl)) rfl) .pollFut rfl) (.report (q := .get [1] 1) rfl rfl (.inl rfl)) rfl)
    (.report (q := .republishRecord [7]) rfl rfl (.inl rfl)) rfl) (.request trivial) rfl⟩

example : ∃ s s', KadRun true kadExample s ∧ KadLegal s (.request .bootstrap) ∧ s.step true (.request .bootstrap) = some s' := by
  obtain ⟨s, h⟩ := kadExample_runs
  obtain ⟨s', h'⟩ := C72_no_panic (e := .request .bootstrap) h (.request trivial)
  exact ⟨s, s', h, .request trivial, h'⟩

/-- What a request is told at any time, whatever else is going on: nothing while its query runs, then the outcome of
its own query, once. -/
theorem C72_exact {debug : Bool} {pre mid : List KadEv} {q : KadQuery} {s : KadSt}
    (h : KadRun debug (pre ++ .request q :: mid) s) {p : Phase}
    (hp : mid.foldl (Phase.next (startedIn pre) (requestsIn pre)) .waiting = p) :
    (p = .waiting → (s.reg.poll (requestsIn pre)).map Prod.snd = some .pending) ∧
    (∀ r, p = .finished r → ∃ a, Told q r a ∧ (s.reg.poll (requestsIn pre)).map Prod.snd = some (.done a)) ∧
    (p = .taken → (s.reg.poll (requestsIn pre)).map Prod.snd = some .cancelled) ∧
    (p = .dropped → s.reg.poll (requestsIn pre) = none) := by
  obtain ⟨ha, -⟩ := h.at
  rw [hp] at ha
  refine ⟨?_, ?_, ?_, ?_⟩
  · rintro rfl
    obtain ⟨-, ⟨w, n, g2⟩, c, g3⟩ := ha
    simp only [Reg.poll, g3, g2, Option.map_some]
  · rintro r rfl
    obtain ⟨-, ⟨a, ht, g2⟩, c, g3⟩ := ha
    exact ⟨a, ht, by simp only [Reg.poll, g3, g2, Option.map_some]⟩
  · rintro rfl
    obtain ⟨-, g2, c, g3⟩ := ha
    simp only [Reg.poll, g3, g2, Option.map_some]
  · rintro rfl
    obtain ⟨-, st, g2, g3, -⟩ := ha
    unfold Reg.poll
    split
    · rename_i heq; rw [g2] at heq; cases heq; exact absurd rfl (g3 _)
    · rfl

example : ∃ s, KadRun true kadExample s ∧ (s.reg.poll 0).map Prod.snd = some .pending := by
  obtain ⟨s, h⟩ := kadExample_runs
  exact ⟨s, h, (C72_exact (pre := [.background (.republishRecord [7])]) (q := .bootstrap)
    (mid := [.request (.get [1] 1), .report 1 .bootstrapOk false, .pollFut 1, .report 2 (.getOk [(none, ⟨[1], [5]⟩)]) true,
      .report 0 .republishOk true, .request (.put ⟨[2], [3]⟩ 1)]) h rfl).1 (by decide +kernel)⟩

theorem phase_dropped {id i : Nat} {mid : List KadEv} {p : Phase} (hp : p ≠ .dropped)
    (h : mid.foldl (Phase.next id i) p = .dropped) : KadEv.dropFut i ∈ mid := by
  induction mid generalizing p with
  | nil => exact absurd h hp
  | cons e mid ih =>
    by_cases he : e = .dropFut i
    · exact he ▸ List.mem_cons_self
    · refine List.mem_cons_of_mem _ (ih ?_ h)
      cases e with
      | dropFut j =>
        have hj : j ≠ i := by rintro rfl; exact he rfl
        cases p <;> simp_all [Phase.next]
      | report id' r last => cases last <;> cases p <;> simp_all [Phase.next] <;> split <;> simp
      | pollFut j => cases p <;> simp_all [Phase.next]; split <;> simp
      | _ => cases p <;> simp_all [Phase.next]

theorem phase_waits {id i : Nat} {mid : List KadEv} (hd : KadEv.dropFut i ∉ mid) (hr : ∀ r, KadEv.report id r true ∉ mid) :
    mid.foldl (Phase.next id i) .waiting = .waiting := by
  induction mid with
  | nil => rfl
  | cons e mid ih =>
    simp only [List.mem_cons, not_or] at hd hr
    have : Phase.next id i .waiting e = .waiting := by
      cases e with
      | dropFut j =>
        have hj : j ≠ i := by rintro rfl; exact hd.1 rfl
        simp [Phase.next, hj]
      | report id' r last =>
        cases last with
        | false => rfl
        | true =>
          have hj : id' ≠ id := by rintro rfl; exact (hr r).1 rfl
          simp [Phase.next, hj]
      | _ => rfl
    rw [List.foldl_cons, this]
    exact ih hd.2 (fun r => (hr r).2)

theorem phase_finished {id i : Nat} {mid : List KadEv} {r : QueryResult} (hd : KadEv.dropFut i ∉ mid)
    (hr : KadEv.pollFut i ∉ mid) : mid.foldl (Phase.next id i) (.finished r) = .finished r := by
  induction mid with
  | nil => rfl
  | cons e mid ih =>
    simp only [List.mem_cons, not_or] at hd hr
    have : Phase.next id i (.finished r) e = .finished r := by
      cases e with
      | dropFut j =>
        have hj : j ≠ i := by rintro rfl; exact hd.1 rfl
        simp [Phase.next, hj]
      | pollFut j =>
        have hj : j ≠ i := by rintro rfl; exact hr.1 rfl
        simp [Phase.next, hj]
      | report id' r' last => cases last <;> rfl
      | _ => rfl
    rw [List.foldl_cons, this]
    exact ih hd.2 hr.2

theorem phase_reported {id i : Nat} {mid : List KadEv} {r : QueryResult} {p : Phase} (hp : ∀ r, p ≠ .finished r)
    (h : mid.foldl (Phase.next id i) p = .finished r) :
    ∃ a b, mid = a ++ .report id r true :: b ∧ KadEv.pollFut i ∉ b ∧ KadEv.dropFut i ∉ b := by
  have key : ∀ (mid : List KadEv) (p : Phase), mid.foldl (Phase.next id i) p = .finished r →
      (p = .finished r ∧ KadEv.pollFut i ∉ mid ∧ KadEv.dropFut i ∉ mid) ∨
      ∃ a b, mid = a ++ .report id r true :: b ∧ KadEv.pollFut i ∉ b ∧ KadEv.dropFut i ∉ b := by
    intro mid
    induction mid with
    | nil => intro p h; exact Or.inl ⟨h, by simp, by simp⟩
    | cons e mid ih =>
      intro p h
      rcases ih _ h with ⟨h1, h2, h3⟩ | ⟨a, b, rfl, h2⟩
      · cases e with
        | dropFut j =>
          by_cases hj : j = i
          · subst hj; cases p <;> simp [Phase.next] at h1
          · left
            have hj' : ¬ i = j := fun h => hj h.symm
            cases p <;> simp_all [Phase.next]
        | pollFut j =>
          left
          cases p <;> simp_all [Phase.next]
          have hj : ¬ j = i := by intro hj; rw [if_pos hj] at h1; cases h1
          rw [if_neg hj] at h1
          exact ⟨by simpa using h1, fun h => hj h.symm⟩
        | report id' r' last =>
          cases last with
          | false => left; cases p <;> simp_all [Phase.next]
          | true =>
            by_cases hw : p = .waiting
            · subst hw
              right
              simp only [Phase.next] at h1
              split at h1
              · rename_i hid
                cases h1
                subst hid
                exact ⟨[], mid, rfl, h2, h3⟩
              · cases h1
            · left; cases p <;> simp_all [Phase.next]
        | _ => left; cases p <;> simp_all [Phase.next]
      · exact Or.inr ⟨e :: a, b, rfl, h2⟩
  rcases key mid p h with ⟨h1, -⟩ | h1
  · exact absurd h1 (hp r)
  · exact h1

/-- While the query runs, the request waits. -/
theorem C72_waits {debug : Bool} {pre mid : List KadEv} {q : KadQuery} {s : KadSt}
    (h : KadRun debug (pre ++ .request q :: mid) s) (hd : KadEv.dropFut (requestsIn pre) ∉ mid)
    (hr : ∀ r, KadEv.report (startedIn pre) r true ∉ mid) :
    (s.reg.poll (requestsIn pre)).map Prod.snd = some .pending :=
  (C72_exact h (phase_waits hd hr)).1 rfl

example : ∃ s, KadRun true kadExample s ∧ (s.reg.poll 2).map Prod.snd = some .pending := by
  obtain ⟨s, h⟩ := kadExample_runs
  exact ⟨s, h, C72_waits (pre := kadExample.take 7) (q := .put ⟨[2], [3]⟩ 1) (mid := []) h (by simp) (by simp)⟩

/-- After the last report about its query, a request that was not dropped or answered is answered with that report's
outcome. -/
theorem C72_answered {debug : Bool} {pre mid post : List KadEv} {q : KadQuery} {r : QueryResult} {s : KadSt}
    (h : KadRun debug (pre ++ .request q :: (mid ++ .report (startedIn pre) r true :: post)) s)
    (hd : KadEv.dropFut (requestsIn pre) ∉ mid) (hd' : KadEv.dropFut (requestsIn pre) ∉ post)
    (hp : KadEv.pollFut (requestsIn pre) ∉ post) :
    ∃ a, Told q r a ∧ (s.reg.poll (requestsIn pre)).map Prod.snd = some (.done a) := by
  have hrun : ∃ s1, KadRun debug (pre ++ .request q :: mid) s1 ∧ KadLegal s1 (.report (startedIn pre) r true) := by
    clear hd' hp
    induction post using snocInd generalizing s with
    | nil =>
      rw [show pre ++ KadEv.request q :: (mid ++ [KadEv.report (startedIn pre) r true]) =
        (pre ++ KadEv.request q :: mid) ++ [KadEv.report (startedIn pre) r true] by simp] at h
      obtain ⟨s1, h1, h2, -⟩ := h.split
      exact ⟨s1, h1, h2⟩
    | snoc post e ih =>
      rw [show pre ++ KadEv.request q :: (mid ++ KadEv.report (startedIn pre) r true :: (post ++ [e])) =
        (pre ++ KadEv.request q :: (mid ++ KadEv.report (startedIn pre) r true :: post)) ++ [e] by simp] at h
      obtain ⟨s1, h1, -, -⟩ := h.split
      exact ih h1
  obtain ⟨s1, h1, h2⟩ := hrun
  obtain ⟨ha, -⟩ := h1.at
  have hw : mid.foldl (Phase.next (startedIn pre) (requestsIn pre)) .waiting = .waiting := by
    cases h2 with
    | @report _ q' _ _ hq _ _ =>
      cases hx : mid.foldl (Phase.next (startedIn pre) (requestsIn pre)) .waiting with
      | waiting => rfl
      | finished r' => rw [hx] at ha; rw [ha.1] at hq; cases hq
      | taken => rw [hx] at ha; rw [ha.1] at hq; cases hq
      | dropped => exact absurd (phase_dropped (by simp) hx) hd
  refine (C72_exact h (p := .finished r) ?_).2.1 r rfl
  rw [List.foldl_append, hw, List.foldl_cons]
  simp only [Phase.next, if_true]
  exact phase_finished hd' hp

example : ∃ s a, KadRun true kadExample s ∧ Told (.get [1] 1) (.getOk [(none, ⟨[1], [5]⟩)]) a ∧
    (s.reg.poll 1).map Prod.snd = some (.done a) := by
  obtain ⟨s, h⟩ := kadExample_runs
  obtain ⟨a, h1, h2⟩ := C72_answered (pre := [.background (.republishRecord [7]), .request .bootstrap]) (q := .get [1] 1)
    (mid := [.report 1 .bootstrapOk false, .pollFut 1]) (r := .getOk [(none, ⟨[1], [5]⟩)])
    (post := [.report 0 .republishOk true, .request (.put ⟨[2], [3]⟩ 1)]) h (by decide) (by decide) (by decide)
  exact ⟨s, a, h, h1, h2⟩

theorem request_split {es : List KadEv} {i : Nat} (h : i < requestsIn es) :
    ∃ pre q mid, es = pre ++ .request q :: mid ∧ requestsIn pre = i := by
  induction es using snocInd with
  | nil => exact absurd h (Nat.not_lt_zero _)
  | snoc es e ih =>
    rw [requestsIn_snoc] at h
    by_cases hi : i < requestsIn es
    · obtain ⟨pre, q, mid, rfl, h2⟩ := ih hi
      exact ⟨pre, q, mid ++ [e], by simp, h2⟩
    · cases e with
      | request q => exact ⟨es, q, [], rfl, by simp [requestsIn] at h; omega⟩
      | _ => simp [requestsIn] at h; exact absurd h hi

/-- An answer is always the outcome of the request's own query, from the last report about it. -/
theorem C72_own {debug : Bool} {es : List KadEv} {s : KadSt} {i : Nat} {a : KadRes} (h : KadRun debug es s)
    (hp : (s.reg.poll i).map Prod.snd = some (.done a)) :
    ∃ pre q mid r post, es = pre ++ .request q :: (mid ++ .report (startedIn pre) r true :: post) ∧ requestsIn pre = i ∧
      Told q r a ∧ KadEv.pollFut i ∉ post ∧ KadEv.dropFut i ∉ post := by
  have hi : i < requestsIn es := by
    rw [← h.inv.futures]
    by_cases hlt : i < s.reg.nextId
    · exact hlt
    · have := h.inv.subs.fresh i (by omega)
      simp only [Reg.poll, this] at hp
      cases hp
  obtain ⟨pre, q, mid, rfl, rfl⟩ := request_split hi
  obtain ⟨h1, h2, h3, h4⟩ := C72_exact h rfl
  cases hx : mid.foldl (Phase.next (startedIn pre) (requestsIn pre)) .waiting with
  | waiting => rw [h1 hx] at hp; cases hp
  | taken => rw [h3 hx] at hp; cases hp
  | dropped => rw [h4 hx] at hp; cases hp
  | finished r =>
    obtain ⟨a', ht, hp'⟩ := h2 r hx
    rw [hp'] at hp
    cases hp
    obtain ⟨x, y, rfl, g1, g2⟩ := phase_reported (by simp) hx
    exact ⟨pre, q, x, r, y, rfl, rfl, ht, g1, g2⟩

example : ∃ pre q mid r post, kadExample = pre ++ .request q :: (mid ++ .report (startedIn pre) r true :: post) ∧
    requestsIn pre = 1 ∧ Told q r (.ok (.records [⟨[1], [5]⟩])) ∧ KadEv.pollFut 1 ∉ post ∧ KadEv.dropFut 1 ∉ post :=
  C72_own (debug := true) (es := kadExample) (i := 1) (.snoc (.snoc (.snoc (.snoc (.snoc (.snoc (.snoc (.snoc .nil .background rfl)
    (.request (q := .bootstrap) trivial) rfl) (.request (q := .get [1] 1) trivial) rfl) (.report (q := .bootstrap) rfl rfl (.inr rfl)) rfl) .pollFut rfl)
    (.report (q := .get [1] 1) rfl rfl (.inl rfl)) rfl) (.report (q := .republishRecord [7]) rfl rfl (.inl rfl)) rfl)
    (.request trivial) rfl) rfl

/-! ### What callers are told -/

/-- For every kind of request the caller is told of it, never with a panic: the peers, the values or that it was done
if the query succeeded, the message otherwise. -/
theorem C72_caller {q : KadQuery} {r : QueryResult} {a : KadRes} (h : Told q r a) :
    (∀ p, q = .closest p → (∃ l, r = .closestOk l ∧ peersTold a = .ok l) ∨ (r = .closestTimeout ∧ ∃ m, peersTold a = .error m)) ∧
    (∀ k, q = .providers k →
      (∃ l, r = .providersOk l ∧ peersTold a = .ok l) ∨ (r = .providersTimeout ∧ ∃ m, peersTold a = .error m)) ∧
    (∀ k, q = .provide k → (r = .provideOk ∧ doneTold a = .ok ()) ∨ (r = .provideTimeout ∧ ∃ m, doneTold a = .error m)) ∧
    (∀ x n, q = .put x n → (r = .putOk ∧ doneTold a = .ok ()) ∨ (r ≠ .putOk ∧ ∃ m, doneTold a = .error m)) ∧
    (∀ k n, q = .get k n → (∃ l, r = .getOk l ∧ valuesTold a = .ok (l.map (fun x => x.2.value))) ∨
      ((∀ l, r ≠ .getOk l) ∧ ∃ m, valuesTold a = .error m)) := by
  cases h <;> simp [peersTold, doneTold, valuesTold, List.map_map, Function.comp_def]

example : valuesTold (.ok (.records [⟨[1], [5]⟩])) = .ok [[5]] ∧ peersTold (.ok .complete) = .panic := by decide

/-- Looking for a peer: addresses that are known are answered at once, those of connections first; otherwise what is
known when the query has ended, and it is an error if that is nothing or the query failed. It never panics. -/
theorem C72_find_peer {nf : Bytes} {swarm kad swarm' kad' : List Maddr} {query : KadRes} :
    (swarm ≠ [] → findPeer nf swarm kad query swarm' kad' = .ok swarm) ∧
    (swarm = [] → kad ≠ [] → findPeer nf swarm kad query swarm' kad' = .ok kad) ∧
    (swarm = [] → kad = [] → ∀ m, query = .err m → findPeer nf swarm kad query swarm' kad' = .error m) ∧
    (swarm = [] → kad = [] → ∀ x, query = .ok x → swarm' ≠ [] → findPeer nf swarm kad query swarm' kad' = .ok swarm') ∧
    (swarm = [] → kad = [] → ∀ x, query = .ok x → swarm' = [] → kad' ≠ [] →
      findPeer nf swarm kad query swarm' kad' = .ok kad') ∧
    (swarm = [] → kad = [] → ∀ x, query = .ok x → swarm' = [] → kad' = [] →
      findPeer nf swarm kad query swarm' kad' = .error nf) := by
  refine ⟨?_, ?_, ?_, ?_, ?_, ?_⟩ <;> intros <;> simp_all [findPeer, findPeerLocal, knownAddrs]

example : findPeer [1] [] [] (.ok (.peers [])) [] [] = .error [1] ∧ ∀ m : Maddr, findPeer [1] [] [] (.ok (.peers [])) [] [m] = .ok [m] :=
  ⟨C72_find_peer.2.2.2.2.2 rfl rfl _ rfl rfl rfl, fun _ => C72_find_peer.2.2.2.2.1 rfl rfl _ rfl rfl (by simp)⟩

/-- Only blocks that are at hand are provided: it succeeds exactly if the block is there and the query did. -/
theorem C72_provide {hasBlock : Bool} {nb : Bytes} {started : Option Bytes} {k : Bytes} {r : QueryResult} {a : KadRes}
    (h : Told (.provide k) r a) :
    (provideTold hasBlock nb started a = .ok () ↔ hasBlock = true ∧ started = none ∧ r = .provideOk) ∧
    (hasBlock = false → provideTold hasBlock nb started a = .error nb) ∧
    provideTold hasBlock nb started a ≠ .panic := by
  cases hasBlock <;> cases started <;> cases h <;> simp [provideTold, doneTold]

example : provideTold true [9] none (.ok .complete) = .ok () ∧ provideTold false [9] none (.ok .complete) = .error [9] :=
  ⟨(C72_provide (k := [1]) .provide).1.mpr ⟨rfl, rfl, rfl⟩, (C72_provide (k := [1]) .provide).2.1 rfl⟩

end Verif.Props
