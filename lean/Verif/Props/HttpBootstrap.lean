import Verif.Http.Bootstrap
import Verif.Props.Block
import Verif.Props.Bootstrap

/-!
# C74: the bootstrap list over HTTP
-/

namespace Verif.Props

open Verif Verif.Http Verif.Ipfs Verif.Net

/-! ### Specification -/

variable {K : Type}

/-- The text is an address that names a peer. -/
def bootText (env : BootEnv K) (s : Bytes) : Option AddrPeer :=
  (env.parseAddr s).bind (fun a => (AddrPeer.ofAddr env.debug a).toOption)

/-- The text makes a debug build panic. -/
def BootPanics (env : BootEnv K) (s : Bytes) : Prop :=
  ∃ a, env.parseAddr s = some a ∧ AddrPeer.ofAddr env.debug a = .error .debugAssert

/-- What parameters with an address, a flag and a timeout mean. -/
def BootAsked (env : BootEnv K) (flag : Bytes) (ps : List (Bytes × Bytes)) (o : BootQuery) : Prop :=
  Given (bootText env) "arg".toUTF8.toList ps o.arg ∧ Given readBool flag ps o.flag ∧
    Given env.q.duration "timeout".toUTF8.toList ps o.timeout

/-- The change a request asks for, and its timeout. -/
inductive BootMeans (env : BootEnv K) (ps : List (Bytes × Bytes)) : BootReq → BootOp → Option Nat → Prop
  | add {a flag t} : BootAsked env "default".toUTF8.toList ps ⟨some a, flag, t⟩ → BootMeans env ps .add (.add a) t
  | addDefaults {t} : BootAsked env "default".toUTF8.toList ps ⟨none, some true, t⟩ → BootMeans env ps .add .restore t
  | restore {t} : Given env.q.duration "timeout".toUTF8.toList ps t → BootMeans env ps .addDefault .restore t
  | rm {a flag t} : BootAsked env "all".toUTF8.toList ps ⟨some a, flag, t⟩ → BootMeans env ps .rm (.remove a) t
  | rmAll {t} : BootAsked env "all".toUTF8.toList ps ⟨none, some true, t⟩ → BootMeans env ps .rm .clear t
  | clear {t} : Given env.q.duration "timeout".toUTF8.toList ps t → BootMeans env ps .rmAll .clear t

/-- The addresses a change is answered with: all default nodes as they are written in the program, or what the node
answered. -/
def bootTold (env : BootEnv K) (op : BootOp) (answer : List Maddr) : List Bytes :=
  match op with
  | .restore => env.nodes.map Prod.fst
  | _ => answer.map (Maddr.text env.show')

/-- A parameter that stops the parser: given before, or not well-formed. The parameters before it were fine. -/
def BootPanicsAt (env : BootEnv K) (flag : Bytes) (ps : List (Bytes × Bytes)) : Prop :=
  ∃ before v after o, ps = before ++ ("arg".toUTF8.toList, v) :: after ∧ BootAsked env flag before o ∧ o.arg = none ∧
    BootPanics env v

/-! ### Queries -/

/-- What a variable is at the end, if it is `x` now. -/
def Still {α : Type} (parse : Bytes → Option α) (name : Bytes) (ps : List (Bytes × Bytes)) : Option α → Option α → Prop
  | none, y => Given parse name ps y
  | some x, y => y = some x ∧ ∀ p ∈ ps, p.1 ≠ name

theorem still_nil {α : Type} {parse : Bytes → Option α} {name : Bytes} {x y : Option α} :
    Still parse name [] x y ↔ y = x := by
  cases x with
  | none => cases y <;> simp [Still, Given, GivenOnce]
  | some x => simp [Still]

theorem still_cons_ne {α : Type} {parse : Bytes → Option α} {name k v : Bytes} {ps : List (Bytes × Bytes)} {x y : Option α}
    (h : k ≠ name) : Still parse name ((k, v) :: ps) x y ↔ Still parse name ps x y := by
  cases x with
  | none => exact given_cons_ne h
  | some x => simp [Still, h]

theorem still_cons_eq {α : Type} {parse : Bytes → Option α} {name v : Bytes} {ps : List (Bytes × Bytes)} {x y : Option α} :
    Still parse name ((name, v) :: ps) x y ↔ x = none ∧ ∃ z, parse v = some z ∧ Still parse name ps (some z) y := by
  cases x with
  | some x =>
    simp only [reduceCtorEq, false_and, iff_false]
    rintro ⟨-, h⟩
    exact h (name, v) (by simp) rfl
  | none => simp only [Still, given_cons_eq, true_and]

theorem kDefault_eq : kDefault = "default".toUTF8.toList := rfl
theorem kAll_eq : kAll = "all".toUTF8.toList := rfl

theorem parseBoot_ok {env : BootEnv K} {s : Bytes} {x : AddrPeer} :
    parseBoot env.debug env.parseAddr s = .ok x ↔ bootText env s = some x := by
  unfold parseBoot bootText
  cases env.parseAddr s with
  | none => simp
  | some a =>
    simp only [Option.bind_some]
    cases AddrPeer.ofAddr env.debug a with
    | ok y => simp [Except.toOption]
    | error e => cases e <;> simp [Except.toOption]

theorem parseBoot_panic {env : BootEnv K} {s : Bytes} :
    parseBoot env.debug env.parseAddr s = .panic ↔ BootPanics env s := by
  unfold parseBoot BootPanics
  cases env.parseAddr s with
  | none => simp
  | some a =>
    simp only [Option.some.injEq, exists_eq_left']
    cases AddrPeer.ofAddr env.debug a with
    | ok y => simp
    | error e => cases e <;> simp

/-- The three variables together. -/
def BootStill (env : BootEnv K) (flag : Bytes) (ps : List (Bytes × Bytes)) (o o' : BootQuery) : Prop :=
  Still (bootText env) kArg ps o.arg o'.arg ∧ Still readBool flag ps o.flag o'.flag ∧
    Still env.q.duration kTimeout ps o.timeout o'.timeout

theorem bootWalk_ok (env : BootEnv K) (flag : Bytes) (h1 : kArg ≠ flag) (h2 : flag ≠ kTimeout) (ps : List (Bytes × Bytes))
    (o o' : BootQuery) :
    bootWalk env.debug env.parseAddr env.q.duration flag o ps = .ok o' ↔ BootStill env flag ps o o' := by
  have h3 : kArg ≠ kTimeout := by decide +kernel
  unfold BootStill
  induction ps generalizing o with
  | nil =>
    simp only [bootWalk, Parsed.ok.injEq, still_nil]
    obtain ⟨a, b, c⟩ := o
    obtain ⟨a', b', c'⟩ := o'
    simp [eq_comm]
  | cons p ps ih =>
    obtain ⟨k, v⟩ := p
    rw [bootWalk]
    by_cases e1 : k = kArg
    · subst e1
      rw [if_pos rfl, still_cons_eq, still_cons_ne h1, still_cons_ne h3]
      cases ha : o.arg with
      | some a => simp
      | none =>
        simp only [Option.isSome_none, Bool.false_eq_true, if_false, true_and]
        cases hp : parseBoot env.debug env.parseAddr v with
        | ok a => rw [parseBoot_ok] at hp; simp [ih, hp]
        | bad =>
          have : bootText env v = none := by
            cases hb : bootText env v with
            | none => rfl
            | some x => rw [← parseBoot_ok, hp] at hb; cases hb
          simp [this]
        | panic =>
          have : bootText env v = none := by
            cases hb : bootText env v with
            | none => rfl
            | some x => rw [← parseBoot_ok, hp] at hb; cases hb
          simp [this]
    · rw [if_neg e1, still_cons_ne e1]
      by_cases e2 : k = flag
      · subst e2
        rw [if_pos rfl, still_cons_eq, still_cons_ne h2, parseBool_eq]
        cases ha : o.flag with
        | some a => simp
        | none =>
          simp only [Option.isSome_none, Bool.false_eq_true, if_false, true_and]
          cases hp : readBool v with
          | some a => simp [ih]
          | none => simp
      · rw [if_neg e2, still_cons_ne e2]
        by_cases e3 : k = kTimeout
        · subst e3
          rw [if_pos rfl, still_cons_eq]
          cases ha : o.timeout with
          | some a => simp
          | none =>
            simp only [Option.isSome_none, Bool.false_eq_true, if_false, true_and]
            cases hp : env.q.duration v with
            | some a => simp [ih]
            | none => simp
        · rw [if_neg e3, still_cons_ne e3]
          exact ih o

theorem bootWalk_append (debug : Bool) (pa : Bytes → Option Maddr) (du : Bytes → Option Nat) (flag : Bytes)
    (ps qs : List (Bytes × Bytes)) (o : BootQuery) :
    bootWalk debug pa du flag o (ps ++ qs) =
      match bootWalk debug pa du flag o ps with
      | .ok o' => bootWalk debug pa du flag o' qs
      | .bad => .bad
      | .panic => .panic := by
  induction ps generalizing o with
  | nil => simp [bootWalk]
  | cons p ps ih =>
    obtain ⟨k, v⟩ := p
    rw [List.cons_append, bootWalk, bootWalk]
    split
    · split
      · rfl
      · split
        · exact ih _
        · rfl
        · rfl
    · split
      · split
        · rfl
        · split
          · exact ih _
          · rfl
      · split
        · split
          · rfl
          · split
            · exact ih _
            · rfl
        · exact ih _

theorem bootWalk_panic (env : BootEnv K) (flag : Bytes) (ps : List (Bytes × Bytes)) (o : BootQuery) :
    bootWalk env.debug env.parseAddr env.q.duration flag o ps = .panic ↔
      ∃ before v after o', ps = before ++ (kArg, v) :: after ∧
        bootWalk env.debug env.parseAddr env.q.duration flag o before = .ok o' ∧ o'.arg = none ∧ BootPanics env v := by
  constructor
  · intro h
    induction ps generalizing o with
    | nil => simp [bootWalk] at h
    | cons p ps ih =>
      obtain ⟨k, v⟩ := p
      have more : ∀ o1, bootWalk env.debug env.parseAddr env.q.duration flag o [(k, v)] = .ok o1 →
          bootWalk env.debug env.parseAddr env.q.duration flag o1 ps = .panic →
          ∃ before v' after o', (k, v) :: ps = before ++ (kArg, v') :: after ∧
            bootWalk env.debug env.parseAddr env.q.duration flag o before = .ok o' ∧ o'.arg = none ∧ BootPanics env v' := by
        intro o1 e1 e2
        obtain ⟨before, v', after, o', rfl, g1, g2, g3⟩ := ih o1 e2
        refine ⟨(k, v) :: before, v', after, o', rfl, ?_, g2, g3⟩
        rw [← List.singleton_append, bootWalk_append, e1]
        exact g1
      rw [← List.singleton_append, bootWalk_append] at h
      cases hw : bootWalk env.debug env.parseAddr env.q.duration flag o [(k, v)] with
      | ok o1 => rw [hw] at h; exact more o1 hw h
      | bad => rw [hw] at h; cases h
      | panic =>
        rw [bootWalk] at hw
        by_cases e1 : k = kArg
        · subst e1
          rw [if_pos rfl] at hw
          cases ha : o.arg with
          | some a => rw [ha] at hw; simp at hw
          | none =>
            rw [ha] at hw
            simp only [Option.isSome_none, Bool.false_eq_true, if_false] at hw
            refine ⟨[], v, ps, o, rfl, rfl, ha, ?_⟩
            rw [← parseBoot_panic]
            cases hp : parseBoot env.debug env.parseAddr v with
            | ok a => rw [hp] at hw; simp [bootWalk] at hw
            | bad => rw [hp] at hw; simp at hw
            | panic => rfl
        · rw [if_neg e1] at hw
          simp only [bootWalk] at hw
          repeat' split at hw
          all_goals cases hw
  · rintro ⟨before, v, after, o', rfl, h1, h2, h3⟩
    rw [bootWalk_append, h1]
    dsimp only
    rw [bootWalk, if_pos rfl, h2, parseBoot_panic.mpr h3]
    simp

theorem bootAsked_iff (env : BootEnv K) (flag : Bytes) (h1 : kArg ≠ flag) (h2 : flag ≠ kTimeout) (ps : List (Bytes × Bytes))
    (o : BootQuery) :
    bootWalk env.debug env.parseAddr env.q.duration flag ⟨none, none, none⟩ ps = .ok o ↔ BootAsked env flag ps o := by
  rw [bootWalk_ok env flag h1 h2]
  unfold BootStill BootAsked
  rw [← kArg_eq, ← kTimeout_eq]
  rfl

theorem flags_ok : kArg ≠ kDefault ∧ kDefault ≠ kTimeout ∧ kArg ≠ kAll ∧ kAll ≠ kTimeout := by decide +kernel

/-- **C74**: the query of `bootstrap/add` and `bootstrap/rm` is accepted just if the address, the flag and the timeout
are given at most once each and are well-formed; a debug build panics just if all parameters before an address it
panics at are so. -/
theorem C74_query (env : BootEnv K) (query : Bytes) (ps : List (Bytes × Bytes)) (hd : Decoded env.q query ps) (flag : Bytes)
    (hf : flag = "default".toUTF8.toList ∨ flag = "all".toUTF8.toList) :
    (∀ o, bootQuery env flag query = .ok o ↔ BootAsked env flag ps o) ∧
    (bootQuery env flag query = .panic ↔ BootPanicsAt env flag ps) := by
  obtain ⟨f1, f2, f3, f4⟩ := flags_ok
  have h1 : kArg ≠ flag := hf.elim (fun e => e ▸ f1) (fun e => e ▸ f3)
  have h2 : flag ≠ kTimeout := hf.elim (fun e => e ▸ f2) (fun e => e ▸ f4)
  rw [decoded_iff] at hd
  unfold bootQuery
  rw [hd]
  refine ⟨fun o => bootAsked_iff env flag h1 h2 ps o, ?_⟩
  rw [bootWalk_panic]
  unfold BootPanicsAt
  rw [← kArg_eq]
  simp only [bootAsked_iff env flag h1 h2]

/-- A release build does not panic. -/
theorem bootPanics_debug (env : BootEnv K) (v : Bytes) (h : BootPanics env v) : env.debug = true := by
  obtain ⟨a, -, h⟩ := h
  unfold AddrPeer.ofAddr at h
  cases hd : env.debug with
  | true => rfl
  | false =>
    rw [hd] at h
    split at h
    · simp only [Bool.false_and, Bool.false_eq_true, if_false] at h
      split at h <;> cases h
    · cases h

/-! ### Requests -/

theorem given_unique {α : Type} {parse : Bytes → Option α} {name : Bytes} {ps : List (Bytes × Bytes)} {x y : Option α}
    (h : Given parse name ps x) (h' : Given parse name ps y) : x = y := by
  rw [← queryField_iff] at h h'
  rw [h] at h'
  cases h'
  rfl

/-- What a request that asks for a change does, by its fate. -/
theorem serve_means (env : BootEnv K) (order : List AddrPeer → List AddrPeer) (fate : Fate) (s : BootSt K) (query : Bytes)
    (ps : List (Bytes × Bytes)) (hd : Decoded env.q query ps) (r : BootReq) (op : BootOp) (t : Option Nat)
    (hm : BootMeans env ps r op t) :
    serveBoot env order fate s query r =
      withFate t fate s (s.op env.routing order (env.nodes.map Prod.snd) op) (fun x => .peers (bootTold env op x)) := by
  obtain ⟨q1, -⟩ := C74_query env query ps hd kDefault (.inl rfl)
  obtain ⟨q2, -⟩ := C74_query env query ps hd kAll (.inr rfl)
  have hp := (decoded_iff _ _ _).mp hd
  cases hm with
  | add h =>
    simp only [serveBoot, bootAdd, (q1 _).mpr h]
    unfold withFate
    cases fate <;> cases t <;> rfl
  | addDefaults h =>
    simp only [serveBoot, bootAdd, (q1 _).mpr h, bootRestore, if_true]
    unfold withFate
    cases fate <;> cases t <;> rfl
  | restore h =>
    rw [← kTimeout_eq, ← queryField_iff, ← hp] at h
    simp only [serveBoot, h, bootRestore]
    unfold withFate
    cases fate <;> cases t <;> rfl
  | rm h =>
    simp only [serveBoot, bootRm, (q2 _).mpr h]
    unfold withFate
    cases fate <;> cases t <;> rfl
  | rmAll h =>
    simp only [serveBoot, bootRm, (q2 _).mpr h, bootClear, if_true]
    unfold withFate
    cases fate <;> cases t <;> rfl
  | clear h =>
    rw [← kTimeout_eq, ← queryField_iff, ← hp] at h
    simp only [serveBoot, h, bootClear]
    unfold withFate
    cases fate <;> cases t <;> rfl

/-- **C74**: a request that asks for a change and is answered in time makes just that change and is answered with the
address, the default nodes or what was cleared. If the timeout it asked for elapses it is answered with an error
and the change is made or not; if the node is gone it is answered with an error and nothing is changed. -/
theorem C74_request (env : BootEnv K) (order : List AddrPeer → List AddrPeer) (s : BootSt K) (query : Bytes)
    (ps : List (Bytes × Bytes)) (hd : Decoded env.q query ps) (r : BootReq) (op : BootOp) (t : Option Nat)
    (hm : BootMeans env ps r op t) :
    serveBoot env order .inTime s query r =
      ((s.op env.routing order (env.nodes.map Prod.snd) op).1,
        .peers (bootTold env op (s.op env.routing order (env.nodes.map Prod.snd) op).2)) ∧
    (∀ b, t = none → serveBoot env order (.elapses b) s query r = serveBoot env order .inTime s query r) ∧
    (∀ d, t = some d →
      serveBoot env order (.elapses true) s query r =
        ((s.op env.routing order (env.nodes.map Prod.snd) op).1, .failed .elapsed) ∧
      serveBoot env order (.elapses false) s query r = (s, .failed .elapsed)) ∧
    serveBoot env order .down s query r = (s, .failed .down) := by
  simp only [serve_means env order _ s query ps hd r op t hm]
  refine ⟨rfl, ?_, ?_, rfl⟩
  · rintro b rfl; rfl
  · rintro d rfl; exact ⟨rfl, rfl⟩

/-- **C74**: a request that asks for no change makes none, whatever its fate, and is answered with an error: of the
query, or because it has neither address nor flag. A debug build may close the connection instead. -/
theorem C74_no_request (env : BootEnv K) (order : List AddrPeer → List AddrPeer) (fate : Fate) (s : BootSt K) (query : Bytes)
    (ps : List (Bytes × Bytes)) (hd : Decoded env.q query ps) (r : BootReq) (hr : r ≠ .list)
    (hm : ∀ op t, ¬ BootMeans env ps r op t) :
    ∃ reply, serveBoot env order fate s query r = (s, reply) ∧
      (reply = .failed .invalidQueryString ∧ (r = .add ∨ r = .rm) ∧
          (∃ flag o, (r = .add → flag = "default".toUTF8.toList) ∧ (r = .rm → flag = "all".toUTF8.toList) ∧
            BootAsked env flag ps o ∧ o.arg = none ∧ o.flag ≠ some true) ∨
        reply = .failed .badQuery ∧
          ((r = .addDefault ∨ r = .rmAll) ∨
            ∃ flag, (r = .add → flag = "default".toUTF8.toList) ∧ (r = .rm → flag = "all".toUTF8.toList) ∧ (r = .add ∨ r = .rm) ∧
              (∀ o, ¬ BootAsked env flag ps o) ∧ ¬ BootPanicsAt env flag ps) ∨
        reply = .closed ∧ env.debug = true ∧
          ∃ flag, (r = .add → flag = "default".toUTF8.toList) ∧ (r = .rm → flag = "all".toUTF8.toList) ∧ (r = .add ∨ r = .rm) ∧
            BootPanicsAt env flag ps) := by
  obtain ⟨q1, p1⟩ := C74_query env query ps hd kDefault (.inl rfl)
  obtain ⟨q2, p2⟩ := C74_query env query ps hd kAll (.inr rfl)
  have hp := (decoded_iff _ _ _).mp hd
  cases r with
  | list => exact absurd rfl hr
  | addDefault =>
    cases hq : queryField env.q.duration kTimeout (formPairs env.q.lossy query) with
    | error e => exact ⟨.failed .badQuery, by simp only [serveBoot, hq], .inr (.inl ⟨rfl, .inl (.inl rfl)⟩)⟩
    | ok t =>
      rw [hp, queryField_iff, kTimeout_eq] at hq
      exact absurd (.restore hq) (hm _ t)
  | rmAll =>
    cases hq : queryField env.q.duration kTimeout (formPairs env.q.lossy query) with
    | error e => exact ⟨.failed .badQuery, by simp only [serveBoot, hq], .inr (.inl ⟨rfl, .inl (.inr rfl)⟩)⟩
    | ok t =>
      rw [hp, queryField_iff, kTimeout_eq] at hq
      exact absurd (.clear hq) (hm _ t)
  | add =>
    cases hq : bootQuery env kDefault query with
    | bad =>
      refine ⟨.failed .badQuery, by simp only [serveBoot, bootAdd, hq], .inr (.inl ⟨rfl, .inr ⟨kDefault, fun _ => rfl, by simp, .inl rfl, ?_, ?_⟩⟩)⟩
      · intro o ho; rw [← q1, hq] at ho; cases ho
      · rw [← p1, hq]; simp
    | panic =>
      have h := p1.mp hq
      refine ⟨.closed, by simp only [serveBoot, bootAdd, hq], .inr (.inr ⟨rfl, ?_, kDefault, fun _ => rfl, by simp, .inl rfl, h⟩)⟩
      obtain ⟨_, v, _, _, _, _, _, hv⟩ := h
      exact bootPanics_debug env v hv
    | ok o =>
      have h := (q1 o).mp hq
      obtain ⟨arg, flag, t⟩ := o
      cases arg with
      | some a => exact absurd (.add h) (hm _ t)
      | none =>
        have hf : flag ≠ some true := by rintro rfl; exact hm _ t (.addDefaults h)
        refine ⟨.failed .invalidQueryString, by simp only [serveBoot, bootAdd, hq, if_neg hf],
          .inl ⟨rfl, .inl rfl, kDefault, _, fun _ => rfl, by simp, h, rfl, hf⟩⟩
  | rm =>
    cases hq : bootQuery env kAll query with
    | bad =>
      refine ⟨.failed .badQuery, by simp only [serveBoot, bootRm, hq], .inr (.inl ⟨rfl, .inr ⟨kAll, by simp, fun _ => rfl, .inr rfl, ?_, ?_⟩⟩)⟩
      · intro o ho; rw [← q2, hq] at ho; cases ho
      · rw [← p2, hq]; simp
    | panic =>
      have h := p2.mp hq
      refine ⟨.closed, by simp only [serveBoot, bootRm, hq], .inr (.inr ⟨rfl, ?_, kAll, by simp, fun _ => rfl, .inr rfl, h⟩)⟩
      obtain ⟨_, v, _, _, _, _, _, hv⟩ := h
      exact bootPanics_debug env v hv
    | ok o =>
      have h := (q2 o).mp hq
      obtain ⟨arg, flag, t⟩ := o
      cases arg with
      | some a => exact absurd (.rm h) (hm _ t)
      | none =>
        have hf : flag ≠ some true := by rintro rfl; exact hm _ t (.rmAll h)
        refine ⟨.failed .invalidQueryString, by simp only [serveBoot, bootRm, hq, if_neg hf],
          .inl ⟨rfl, .inr rfl, kAll, _, by simp, fun _ => rfl, h, rfl, hf⟩⟩

/-- **C74**: listing changes nothing and answers the text of every address on the list once, if it is answered in
time. -/
theorem C74_list (env : BootEnv K) (order : List AddrPeer → List AddrPeer) (ho : ∀ l, (order l).Perm l) (s : BootSt K)
    (query : Bytes) (ps : List (Bytes × Bytes)) (hd : Decoded env.q query ps) :
    (∀ fate, (serveBoot env order fate s query .list).1 = s) ∧
    (∀ t, Given env.q.duration "timeout".toUTF8.toList ps t →
      ∃ l, (serveBoot env order .inTime s query .list).2 = .peers l ∧ l.Perm (s.boots.map (AddrPeer.text env.show'))) ∧
    ((∀ t, ¬ Given env.q.duration "timeout".toUTF8.toList ps t) →
      ∀ fate, (serveBoot env order fate s query .list).2 = .failed .badQuery) := by
  have hp := (decoded_iff _ _ _).mp hd
  simp only [serveBoot, bootList, hp]
  refine ⟨fun fate => ?_, fun t ht => ?_, fun hn fate => ?_⟩
  · split
    · rfl
    · unfold withFate
      cases fate with
      | elapses b => dsimp only; split <;> simp
      | _ => rfl
  · rw [← kTimeout_eq, ← queryField_iff] at ht
    rw [ht]
    refine ⟨_, rfl, ?_⟩
    have := ((ho s.boots).map AddrPeer.toAddr).map (Maddr.text env.show')
    refine this.trans ?_
    rw [List.map_map]
    have e : (Maddr.text env.show' ∘ AddrPeer.toAddr) = AddrPeer.text env.show' := by
      funext x; exact (C49_text env.show' x).symm
    rw [e]
  · cases hq : queryField env.q.duration kTimeout ps with
    | error e => rfl
    | ok t => rw [queryField_iff, kTimeout_eq] at hq; exact absurd hq (hn t)

/-! ### Giving back what was listed -/

/-- The request a client makes for an address. -/
def argUrl (esc : UInt8 → Bool) (text : Bytes) : Bytes := "arg=".toUTF8.toList ++ percentEncode esc text

theorem argUrl_decoded (q : QueryEnv) (hl : ∀ s, utf8Ok s = true → q.lossy s = s) (esc : UInt8 → Bool) (h1 : esc 37 = true)
    (h2 : esc 38 = true) (h3 : esc 43 = true) (text : Bytes) (hu : utf8Ok text = true) :
    Decoded q (argUrl esc text) [("arg".toUTF8.toList, text)] := by
  have hh : ∀ n < 16, percentEncode.hexDigit n ≠ 38 := by decide +kernel
  have ha : 38 ∉ percentEncode esc text := percentEncode_avoids esc 38 h2 (by decide) hh text
  have e1 : "arg=".toUTF8.toList = "arg".toUTF8.toList ++ [61] := by decide +kernel
  have n1 : 38 ∉ "arg".toUTF8.toList := by decide +kernel
  have n2 : 61 ∉ "arg".toUTF8.toList := by decide +kernel
  refine ⟨[("arg".toUTF8.toList, percentEncode esc text)], ?_, .cons (formText_plain hl (by decide +kernel) (by decide +kernel)
    (by decide +kernel)) (formText_encoded hl h1 h3 hu) .nil⟩
  have := Params.pair (s := []) n1 n2 ha (Or.inl rfl) .nil
  unfold argUrl
  rw [e1]
  simpa using this

/-- **C74**: the text of an address that was parsed once, such as those that are listed, names this address: asking to
add or remove it, escaped as a client does, adds or removes just it and is answered with the same text. -/
theorem C74_text_back (env : BootEnv K) (hl : ∀ s, utf8Ok s = true → env.q.lossy s = s)
    (esc : UInt8 → Bool) (h1 : esc 37 = true) (h2 : esc 38 = true) (h3 : esc 43 = true)
    (order : List AddrPeer → List AddrPeer) (s : BootSt K) (a : AddrPeer) (m : Maddr) (debug : Bool)
    (ha : AddrPeer.ofAddr debug m = .ok a)
    (hb : env.parseAddr (a.text env.show') = some a.toAddr) (hu : utf8Ok (a.text env.show') = true) :
    serveBoot env order .inTime s (argUrl esc (a.text env.show')) .rm = ((s.remove env.routing a).1, .peers [a.text env.show']) ∧
    serveBoot env order .inTime s (argUrl esc (a.text env.show')) .add = ((s.add env.routing a).1, .peers [a.text env.show']) := by
  have hback : AddrPeer.ofAddr env.debug a.toAddr = .ok a := (C49_parse_again debug env.debug m a ha).2
  have hd := argUrl_decoded env.q hl esc h1 h2 h3 (a.text env.show') hu
  have harg : Given (bootText env) "arg".toUTF8.toList [("arg".toUTF8.toList, a.text env.show')] (some a) :=
    ⟨_, ⟨[], [], rfl, by simp⟩, by simp [bootText, hb, hback, Except.toOption]⟩
  have hno : ∀ {α : Type} (parse : Bytes → Option α) (n : Bytes), "arg".toUTF8.toList ≠ n →
      Given parse n [("arg".toUTF8.toList, a.text env.show')] none := by
    intro α parse n hn p hp
    simp only [List.mem_singleton] at hp
    subst hp
    exact hn
  have f1 : "arg".toUTF8.toList ≠ "all".toUTF8.toList := by decide +kernel
  have f2 : "arg".toUTF8.toList ≠ "default".toUTF8.toList := by decide +kernel
  have f3 : "arg".toUTF8.toList ≠ "timeout".toUTF8.toList := by decide +kernel
  have m1 : BootMeans env _ .rm (.remove a) none := .rm ⟨harg, hno _ _ f1, hno _ _ f3⟩
  have m2 : BootMeans env _ .add (.add a) none := .add ⟨harg, hno _ _ f2, hno _ _ f3⟩
  have r1 := (C74_request env order s _ _ hd _ _ _ m1).1
  have r2 := (C74_request env order s _ _ hd _ _ _ m2).1
  refine ⟨?_, ?_⟩
  · rw [r1]
    have e : (s.op env.routing order (env.nodes.map Prod.snd) (.remove a)).2 = [a.toAddr] := by
      simp only [BootSt.op, BootSt.remove]; split <;> rfl
    rw [e]
    simp [bootTold, BootSt.op, C49_text]
  · rw [r2]
    have e : (s.op env.routing order (env.nodes.map Prod.snd) (.add a)).2 = [a.toAddr] := by
      simp only [BootSt.op, BootSt.add]; split <;> rfl
    rw [e]
    simp [bootTold, BootSt.op, C49_text]

/-! ### Examples -/

/-- The text "A" is an address with a peer, "B" one that makes a debug build panic, others are none. -/
def exBootEnv (debug : Bool) : BootEnv (List (PeerId × Maddr)) where
  q := exQueryEnv0
  parseAddr := fun s =>
    if s = AddrPeer.text exShow ⟨⟨exHost⟩, exPeerA⟩ then some (AddrPeer.toAddr ⟨⟨exHost⟩, exPeerA⟩)
    else if s = [66] then some (.p2p exPeerB.mhCode exPeerB.digest :: exHost) else none
  show' := exShow
  debug := debug
  routing := setTable
  nodes := [([68], ⟨⟨[.tcp 1]⟩, exPeerB⟩)]
where
  exQueryEnv0 : QueryEnv := ⟨id, fun s => if s = [49, 115] then some 1 else none, fun _ _ => none⟩
  exShow : Ipfs.Comp → Bytes := fun c => match c with
    | .ip4 .. => [47, 105]
    | .tcp _ => [47, 116]
    | _ => [47, 120]

/-- Escapes what has to be escaped. -/
def exBootEsc (b : UInt8) : Bool := b = 37 || b = 38 || b = 43

example : let e := exBootEnv true
    (∀ s, utf8Ok s = true → e.q.lossy s = s) ∧ AddrPeer.ofAddr true (AddrPeer.toAddr ⟨⟨exHost⟩, exPeerA⟩) = .ok ⟨⟨exHost⟩, exPeerA⟩ ∧
    e.parseAddr (AddrPeer.text e.show' ⟨⟨exHost⟩, exPeerA⟩) = some (AddrPeer.toAddr ⟨⟨exHost⟩, exPeerA⟩) ∧
    utf8Ok (AddrPeer.text e.show' ⟨⟨exHost⟩, exPeerA⟩) = true := by
  refine ⟨fun _ _ => rfl, ?_, ?_, ?_⟩ <;> decide +kernel

example : (serveBoot (exBootEnv true) id .inTime ⟨[], [], []⟩ "default=true".toUTF8.toList .add).2 = .peers [[68]] ∧
    (serveBoot (exBootEnv true) id .inTime ⟨[], [], []⟩ "default=true".toUTF8.toList .add).1.boots = [⟨⟨[.tcp 1]⟩, exPeerB⟩] ∧
    (serveBoot (exBootEnv true) id .inTime ⟨[], [], []⟩ "default=false".toUTF8.toList .add).2 = .failed .invalidQueryString ∧
    (serveBoot (exBootEnv true) id .inTime ⟨[], [], []⟩ "default=1".toUTF8.toList .add).2 = .failed .badQuery ∧
    (serveBoot (exBootEnv true) id .inTime ⟨[], [], []⟩ "default=true&arg=B".toUTF8.toList .add).2 = .closed ∧
    (serveBoot (exBootEnv true) id .inTime ⟨[], [], []⟩ "default=1&arg=B".toUTF8.toList .add).2 = .failed .badQuery ∧
    (serveBoot (exBootEnv false) id .inTime ⟨[], [], []⟩ "default=true&arg=B".toUTF8.toList .add).1.boots = [⟨⟨exHost⟩, exPeerB⟩] ∧
    (serveBoot (exBootEnv true) id (.elapses true) ⟨[], [], []⟩ "timeout=1s".toUTF8.toList .addDefault).2 = .failed .elapsed ∧
    (serveBoot (exBootEnv true) id (.elapses true) ⟨[], [], []⟩ "timeout=1s".toUTF8.toList .addDefault).1.boots =
      [⟨⟨[.tcp 1]⟩, exPeerB⟩] := by
  refine ⟨?_, ?_, ?_, ?_, ?_, ?_, ?_, ?_, ?_⟩ <;> decide +kernel

example : BootMeans (exBootEnv true) [("default".toUTF8.toList, "true".toUTF8.toList)] .add .restore none := by
  have n1 : "default".toUTF8.toList ≠ "arg".toUTF8.toList := by decide +kernel
  have n2 : "default".toUTF8.toList ≠ "timeout".toUTF8.toList := by decide +kernel
  refine .addDefaults ⟨?_, ⟨_, ⟨[], [], rfl, by simp⟩, by decide +kernel⟩, ?_⟩
  · intro p hp; simp only [List.mem_singleton] at hp; subst hp; exact n1
  · intro p hp; simp only [List.mem_singleton] at hp; subst hp; exact n2

example : ∀ op t, ¬ BootMeans (exBootEnv true) [] .add op t := by
  intro op t h
  cases h with
  | add h =>
    obtain ⟨⟨v, ⟨a, b, e, -⟩, -⟩, -⟩ := h
    simp at e
  | addDefaults h =>
    obtain ⟨-, ⟨v, ⟨a, b, e, -⟩, -⟩, -⟩ := h
    simp at e

end Verif.Props
