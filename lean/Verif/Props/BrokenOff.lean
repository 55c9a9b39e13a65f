import Verif.Props.Timeouts
import Verif.Net.PinNet

/-!
# C97: what a client has received of an answer is always its beginning

Blocks may fail to be loaded at any time, also ones that were loaded before. What was sent while a block is awaited is what would have been sent if
loading it failed.
-/

namespace Verif.Props

open Verif Verif.Repo Verif.Bitswap Verif.Net Verif.Unixfs Verif.Ipfs Verif.Ipld Verif.Http

/-! ### Specification -/

/-- A block comes with its data or loading it fails, each time anew. -/
def ComesTrue (w : Arrival) (fetch : Cid → Option Bytes) : Prop := ∀ t c n d, w t c = some (n, some d) → fetch c = some d

/-- Errors that tell that something could not be loaded or found in time. -/
def NotFoundErr : ServeErr → Prop
  | .elapsed => True
  | .resolving _ => True
  | _ => False

/-- All of the answer and the sign that it is complete, or a part of it from its beginning and an error; or only an error. -/
def SoFar {ε : Type} (done : ε) (lost : ε → Prop) (whole : List Bytes) : Reply ε → Prop
  | .stream sent e => (sent = whole ∧ e = done) ∨ (sent <+: whole ∧ lost e)
  | .failed e => NotFoundErr e
  | _ => False

/-! ### Helpers -/

/-- A load under a faithful arrival: the right block and what follows, or failure. -/
theorem faithful_load {α : Type} {w : Arrival} {fetch : Cid → Option Bytes} (hw : ComesTrue w fetch) {c : Cid} {k : Repo.Block → Prog α} {e : Prog α}
    {t t' : Nat} {a : α} (h : (Prog.load c k e).timed w t = some (t', a)) :
    (∃ d t1, fetch c = some d ∧ (k ⟨c, d⟩).timed w t1 = some (t', a)) ∨ ∃ t1, e.timed w t1 = some (t', a) := by
  simp only [Prog.timed] at h
  rcases hc : w t c with _ | ⟨n, _ | d⟩ <;> rw [hc] at h
  · cases h
  · exact Or.inr ⟨_, h⟩
  · exact Or.inl ⟨d, _, hw _ _ _ _ hc, h⟩

theorem feed_faithful {w : Arrival} {fetch : Cid → Option Bytes} (hw : ComesTrue w fetch) (needle : Bytes) (fuel : Nat) (queue : List Cid) (t : Nat)
    {t' : Nat} {r : Lookup} (h : (feedProg needle fuel queue).timed w t = some (t', r)) :
    r = (feedProg needle fuel queue).eval fetch ∨ ∃ c, r = .missing c := by
  induction fuel generalizing queue t with
  | zero => cases h; exact Or.inl rfl
  | succ fuel ih =>
    cases queue with
    | nil => cases h; exact Or.inl rfl
    | cons c queue =>
      unfold feedProg at h ⊢
      rcases faithful_load hw h with ⟨d, t1, hd, h⟩ | ⟨t1, h⟩
      · simp only [Prog.eval, hd]
        dsimp only at h
        revert h
        cases continueWalk needle queue d with
        | error e => intro h; cases h; exact Or.inl rfl
        | ok x =>
          cases x with
          | found c => intro h; cases h; exact Or.inl rfl
          | notFound => intro h; cases h; exact Or.inl rfl
          | more q => intro h; exact ih _ _ h
      · cases h; exact Or.inr ⟨c, rfl⟩

/-- An error that is not a panic. -/
def RawLost (r : Option (Except RawErr (Node × Nat))) : Prop := ∃ e, r = some (.error e) ∧ (∃ c, e = .loading c ∨ e = .unsupported c)

theorem resolve_faithful {w : Arrival} {fetch : Cid → Option Bytes} (hw : ComesTrue w fetch) (e : Env) (size : Nat) (follow : Bool) (fuel : Nat)
    (c : Cid) (segs : List Bytes) (total t : Nat) {t' : Nat} {r : Option (Except RawErr (Node × Nat))}
    (h : (resolveProg e size follow fuel c segs total).timed w t = some (t', r)) :
    r = (resolveProg e size follow fuel c segs total).eval fetch ∨ RawLost r := by
  induction fuel generalizing c segs total t with
  | zero => cases h; exact Or.inl rfl
  | succ fuel ih =>
    unfold resolveProg at h ⊢
    rcases faithful_load hw h with ⟨d, t1, hd, h⟩ | ⟨t1, h⟩
    · simp only [Prog.eval, hd]
      dsimp only at h
      revert h
      cases resolveLocal e size c d segs with
      | error x => intro h; cases h; exact Or.inl rfl
      | ok x =>
        obtain ⟨l, matched, rest⟩ := x
        cases l with
        | complete n =>
          cases n with
          | link src dest =>
            dsimp only
            split
            · intro h; exact ih _ _ _ _ h
            · intro h; cases h; exact Or.inl rfl
          | _ => intro h; cases h; exact Or.inl rfl
        | incomplete src needle queue =>
          dsimp only
          rw [timed_bind, eval_bind]
          intro h
          obtain ⟨⟨t2, r2⟩, h1, h2⟩ := Option.bind_eq_some_iff.mp h
          dsimp only at h2
          rcases feed_faithful hw needle fuel queue _ h1 with hr | ⟨c', rfl⟩
          · rw [← hr]
            revert h2
            cases r2 with
            | found dest =>
              dsimp only
              split
              · intro h; exact ih _ _ _ _ h
              · intro h; cases h; exact Or.inl rfl
            | running => intro h; cases h; exact Or.inl rfl
            | notFound => intro h; cases h; exact Or.inl rfl
            | missing c => intro h; cases h; exact Or.inl rfl
            | failed x =>
              cases x <;> first
                | (intro h; cases h; exact Or.inl rfl)
                | (rename_i le; cases le <;> (intro h; cases h; exact Or.inl rfl))
          · cases h2
            exact Or.inr ⟨_, rfl, src, Or.inr rfl⟩
    · cases h
      exact Or.inr ⟨_, rfl, c, Or.inl rfl⟩

/-- The same for any path. -/
theorem resolveNode_faithful {w : Arrival} {fetch : Cid → Option Bytes} (hw : ComesTrue w fetch) (mb : UInt8 → Bytes → Option Bytes) (s : Served)
    (follow : Bool) (path : IpfsPath) (t : Nat) {t' : Nat} {r : Option (Except AnyErr (Node × List Bytes))}
    (h : (resolveNodeProg mb s follow path).timed w t = some (t', r)) :
    r = (resolveNodeProg mb s follow path).eval fetch ∨ ∃ e, r = some (.error (.dag e)) ∧ e ≠ .panic := by
  unfold resolveNodeProg at h ⊢
  revert h
  cases resolveIpns mb s.txt s.fuel path true with
  | none => intro h; cases h; exact Or.inl rfl
  | some x =>
    cases x with
    | error e => intro h; cases h; exact Or.inl rfl
    | ok resolved =>
      dsimp only
      cases resolved.root with
      | ipld c =>
        dsimp only
        unfold dagResolveProg
        rw [timed_map, timed_map, eval_map, eval_map]
        intro h
        simp only [Option.map_eq_some_iff, Prod.mk.injEq] at h
        obtain ⟨⟨t1, r1⟩, ⟨⟨t2, r2⟩, h2, h3⟩, -, h4⟩ := h
        cases h3
        rcases resolve_faithful hw _ _ _ _ _ _ _ _ h2 with hr | ⟨e, rfl, c', he⟩
        · left
          rw [← h4, ← hr]
        · right
          rcases he with rfl | rfl
          · exact ⟨_, h4.symm, by simp [RawErr.withPath]⟩
          · exact ⟨_, h4.symm, by simp [RawErr.withPath]⟩
      | _ => intro h; cases h; exact Or.inl rfl

theorem resolveAny_faithful {w : Arrival} {fetch : Cid → Option Bytes} (hw : ComesTrue w fetch) (mb : UInt8 → Bytes → Option Bytes) (s : Served)
    (path : IpfsPath) (t : Nat) {t' : Nat} {r : Option (Except AnyErr Node)} (h : (resolveAnyProg mb s path).timed w t = some (t', r)) :
    r = (resolveAnyProg mb s path).eval fetch ∨ ∃ e, r = some (.error (.dag e)) ∧ e ≠ .panic := by
  unfold resolveAnyProg at h ⊢
  revert h
  cases resolveIpns mb s.txt s.fuel path true with
  | none => intro h; cases h; exact Or.inl rfl
  | some x =>
    cases x with
    | error e => intro h; cases h; exact Or.inl rfl
    | ok resolved =>
      dsimp only
      cases resolved.root with
      | ipld c =>
        dsimp only
        unfold dagResolveProg
        rw [timed_map, timed_map, eval_map, eval_map]
        intro h
        simp only [Option.map_eq_some_iff, Prod.mk.injEq] at h
        obtain ⟨⟨t1, r1⟩, ⟨⟨t2, r2⟩, h2, h3⟩, -, h4⟩ := h
        cases h3
        rcases resolve_faithful hw _ _ _ _ _ _ _ _ h2 with hr | ⟨e, rfl, c', he⟩
        · left
          rw [← h4, ← hr]
        · right
          rcases he with rfl | rfl
          · exact ⟨_, h4.symm, by simp [RawErr.withPath]⟩
          · exact ⟨_, h4.symm, by simp [RawErr.withPath]⟩
      | _ => intro h; cases h; exact Or.inl rfl

theorem locate_faithful {w : Arrival} {fetch : Cid → Option Bytes} (hw : ComesTrue w fetch) (mb : UInt8 → Bytes → Option Bytes) (s : Served)
    (path : IpfsPath) (t : Nat) {t' : Nat} {r : Located} (h : (locateProg mb s path none).timed w t = some (t', r)) :
    r = (locateProg mb s path none).eval fetch ∨ ∃ e, r = .failed (.resolving e) := by
  unfold locateProg Served.timedOut at h ⊢
  simp only [Option.isSome_none, Bool.false_and, Bool.false_eq_true, if_false] at h ⊢
  rw [timed_map] at h
  rw [eval_map]
  simp only [Option.map_eq_some_iff, Prod.mk.injEq] at h
  obtain ⟨⟨t1, r1⟩, h1, -, h2⟩ := h
  rcases resolveAny_faithful hw _ _ _ _ h1 with hr | ⟨e, rfl, he⟩
  · left
    rw [← h2, ← hr]
  · right
    refine ⟨.dag e, ?_⟩
    rw [← h2]
    cases e <;> first | rfl | exact absurd rfl he

theorem catLoop_grows (fetch : Cid → Option Bytes) (fuel : Nat) (v : Visit) (out : List Bytes) :
    out <+: ((catLoopProg fuel v out).eval fetch).1 := by
  induction fuel generalizing v out with
  | zero => exact List.prefix_refl _
  | succ fuel ih =>
    unfold catLoopProg
    cases v.pending with
    | nil => exact List.prefix_refl _
    | cons x l =>
      obtain ⟨next, rng⟩ := x
      simp only [Prog.eval]
      cases fetch next with
      | none => exact List.prefix_refl _
      | some d =>
        dsimp only
        cases v.continueWalk d with
        | error e => cases e <;> exact List.prefix_refl _
        | ok x =>
          obtain ⟨bytes, more⟩ := x
          cases more with
          | none => exact List.prefix_append _ _
          | some v' => exact (List.prefix_append _ _).trans (ih v' _)

theorem catLoop_faithful {w : Arrival} {fetch : Cid → Option Bytes} (hw : ComesTrue w fetch) (fuel : Nat) (v : Visit) (out : List Bytes) (t : Nat)
    {t' : Nat} {r : List Bytes × CatEnd} (h : (catLoopProg fuel v out).timed w t = some (t', r)) :
    r = (catLoopProg fuel v out).eval fetch ∨ (r.1 <+: ((catLoopProg fuel v out).eval fetch).1 ∧ ∃ c, r.2 = .loading c) := by
  induction fuel generalizing v out t with
  | zero => cases h; exact Or.inl rfl
  | succ fuel ih =>
    have hg := catLoop_grows fetch (fuel + 1) v out
    unfold catLoopProg at h hg ⊢
    revert h hg
    cases v.pending with
    | nil => intro h _; cases h; exact Or.inl rfl
    | cons x l =>
      obtain ⟨next, rng⟩ := x
      intro h hg
      rcases faithful_load hw h with ⟨d, t1, hd, h⟩ | ⟨t1, h⟩
      · simp only [Prog.eval, hd]
        dsimp only at h
        revert h
        cases v.continueWalk d with
        | error e => intro h; left; cases e <;> (cases h; rfl)
        | ok x =>
          obtain ⟨bytes, more⟩ := x
          cases more with
          | none => intro h; cases h; exact Or.inl rfl
          | some v' => intro h; exact ih _ _ _ h
      · cases h
        exact Or.inr ⟨hg, next, rfl⟩

theorem walk_grows (fetch : Cid → Option Bytes) (fuel : Nat) (wk : Walker) (th : TarHelper) (out : List Bytes) :
    out <+: ((walkProg fuel wk th out).eval fetch).1 := by
  induction fuel generalizing wk th out with
  | zero => exact List.prefix_refl _
  | succ fuel ih =>
    unfold walkProg
    split
    · cases wk.wanted with
      | none => exact List.prefix_refl _
      | some c =>
        simp only [Prog.eval]
        cases fetch c with
        | none => exact List.prefix_refl _
        | some d =>
          dsimp only
          cases wk.step d with
          | error e => exact List.prefix_refl _
          | ok x =>
            obtain ⟨item, wk'⟩ := x
            dsimp only
            cases th.item item with
            | error e => exact List.prefix_refl _
            | ok y =>
              obtain ⟨th', chunks⟩ := y
              exact (List.prefix_append _ _).trans (ih _ _ _)
    · exact List.prefix_refl _

theorem walk_faithful {w : Arrival} {fetch : Cid → Option Bytes} (hw : ComesTrue w fetch) (fuel : Nat) (wk : Walker) (th : TarHelper) (out : List Bytes)
    (t : Nat) {t' : Nat} {r : List Bytes × GetEnd} (h : (walkProg fuel wk th out).timed w t = some (t', r)) :
    r = (walkProg fuel wk th out).eval fetch ∨ (r.1 <+: ((walkProg fuel wk th out).eval fetch).1 ∧ ∃ c, r.2 = .walk (.missing c)) := by
  induction fuel generalizing wk th out t with
  | zero => cases h; exact Or.inl rfl
  | succ fuel ih =>
    have hg := walk_grows fetch (fuel + 1) wk th out
    unfold walkProg at h hg ⊢
    revert h hg
    split
    · cases wk.wanted with
      | none => intro h _; cases h; exact Or.inl rfl
      | some c =>
        intro h hg
        rcases faithful_load hw h with ⟨d, t1, hd, h⟩ | ⟨t1, h⟩
        · simp only [Prog.eval, hd]
          dsimp only at h
          revert h
          cases wk.step d with
          | error e => intro h; cases h; exact Or.inl rfl
          | ok x =>
            obtain ⟨item, wk'⟩ := x
            dsimp only
            cases th.item item with
            | error e => intro h; cases h; exact Or.inl rfl
            | ok y =>
              obtain ⟨th', chunks⟩ := y
              intro h
              exact ih _ _ _ _ h
        · cases h
          exact Or.inr ⟨hg, c, rfl⟩
    · intro h _; cases h; exact Or.inl rfl

/-! ### The theorems -/

/-- **C97**: whichever blocks fail to come, and however often, what was received of a file is its beginning, and the answer ends as complete only with
all of it. -/
theorem C97_cat {w : Arrival} {fetch : Cid → Option Bytes} (hw : ComesTrue w fetch) (mb : UInt8 → Bytes → Option Bytes) (s : Served) (args : CatArgs)
    {whole : List Bytes} (hall : catInner mb { s with fetch := fetch, elapses := false } args = .stream whole .done) (start : Nat) {t : Nat}
    {r : Reply CatEnd} (h : (catTimed mb s args w start).last = some (t, r)) : SoFar .done (fun e => ∃ c, e = .loading c) whole r := by
  unfold catTimed at h
  cases hr : wantedRange s.debug args.offset args.length with
  | notImplemented => simp only [catInner, hr] at hall; cases hall
  | panic => simp only [catInner, hr] at hall; cases hall
  | range range =>
    rw [hr] at h
    rw [← catRest_eval mb s fetch args false hr (by simp)] at hall
    rcases guarded_last h with ⟨_, _, _, _, rfl⟩ | ⟨t1, b, h1, _, h2⟩
    · trivial
    · unfold catFirst at h1 hall
      rw [timed_map] at h1
      rw [eval_map] at hall
      simp only [Option.map_eq_some_iff, Prod.mk.injEq] at h1
      obtain ⟨⟨t0, l⟩, h0, rfl, h1⟩ := h1
      rcases locate_faithful hw _ _ _ _ h0 with hl | ⟨e, rfl⟩
      · rw [← hl] at hall
        dsimp only at h1
        rw [h1] at hall
        rcases b with x | ⟨out, _ | v⟩
        · simp only [catRest, Prog.timed, Prog.eval] at h2 hall
          cases h2
          rw [hall]
          exact Or.inl ⟨rfl, rfl⟩
        · simp only [catRest, Prog.timed, Prog.eval] at h2 hall
          cases h2
          rw [hall]
          exact Or.inl ⟨rfl, rfl⟩
        · dsimp only [catRest] at h2 hall
          rw [timed_map] at h2
          rw [eval_map] at hall
          simp only [Option.map_eq_some_iff, Prod.mk.injEq] at h2
          obtain ⟨⟨t3, q⟩, h3, -, rfl⟩ := h2
          simp only [Reply.stream.injEq] at hall
          rcases catLoop_faithful hw _ _ _ _ h3 with rfl | ⟨h4, h5⟩
          · exact Or.inl hall
          · rw [hall.1] at h4
            exact Or.inr ⟨h4, h5⟩
      · dsimp only at h1
        subst h1
        cases h2
        trivial

/-- **C97**: the same for the archive of anything. -/
theorem C97_get {w : Arrival} {fetch : Cid → Option Bytes} (hw : ComesTrue w fetch) (mb : UInt8 → Bytes → Option Bytes) (s : Served) (arg : IpfsPath)
    (timeout : Option Nat) {whole : List Bytes} (hall : getInner mb { s with fetch := fetch, elapses := false } arg timeout = .stream whole .done)
    (start : Nat) {t : Nat} {r : Reply GetEnd} (h : (getTimed mb s arg timeout w start).last = some (t, r)) :
    SoFar .done (fun e => ∃ c, e = .walk (.missing c)) whole r := by
  unfold getTimed at h
  rw [← getRest_eval mb s fetch arg timeout false (by simp)] at hall
  rcases guarded_last h with ⟨_, _, _, _, rfl⟩ | ⟨t1, b, h1, _, h2⟩
  · trivial
  · rcases locate_faithful hw _ _ _ _ h1 with hl | ⟨e, rfl⟩
    · rw [← hl] at hall
      cases b with
      | running => cases hall
      | panic => cases hall
      | failed e => cases hall
      | «at» c data =>
        dsimp only [getRest] at h2 hall
        rw [timed_map] at h2
        rw [eval_map] at hall
        simp only [Option.map_eq_some_iff, Prod.mk.injEq] at h2
        obtain ⟨⟨t3, q⟩, h3, -, rfl⟩ := h2
        simp only [Reply.stream.injEq] at hall
        unfold getStreamProg at h3 hall
        revert h3 hall
        cases (Walker.new s.debug c c.toText).step data with
        | error e => intro h3 hall; cases hall.2
        | ok x =>
          obtain ⟨item, wk⟩ := x
          dsimp only
          cases (TarHelper.withCapacity (16 * 1024)).item item with
          | error e => intro h3 hall; cases hall.2
          | ok y =>
            obtain ⟨th, chunks⟩ := y
            intro h3 hall
            rcases walk_faithful hw _ _ _ _ _ h3 with rfl | ⟨h4, h5⟩
            · exact Or.inl hall
            · rw [hall.1] at h4
              exact Or.inr ⟨h4, h5⟩
    · cases h2
      trivial

/-- What happens until a time: nothing that is still awaited then comes any more. -/
def upTo (time : Nat) (w : Arrival) : Arrival := fun t c =>
  match w t c with
  | none => some (time - t, none)
  | some (n, r) => if t + n ≤ time then some (n, r) else some (time - t, none)

theorem upTo_faithful {w : Arrival} {fetch : Cid → Option Bytes} (hw : ComesTrue w fetch) (time : Nat) : ComesTrue (upTo time w) fetch := by
  intro t c n d h
  unfold upTo at h
  rcases hc : w t c with _ | ⟨m, r⟩ <;> rw [hc] at h <;> dsimp only at h
  · cases h
  · split at h
    · cases h; exact hw _ _ _ _ hc
    · cases h

theorem upTo_ends {α : Type} (w : Arrival) (time : Nat) (p : Prog α) (t : Nat) : ∃ t' a, p.timed (upTo time w) t = some (t', a) ∧ t' ≤ max t time := by
  induction p generalizing t with
  | ret a => exact ⟨t, a, rfl, Nat.le_max_left _ _⟩
  | load c k e ih1 ih2 =>
    simp only [Prog.timed]
    have hx : ∃ n r, upTo time w t c = some (n, r) ∧ t + n ≤ max t time := by
      unfold upTo
      rcases w t c with _ | ⟨m, r⟩ <;> dsimp only
      · exact ⟨_, _, rfl, by omega⟩
      · split
        · exact ⟨_, _, rfl, by omega⟩
        · exact ⟨_, _, rfl, by omega⟩
    obtain ⟨n, r, hx, hle⟩ := hx
    rw [hx]
    cases r with
    | none =>
      obtain ⟨t', a, h1, h2⟩ := ih2 (t + n)
      exact ⟨t', a, h1, by omega⟩
    | some d =>
      obtain ⟨t', a, h1, h2⟩ := ih1 ⟨c, d⟩ (t + n)
      exact ⟨t', a, h1, by omega⟩

/-- **C97**: so it is at every time, also while blocks are awaited that never come. -/
theorem C97_any_time {w : Arrival} {fetch : Cid → Option Bytes} (hw : ComesTrue w fetch) (mb : UInt8 → Bytes → Option Bytes) (s : Served) (start time : Nat) :
    (∀ (args : CatArgs) whole, args.timeout = none → catInner mb { s with fetch := fetch, elapses := false } args = .stream whole .done →
      ∃ t r, (catTimed mb s args (upTo time w) start).last = some (t, r) ∧ t ≤ max start time ∧ SoFar .done (fun e => ∃ c, e = .loading c) whole r) ∧
    (∀ arg whole, getInner mb { s with fetch := fetch, elapses := false } arg none = .stream whole .done →
      ∃ t r, (getTimed mb s arg none (upTo time w) start).last = some (t, r) ∧ t ≤ max start time ∧
        SoFar .done (fun e => ∃ c, e = .walk (.missing c)) whole r) := by
  have hg : ∀ {β ρ : Type} (first : Prog β) (elapsed : ρ) (rest : β → Prog ρ),
      ∃ t r, (guarded (upTo time w) none start (first.timed (upTo time w) start) elapsed rest).last = some (t, r) ∧ t ≤ max start time := by
    intro β ρ first elapsed rest
    obtain ⟨t1, b, h1, h2⟩ := upTo_ends w time first start
    obtain ⟨t2, r, h3, h4⟩ := upTo_ends w time (rest b) t1
    refine ⟨t2, r, ?_, by omega⟩
    rw [h1]
    exact h3
  constructor
  · intro args whole ht hall
    have hx : ∃ t r, (catTimed mb s args (upTo time w) start).last = some (t, r) ∧ t ≤ max start time := by
      unfold catTimed
      cases hr : wantedRange s.debug args.offset args.length with
      | notImplemented => exact ⟨_, _, rfl, Nat.le_max_left _ _⟩
      | panic => exact ⟨_, _, rfl, Nat.le_max_left _ _⟩
      | range range => dsimp only; rw [ht]; exact hg _ _ _
    obtain ⟨t, r, h1, h2⟩ := hx
    exact ⟨t, r, h1, h2, C97_cat (upTo_faithful hw time) mb s args hall start h1⟩
  · intro arg whole hall
    obtain ⟨t, r, h1, h2⟩ := hg (locateProg mb s arg none) (Reply.failed .elapsed) (getRest s.debug s.fuel)
    exact ⟨t, r, h1, h2, C97_get (upTo_faithful hw time) mb s arg none hall start h1⟩

/-! ### `dag/resolve` and `refs` -/

/-- **C97**: what is answered to `dag/resolve` is what is answered with all blocks at hand, or that something was not found. -/
theorem C97_resolve {w : Arrival} {fetch : Cid → Option Bytes} (hw : ComesTrue w fetch) (mb : UInt8 → Bytes → Option Bytes) (s : Served) (o : ResolveQuery)
    {whole : Bytes} (hall : resolveInner mb { s with fetch := fetch, elapses := false } o = .ok whole) (start : Nat) {t : Nat}
    {r : ResolveReply} (h : (resolveTimed mb s o w start).last = some (t, r)) :
    r = .ok whole ∨ r = .failed .elapsed ∨ ∃ e, r = .failed (.resolving e) := by
  unfold resolveTimed at h
  cases hp : IpfsPath.parse mb o.arg with
  | none => simp only [resolveInner, hp] at hall; cases hall
  | some path =>
    rw [hp] at h
    dsimp only at h
    rcases guarded_last h with ⟨_, _, _, _, rfl⟩ | ⟨t1, b, h1, _, h2⟩
    · exact Or.inr (Or.inl rfl)
    · cases h2
      rcases resolveNode_faithful hw _ _ _ _ _ h1 with hr | ⟨e, rfl, he⟩
      · left
        rw [resolveNodeProg_eval] at hr
        have hsame : resolveNode mb { s with fetch := fetch, elapses := false } (!o.localResolve) path =
          resolveNode mb { s with fetch := fetch } (!o.localResolve) path := rfl
        simp only [resolveInner, hp, Served.timedOut, Bool.and_false, Bool.false_eq_true, if_false, hsame, ← hr] at hall
        exact hall
      · right; right
        refine ⟨.dag e, ?_⟩
        cases e <;> first | rfl | exact absurd rfl he

theorem enqueue_plain (depth : Nat) (source : Cid) (ls : List (Option Bytes × Cid)) (vis vis' : List Cid) :
    (Refs.enqueue false depth source ls vis).1 = (Refs.enqueue false depth source ls vis').1 := by
  induction ls with
  | nil => rfl
  | cons x ls ih =>
    obtain ⟨name, c⟩ := x
    simp only [Refs.enqueue, Bool.false_and, Bool.false_eq_true, if_false]
    rw [ih]

/-- The entries of a queue that lost some give some of the lines. -/
theorem refs_faithful {w : Arrival} {fetch : Cid → Option Bytes} (hw : ComesTrue w fetch) (e : Env) (size : Nat) (o : Refs.Opts) (hu : o.unique = false)
    (f2 : Nat) : ∀ (f1 : Nat) (work1 work2 : List Refs.Work) (vis1 vis2 : List Cid) (out1 out2 whole : List Refs.Item) (t t' : Nat)
      (r : Option (List Refs.Item × Refs.Ending)), f2 ≤ f1 → work1.Sublist work2 → out1.Sublist out2 →
      (refsLoopProg e size o f2 work2 vis2 out2).eval fetch = some (whole, .done) →
      (refsLoopProg e size o f1 work1 vis1 out1).timed w t = some (t', r) → ∃ items, r = some (items, .done) ∧ items.Sublist whole := by
  induction f2 with
  | zero => intro f1 work1 work2 vis1 vis2 out1 out2 whole t t' r _ _ _ h; cases h
  | succ f2 ih =>
    intro f1 work1 work2 vis1 vis2 out1 out2 whole t t' r hf hs ho h hr
    cases hs with
    | slnil =>
      cases h
      obtain ⟨f1, rfl⟩ := Nat.exists_eq_succ_of_ne_zero (show f1 ≠ 0 by omega)
      cases hr
      exact ⟨_, rfl, ho⟩
    | @cons _ rest x hs =>
      have hle : f2 ≤ f1 := by omega
      unfold refsLoopProg at h
      revert h
      cases htr : Refs.traverse o.debug o.maxDepth x.depth with
      | skip => intro h; exact ih _ _ _ _ _ _ _ _ _ _ _ hle hs ho h hr
      | overflow => intro h; cases h
      | _ =>
        dsimp only
        simp only [Prog.eval]
        cases fetch x.edge.destination with
        | none => intro h; exact ih _ _ _ _ _ _ _ _ _ _ _ hle hs ho h hr
        | some d =>
          dsimp only
          cases decodeIpld e size x.edge.destination d with
          | error y => intro h; exact ih _ _ _ _ _ _ _ _ _ _ _ hle hs (ho.trans (List.sublist_append_left _ _)) h hr
          | ok doc =>
            dsimp only
            simp only [if_true, reduceCtorEq, if_false]
            first
            | intro h; exact ih _ _ _ _ _ _ _ _ _ _ _ hle hs (ho.trans (List.sublist_append_left _ _)) h hr
            | cases Refs.ipldLinks x.edge.destination doc with
              | none => intro h; cases h
              | some ls =>
                intro h
                exact ih _ _ _ _ _ _ _ _ _ _ _ hle (hs.trans (List.sublist_append_left _ _)) (ho.trans (List.sublist_append_left _ _)) h hr
    | @cons_cons rest1 rest x hs =>
      obtain ⟨f1, rfl⟩ := Nat.exists_eq_succ_of_ne_zero (show f1 ≠ 0 by omega)
      have hle : f2 ≤ f1 := by omega
      unfold refsLoopProg at h hr
      revert h hr
      cases htr : Refs.traverse o.debug o.maxDepth x.depth with
      | skip => intro h hr; exact ih _ _ _ _ _ _ _ _ _ _ _ hle hs ho h hr
      | overflow => intro h; cases h
      | _ =>
        dsimp only
        intro h hr
        simp only [Prog.eval] at h
        rcases faithful_load hw hr with ⟨d, t1, hd, hr⟩ | ⟨t1, hr⟩
        · rw [hd] at h
          dsimp only at h hr
          revert h hr
          cases decodeIpld e size x.edge.destination d with
          | error y => intro h hr; exact ih _ _ _ _ _ _ _ _ _ _ _ hle hs (ho.append (List.Sublist.refl _)) h hr
          | ok doc =>
            dsimp only
            simp only [if_true, reduceCtorEq, if_false]
            first
            | intro h hr; exact ih _ _ _ _ _ _ _ _ _ _ _ hle hs (ho.append (List.Sublist.refl _)) h hr
            | cases Refs.ipldLinks x.edge.destination doc with
              | none => intro h; cases h
              | some ls =>
                intro h hr
                refine ih _ _ _ _ _ _ _ _ _ _ _ hle (hs.append ?_) (ho.append (List.Sublist.refl _)) h hr
                rw [hu, enqueue_plain _ _ _ vis1 vis2]
                exact List.Sublist.refl _
        · revert h
          cases fetch x.edge.destination with
          | none => intro h; exact ih _ _ _ _ _ _ _ _ _ _ _ hle hs ho h hr
          | some d =>
            dsimp only
            cases decodeIpld e size x.edge.destination d with
            | error y => intro h; exact ih _ _ _ _ _ _ _ _ _ _ _ hle hs (ho.trans (List.sublist_append_left _ _)) h hr
            | ok doc =>
              dsimp only
              simp only [if_true, reduceCtorEq, if_false]
              first
              | intro h; exact ih _ _ _ _ _ _ _ _ _ _ _ hle hs (ho.trans (List.sublist_append_left _ _)) h hr
              | cases Refs.ipldLinks x.edge.destination doc with
                | none => intro h; cases h
                | some ls =>
                  intro h
                  exact ih _ _ _ _ _ _ _ _ _ _ _ hle (hs.trans (List.sublist_append_left _ _)) (ho.trans (List.sublist_append_left _ _)) h hr

theorem roots_faithful {w : Arrival} {fetch : Cid → Option Bytes} (hw : ComesTrue w fetch) (mb : UInt8 → Bytes → Option Bytes) (s : Served) (start : Nat)
    (ps : List IpfsPath) (t : Nat) {t' : Nat} {r : Roots} {docs : List (Cid × Ipld)} (hall : refsRoots mb { s with fetch := fetch } ps = .ok docs)
    (h : rootsTimed mb s w start ps t = some (t', r)) : r = .ok docs ∨ ∃ e, r = .failed (.resolving e) := by
  induction ps generalizing t t' r docs with
  | nil => cases h; cases hall; exact Or.inl rfl
  | cons p ps ih =>
    unfold rootsTimed at h
    unfold refsRoots at hall
    cases hp : (resolveNodeProg mb s true p).timed w start with
    | none => rw [hp] at h; cases h
    | some x =>
      obtain ⟨t1, r1⟩ := x
      rw [hp] at h
      dsimp only at h
      rcases resolveNode_faithful hw _ _ _ _ _ hp with he | ⟨e, rfl, he⟩
      · rw [resolveNodeProg_eval] at he
        rw [← he] at hall
        rcases r1 with _ | (e | ⟨node, rem⟩)
        · cases hall
        · split at hall <;> first | cases hall | (rename_i h2; cases h2)
        · dsimp only at h hall
          cases hd : rootDoc s.env s.size node with
          | panic => rw [hd] at hall; cases hall
          | failed e => rw [hd] at hall; cases hall
          | noLinks => rw [hd] at h hall; exact ih _ hall h
          | doc c d =>
            rw [hd] at h hall
            dsimp only at h hall
            simp only [Option.map_eq_some_iff, Prod.mk.injEq] at h
            obtain ⟨⟨t2, r2⟩, h1, -, rfl⟩ := h
            cases hr : refsRoots mb { s with fetch := fetch } ps with
            | ok l =>
              rw [hr] at hall
              rcases ih _ hr h1 with rfl | ⟨e, rfl⟩
              · exact Or.inl hall
              · exact Or.inr ⟨e, rfl⟩
            | failed e => rw [hr] at hall; cases hall
            | panic => rw [hr] at hall; cases hall
            | running => rw [hr] at hall; cases hall
      · right
        refine ⟨.dag e, ?_⟩
        cases e <;> first | (cases h; rfl) | exact absurd rfl he

/-- **C97**, as far as it holds for `refs`: the lines are lines of the complete answer, in order. Some of them may be missing from anywhere. -/
theorem C97_refs_partial {w : Arrival} {fetch : Cid → Option Bytes} (hw : ComesTrue w fetch) (blockText : BlockErr → Bytes)
    (mb : UInt8 → Bytes → Option Bytes) (s : Served) (o : RefsOptions.RefsOptions Nat) (hu : o.unique = false) {whole : List Bytes}
    (hall : refsInner blockText mb { s with fetch := fetch, elapses := false } o = .stream whole .done) (start : Nat) {t : Nat} {r : RefsReply}
    (h : (refsTimed blockText mb s o w start).last = some (t, r)) :
    (∃ lines, r = .stream lines .done ∧ lines.Sublist whole) ∨ r = .failed .elapsed ∨ ∃ e, r = .failed (.resolving e) := by
  unfold refsTimed at h
  cases hf : RefsFormat.fromOptions o.edges o.format with
  | error e => simp only [refsInner, hf] at hall; cases hall
  | ok f =>
    rw [hf] at h
    dsimp only at h
    cases hp : parsePaths mb o.arg with
    | error x => simp only [refsInner, hf, hp] at hall; cases hall
    | ok paths =>
      rw [hp] at h
      dsimp only at h
      have hsame : ∀ l, refsRoots mb { s with fetch := fetch, elapses := false } l = refsRoots mb { s with fetch := fetch } l := by
        intro l
        induction l with
        | nil => rfl
        | cons p l ih => unfold refsRoots; rw [ih]; rfl
      simp only [refsInner, hf, hp, Served.timedOut, Bool.and_false, Bool.false_eq_true, if_false, hsame] at hall
      cases hroots : refsRoots mb { s with fetch := fetch } paths with
      | failed e => rw [hroots] at hall; cases hall
      | panic => rw [hroots] at hall; cases hall
      | running => rw [hroots] at hall; cases hall
      | ok docs =>
        rw [hroots] at hall
        dsimp only at hall
        rcases guarded_last h with ⟨_, _, _, _, rfl⟩ | ⟨t1, b, h1, _, h2⟩
        · exact Or.inr (Or.inl rfl)
        · rcases roots_faithful hw _ _ _ _ _ hroots h1 with rfl | ⟨e, rfl⟩
          · left
            have hall : (refsRest blockText s f o.depth o.unique (.ok docs)).eval fetch = .stream whole .done := by
              rw [refsRest_eval]
              exact hall
            unfold refsRest at hall h2
            dsimp only at hall h2
            revert hall h2
            cases (if o.depth = some 0 then some [] else rootLinks docs) with
            | none => intro h2 hall; cases hall
            | some roots =>
              dsimp only
              rw [eval_map, timed_map]
              intro h2 hall
              simp only [Option.map_eq_some_iff, Prod.mk.injEq] at h2
              obtain ⟨⟨t3, q⟩, h3, -, rfl⟩ := h2
              unfold refsProg at hall h3
              dsimp only at hall h3
              by_cases h0 : o.depth = some 0
              · rw [if_pos h0] at hall h3
                cases h3
                simp only [Prog.eval] at hall
                cases hall
                exact ⟨_, rfl, List.Sublist.refl _⟩
              · rw [if_neg h0] at hall h3
                split at hall
                · cases hall
                · rename_i items ending he
                  simp only [RefsReply.stream.injEq] at hall
                  obtain ⟨hi, rfl⟩ := hall
                  obtain ⟨items', rfl, hsub⟩ := refs_faithful hw _ _ _ hu s.fuel s.fuel _ _ _ _ [] [] items _ _ _ (Nat.le_refl _)
                    (List.Sublist.refl _) (List.Sublist.refl _) he h3
                  refine ⟨_, rfl, ?_⟩
                  rw [← hi]
                  exact hsub.map _
          · cases h2
            exact Or.inr (Or.inr ⟨e, rfl⟩)

/-! ### What lines of `refs` tell is true -/

/-- A link that is reached from the roots along links of blocks. -/
inductive LinkFrom (env : Env) (size : Nat) (fetch : Cid → Option Bytes) (roots : List (Cid × List (Option Bytes × Cid))) : Refs.Edge → Prop
  | root {c : Cid} {ls : List (Option Bytes × Cid)} {name : Option Bytes} {d : Cid} : (c, ls) ∈ roots → (name, d) ∈ ls → LinkFrom env size fetch roots ⟨c, d, name⟩
  | next {e : Refs.Edge} {data : Bytes} {doc : Ipld} {ls : List (Option Bytes × Cid)} {name : Option Bytes} {d : Cid} : LinkFrom env size fetch roots e →
      fetch e.destination = some data → decodeIpld env size e.destination data = .ok doc → Refs.ipldLinks e.destination doc = some ls → (name, d) ∈ ls →
      LinkFrom env size fetch roots ⟨e.destination, d, name⟩

/-- A true report: a link whose block is there and can be read, or an error in reading the block of a link. -/
def TrueItem (env : Env) (size : Nat) (fetch : Cid → Option Bytes) (roots : List (Cid × List (Option Bytes × Cid))) : Refs.Item → Prop
  | .edge e => LinkFrom env size fetch roots e ∧ ∃ data doc, fetch e.destination = some data ∧ decodeIpld env size e.destination data = .ok doc
  | .blockErr x => ∃ e data, LinkFrom env size fetch roots e ∧ fetch e.destination = some data ∧ decodeIpld env size e.destination data = .error x
  | .notFound _ => False

theorem enqueue_mem (u : Bool) (depth : Nat) (source : Cid) (ls : List (Option Bytes × Cid)) (vis : List Cid) {x : Refs.Work}
    (h : x ∈ (Refs.enqueue u depth source ls vis).1) : x.edge.source = source ∧ (x.edge.name, x.edge.destination) ∈ ls := by
  induction ls generalizing vis with
  | nil => cases h
  | cons y ls ih =>
    obtain ⟨name, c⟩ := y
    unfold Refs.enqueue at h
    split at h
    · exact ⟨(ih _ h).1, List.mem_cons_of_mem _ (ih _ h).2⟩
    · rcases List.mem_cons.mp h with rfl | h
      · exact ⟨rfl, List.mem_cons_self⟩
      · exact ⟨(ih _ h).1, List.mem_cons_of_mem _ (ih _ h).2⟩

theorem enqueueRoots_mem (u : Bool) (roots : List (Cid × List (Option Bytes × Cid))) (vis : List Cid) {x : Refs.Work}
    (h : x ∈ (Refs.enqueueRoots u roots vis).1) : ∃ ls, (x.edge.source, ls) ∈ roots ∧ (x.edge.name, x.edge.destination) ∈ ls := by
  induction roots generalizing vis with
  | nil => cases h
  | cons y roots ih =>
    obtain ⟨c, ls⟩ := y
    simp only [Refs.enqueueRoots, List.mem_append] at h
    rcases h with h | h
    · obtain ⟨h1, h2⟩ := enqueue_mem _ _ _ _ _ h
      exact ⟨ls, by rw [h1]; exact List.mem_cons_self, h2⟩
    · obtain ⟨ls', h1, h2⟩ := ih _ h
      exact ⟨ls', List.mem_cons_of_mem _ h1, h2⟩

theorem refs_true {w : Arrival} {fetch : Cid → Option Bytes} (hw : ComesTrue w fetch) (e : Env) (size : Nat) (o : Refs.Opts)
    (roots : List (Cid × List (Option Bytes × Cid))) (fuel : Nat) (work : List Refs.Work) (vis : List Cid) (out : List Refs.Item) (t : Nat) {t' : Nat}
    {items : List Refs.Item} {ending : Refs.Ending} (h1 : ∀ x ∈ work, LinkFrom e size fetch roots x.edge) (h2 : ∀ i ∈ out, TrueItem e size fetch roots i)
    (h : (refsLoopProg e size o fuel work vis out).timed w t = some (t', some (items, ending))) : ∀ i ∈ items, TrueItem e size fetch roots i := by
  induction fuel generalizing work vis out t with
  | zero => cases h
  | succ fuel ih =>
    cases work with
    | nil => cases h; exact h2
    | cons x work =>
      have hx := h1 x List.mem_cons_self
      have hrest : ∀ y ∈ work, LinkFrom e size fetch roots y.edge := fun y hy => h1 y (List.mem_cons_of_mem _ hy)
      unfold refsLoopProg at h
      revert h
      cases htr : Refs.traverse o.debug o.maxDepth x.depth with
      | skip => intro h; exact ih _ _ _ _ hrest h2 h
      | overflow => intro h; cases h; exact h2
      | _ =>
        intro h
        dsimp only at h
        rcases faithful_load hw h with ⟨d, t1, hd, h⟩ | ⟨t1, h⟩
        · dsimp only at h
          revert h
          cases hdec : decodeIpld e size x.edge.destination d with
          | error y =>
            intro h
            refine ih _ _ _ _ hrest ?_ h
            intro i hi
            rcases List.mem_append.mp hi with hi | hi
            · exact h2 i hi
            · rw [List.mem_singleton] at hi
              subst hi
              exact ⟨x.edge, d, hx, hd, hdec⟩
          | ok doc =>
            have hout : ∀ i ∈ out ++ [Refs.Item.edge x.edge], TrueItem e size fetch roots i := by
              intro i hi
              rcases List.mem_append.mp hi with hi | hi
              · exact h2 i hi
              · rw [List.mem_singleton] at hi
                subst hi
                exact ⟨hx, d, doc, hd, hdec⟩
            dsimp only
            simp only [if_true, reduceCtorEq, if_false]
            first
            | intro h; exact ih _ _ _ _ hrest hout h
            | cases hl : Refs.ipldLinks x.edge.destination doc with
              | none => intro h; cases h; exact h2
              | some ls =>
                intro h
                refine ih _ _ _ _ ?_ hout h
                intro y hy
                rcases List.mem_append.mp hy with hy | hy
                · exact hrest y hy
                · obtain ⟨h3, h4⟩ := enqueue_mem _ _ _ _ _ hy
                  have := LinkFrom.next hx hd hdec hl h4
                  rw [← h3] at this
                  exact this
        · exact ih _ _ _ _ hrest h2 h

theorem roots_true {w : Arrival} {fetch : Cid → Option Bytes} (hw : ComesTrue w fetch) (mb : UInt8 → Bytes → Option Bytes) (s : Served) (start : Nat)
    (ps : List IpfsPath) (t : Nat) {t' : Nat} {docs : List (Cid × Ipld)} (h : rootsTimed mb s w start ps t = some (t', .ok docs)) :
    refsRoots mb { s with fetch := fetch } ps = .ok docs := by
  induction ps generalizing t t' docs with
  | nil => cases h; rfl
  | cons p ps ih =>
    unfold rootsTimed at h
    unfold refsRoots
    cases hp : (resolveNodeProg mb s true p).timed w start with
    | none => rw [hp] at h; cases h
    | some x =>
      obtain ⟨t1, r1⟩ := x
      rw [hp] at h
      dsimp only at h
      rcases resolveNode_faithful hw _ _ _ _ _ hp with he | ⟨e, rfl, he⟩
      · rw [resolveNodeProg_eval] at he
        rw [← he]
        split at h
        · cases h
        · cases h
        · cases h
        · rename_i node rem
          dsimp only
          cases hd : rootDoc s.env s.size node with
          | panic => rw [hd] at h; cases h
          | failed e => rw [hd] at h; cases h
          | noLinks => rw [hd] at h; exact ih _ h
          | doc c d =>
            rw [hd] at h
            simp only [Option.map_eq_some_iff, Prod.mk.injEq] at h
            obtain ⟨⟨t2, r2⟩, h1, -, h2⟩ := h
            dsimp only at h2 ⊢
            cases r2 with
            | ok l => rw [ih _ h1]; exact h2
            | failed e => cases h2
            | panic => cases h2
            | running => cases h2
      · split at h
        · cases h
        · cases h
        · cases h
        · rename_i hx; cases hx

/-- **C97**: whatever could not be loaded, what the lines of `refs` tell is true: each is for a link that is reached from what the paths lead to and
whose block can be read, or tells the error in reading such a block. -/
theorem C97_refs_true {w : Arrival} {fetch : Cid → Option Bytes} (hw : ComesTrue w fetch) (blockText : BlockErr → Bytes)
    (mb : UInt8 → Bytes → Option Bytes) (s : Served) (o : RefsOptions.RefsOptions Nat) (start : Nat) {t : Nat} {lines : List Bytes} {ending : Refs.Ending}
    (h : (refsTimed blockText mb s o w start).last = some (t, .stream lines ending)) :
    ∃ (f : RefsFormat.Formatter) (paths : List IpfsPath) (docs : List (Cid × Ipld)) (items : List Refs.Item), RefsFormat.fromOptions o.edges o.format = .ok f ∧ parsePaths mb o.arg = .ok paths ∧
      refsRoots mb { s with fetch := fetch } paths = .ok docs ∧ lines = items.map (edgeLine blockText f) ∧
      ∀ i ∈ items, ∃ roots, rootLinks docs = some roots ∧ TrueItem s.env s.size fetch roots i := by
  unfold refsTimed at h
  cases hf : RefsFormat.fromOptions o.edges o.format with
  | error e => rw [hf] at h; cases h
  | ok f =>
    rw [hf] at h
    dsimp only at h
    cases hp : parsePaths mb o.arg with
    | error x => rw [hp] at h; cases h
    | ok paths =>
      rw [hp] at h
      dsimp only at h
      rcases guarded_last h with ⟨_, _, _, _, h⟩ | ⟨t1, b, h1, _, h2⟩
      · cases h
      · cases b with
        | failed e => cases h2
        | panic => cases h2
        | running => cases h2
        | ok docs =>
          refine ⟨f, paths, docs, ?_⟩
          have hroots := roots_true hw _ _ _ _ _ h1
          unfold refsRest at h2
          dsimp only at h2
          by_cases h0 : o.depth = some 0
          · rw [if_pos h0] at h2
            dsimp only at h2
            rw [timed_map] at h2
            simp only [Option.map_eq_some_iff, Prod.mk.injEq] at h2
            obtain ⟨⟨t3, q⟩, h3, -, h4⟩ := h2
            unfold refsProg at h3
            rw [if_pos h0] at h3
            cases h3
            cases h4
            exact ⟨[], rfl, rfl, hroots, rfl, by intro i hi; cases hi⟩
          · rw [if_neg h0] at h2
            cases hl : rootLinks docs with
            | none => rw [hl] at h2; cases h2
            | some roots =>
              rw [hl] at h2
              dsimp only at h2
              rw [timed_map] at h2
              simp only [Option.map_eq_some_iff, Prod.mk.injEq] at h2
              obtain ⟨⟨t3, q⟩, h3, -, h4⟩ := h2
              unfold refsProg at h3
              rw [if_neg h0] at h3
              rcases q with _ | ⟨items, en⟩
              · cases h4
              · simp only [RefsReply.stream.injEq] at h4
                refine ⟨items, rfl, rfl, hroots, h4.1.symm, ?_⟩
                intro i hi
                refine ⟨roots, rfl, refs_true hw _ _ _ roots _ _ _ [] _ ?_ (by intro i hi; cases hi) h3 i hi⟩
                intro x hx
                obtain ⟨ls, h5, h6⟩ := enqueueRoots_mem _ _ _ hx
                exact LinkFrom.root h5 h6

/-! ### What a recursive pin pins -/

theorem insertPin_only {le : Cid → Cid → Bool} {g g' : MemPins} {c : Cid} {kind : PinKind} {b : Bool} (h : g.insertPin le c kind = .ok (b, g')) {d : Cid}
    (hd : g'.isPinned d = true) : g.isPinned d = true ∨ d = c := by
  by_cases hdc : d = c
  · exact Or.inr hdc
  · left
    have hset : ∀ x : PinDocument, MemPins.isPinned (AMap.set g c x) d = g.isPinned d := by
      intro x
      unfold MemPins.isPinned
      rw [AMap.get_set_ne]
      exact hdc
    unfold MemPins.insertPin at h
    split at h
    · split at h
      · cases h
      · cases h; rw [← hd]; exact (hset _).symm
      · cases h; exact hd
    · split at h
      · cases h
      · cases h; rw [← hd]; exact (hset _).symm

/-- A block below the root that can be read. -/
def BelowRoot (env : Env) (size : Nat) (fetch : Cid → Option Bytes) (c : Cid) (ls : List (Option Bytes × Cid)) (d : Cid) : Prop :=
  ∃ e data doc, LinkFrom env size fetch [(c, ls)] e ∧ e.destination = d ∧ fetch d = some data ∧ decodeIpld env size d data = .ok doc

theorem pinLoop_true {w : Arrival} {fetch : Cid → Option Bytes} (hw : ComesTrue w fetch) (env : Pin.PinEnv) (le : Cid → Cid → Bool) (kind : PinKind) (c : Cid)
    (ls : List (Option Bytes × Cid)) (fuel : Nat) (work : List Refs.Work) (vis : List Cid) (g : MemPins) (count t : Nat) {t' : Nat}
    {r : Except PinErr Nat} {g' : MemPins} (h1 : ∀ x ∈ work, LinkFrom env.ipld env.size fetch [(c, ls)] x.edge)
    (h : (pinLoopProg env le kind fuel work vis g count).timed w t = some (t', some (r, g'))) {d : Cid} (hd : g'.isPinned d = true) :
    g.isPinned d = true ∨ BelowRoot env.ipld env.size fetch c ls d := by
  induction fuel generalizing work vis g count t with
  | zero => cases h
  | succ fuel ih =>
    cases work with
    | nil => cases h; exact Or.inl hd
    | cons x work =>
      have hx := h1 x List.mem_cons_self
      have hrest : ∀ y ∈ work, LinkFrom env.ipld env.size fetch [(c, ls)] y.edge := fun y hy => h1 y (List.mem_cons_of_mem _ hy)
      unfold pinLoopProg at h
      rcases faithful_load hw h with ⟨data, t1, hf, h⟩ | ⟨t1, h⟩
      · dsimp only at h
        revert h
        cases hdec : decodeIpld env.ipld env.size x.edge.destination data with
        | error y => intro h; cases h; exact Or.inl hd
        | ok doc =>
          dsimp only
          cases hl : Refs.ipldLinks x.edge.destination doc with
          | none => intro h; cases h; exact Or.inl hd
          | some ls' =>
            dsimp only
            cases hi : g.insertPin le x.edge.destination kind with
            | error e => intro h; cases h; exact Or.inl hd
            | ok q =>
              obtain ⟨b, g1⟩ := q
              intro h
              have hnew := ih _ _ _ _ _ ?_ h
              · rcases hnew with hg | hb
                · rcases insertPin_only hi hg with hg | rfl
                  · exact Or.inl hg
                  · exact Or.inr ⟨x.edge, data, doc, hx, rfl, hf, hdec⟩
                · exact Or.inr hb
              · intro y hy
                rcases List.mem_append.mp hy with hy | hy
                · exact hrest y hy
                · obtain ⟨h3, h4⟩ := enqueue_mem _ _ _ _ _ hy
                  have := LinkFrom.next hx hf hdec hl h4
                  rw [← h3] at this
                  exact this
      · exact ih _ _ _ _ _ hrest h

/-- **C97**: whatever could not be loaded, and also if it fails, a recursive pin pins nothing but its root and blocks below it that can be read. -/
theorem C97_pin_true {w : Arrival} {fetch : Cid → Option Bytes} (hw : ComesTrue w fetch) (env : Pin.PinEnv) (le : Cid → Cid → Bool) (g : MemPins) (c : Cid)
    (ls : List (Option Bytes × Cid)) (t : Nat) {t' : Nat} {r : Except PinErr Unit} {g' : MemPins}
    (h : (pinProg env le g c ls).timed w t = some (t', some (r, g'))) {d : Cid} (hd : g'.isPinned d = true) :
    g.isPinned d = true ∨ d = c ∨ BelowRoot env.ipld env.size fetch c ls d := by
  unfold pinProg at h
  cases hi : g.insertPin le c .recursiveIntention with
  | error e => rw [hi] at h; cases h; exact Or.inl hd
  | ok q =>
    obtain ⟨b, g1⟩ := q
    rw [hi] at h
    dsimp only at h
    rw [timed_map] at h
    simp only [Option.map_eq_some_iff, Prod.mk.injEq] at h
    obtain ⟨⟨t1, q⟩, h1, -, h2⟩ := h
    have hroots : ∀ x ∈ (Refs.enqueueRoots true [(c, ls)] []).1, LinkFrom env.ipld env.size fetch [(c, ls)] x.edge := by
      intro x hx
      obtain ⟨ls', h5, h6⟩ := enqueueRoots_mem _ _ _ hx
      exact LinkFrom.root h5 h6
    have hback : ∀ {r2 : Except PinErr Nat} {g2 : MemPins}, q = some (r2, g2) → g2.isPinned d = true →
        g.isPinned d = true ∨ d = c ∨ BelowRoot env.ipld env.size fetch c ls d := by
      intro r2 g2 hq hp
      subst hq
      rcases pinLoop_true hw env le _ c ls _ _ _ _ _ _ hroots h1 hp with hg | hb
      · rcases insertPin_only hi hg with hg | hg
        · exact Or.inl hg
        · exact Or.inr (Or.inl hg)
      · exact Or.inr (Or.inr hb)
    rcases q with _ | ⟨e | count, g2⟩
    · cases h2
    · cases h2
      exact hback rfl hd
    · dsimp only at h2
      cases hj : g2.insertPin le c (.recursive count) with
      | error e => rw [hj] at h2; cases h2; exact hback rfl hd
      | ok q =>
        obtain ⟨b', g3⟩ := q
        rw [hj] at h2
        cases h2
        rcases insertPin_only hj hd with hg | hg
        · exact hback rfl hg
        · exact Or.inr (Or.inl hg)

/-! ### Where it fails -/

/-- One block of the form cannot be loaded. -/
def lostArrival (i : UInt8) : Arrival := fun _ c => if c = formCid i then some (1, none) else some (1, formBlocks.lookup c)

theorem lostArrival_faithful (i : UInt8) : ComesTrue (lostArrival i) (fun c => formBlocks.lookup c) := by
  intro t c n d h
  unfold lostArrival at h
  split at h
  · cases h
  · simp only [Option.some.injEq, Prod.mk.injEq] at h
    exact h.2

def topRefs : RefsOptions.RefsOptions Nat := ⟨["/ipfs/".toUTF8.toList ++ netTop.toText], none, false, false, true, none, none⟩

/-- The lines of an answer that ended as complete. -/
def linesOf : RefsReply → Option (List Bytes)
  | .stream lines .done => some lines
  | _ => none

/-- **C97**, where it fails: an answer of `refs` may end as complete without the lines of blocks that could not be loaded. -/
theorem C97_refs_short : ∃ (w : Arrival) (fetch : Cid → Option Bytes) (mb : UInt8 → Bytes → Option Bytes) (s : Served) (o : RefsOptions.RefsOptions Nat)
    (whole lines : List Bytes) (start t : Nat), ComesTrue w fetch ∧ o.unique = false ∧
    refsInner (fun _ => []) mb { s with fetch := fetch, elapses := false } o = .stream whole .done ∧
    (refsTimed (fun _ => []) mb s o w start).last = some (t, .stream lines .done) ∧ ¬ lines <+: whole := by
  have h1 : ((linesOf (refsInner (fun _ => []) (fun _ _ => none) { netServed with fetch := fun c => formBlocks.lookup c, elapses := false } topRefs)).bind
      fun whole => ((refsTimed (fun _ => []) (fun _ _ => none) netServed topRefs (lostArrival 0) 0).last.bind fun x => linesOf x.2).map
        fun lines => !lines.isPrefixOf whole) = some true := by decide +kernel
  obtain ⟨whole, hw, h1⟩ := Option.bind_eq_some_iff.mp h1
  obtain ⟨lines, hl, h1⟩ := Option.map_eq_some_iff.mp h1
  obtain ⟨⟨t, r⟩, ht, hl⟩ := Option.bind_eq_some_iff.mp hl
  have hlines : ∀ {x : RefsReply} {l : List Bytes}, linesOf x = some l → x = .stream l .done := by
    intro x l h
    unfold linesOf at h
    split at h <;> cases h
    rfl
  refine ⟨_, _, _, _, _, whole, lines, 0, t, lostArrival_faithful 0, rfl, hlines hw, ?_, ?_⟩
  · have hr := hlines hl
    dsimp only at hr
    rw [ht, hr]
  · intro h
    rw [← List.isPrefixOf_iff_prefix] at h
    rw [h] at h1
    cases h1

/-- **C97**, where it fails: nor does a recursive pin tell. It is answered well although the only block below the root could not be loaded, which is not
pinned. -/
theorem C97_pin_short (env : Pin.PinEnv) (hfuel : 2 ≤ env.fuel) (le : Cid → Cid → Bool) (root c : Cid) (hne : c ≠ root) (name : Option Bytes) {w : Arrival}
    {t n : Nat} (hlost : w t c = some (n, none)) :
    ∃ g : MemPins, (pinProg env le [] root [(name, c)]).timed w t = some (t + n, some (.ok (), g)) ∧
      g.get root = some { recursive := .count 0 } ∧ g.isPinned c = false := by
  obtain ⟨fuel, hf⟩ : ∃ fuel, env.fuel = fuel + 1 + 1 := ⟨env.fuel - 2, by omega⟩
  refine ⟨[(root, { recursive := .count 0 })], ?_, ?_, ?_⟩
  · simp [pinProg, MemPins.insertPin, AMap.get, AMap.set, PinDocument.update, timed_map, hf, Refs.enqueueRoots, Refs.enqueue, pinLoopProg, Prog.timed, hlost]
  · simp [AMap.get]
  · simp [MemPins.isPinned, AMap.get, Ne.symm hne]

/-- `C97_pin_short` applies. -/
example : ∃ g : MemPins, (pinProg ⟨netServed.env, netServed.size, 100⟩ (fun _ _ => true) [] (formCid 2) [(none, formCid 0)]).timed (lostArrival 0) 3 =
    some (4, some (.ok (), g)) ∧ g.get (formCid 2) = some { recursive := .count 0 } ∧ g.isPinned (formCid 0) = false :=
  C97_pin_short ⟨netServed.env, netServed.size, 100⟩ (by show 2 ≤ 100; decide) (fun _ _ => true) (formCid 2) (formCid 0) (by decide) none
    (w := lostArrival 0) (t := 3) (n := 1) (by decide +kernel)

/-- **C97**, where it fails: what such a pin leaves behind can get stuck. The first of two blocks below the root could not be loaded, and the pin was answered
well. When the block is there later, unpinning the root comes to it first, finds that it is not pinned, and ends: the root is not pinned any more, but the
second block is, and no request to unpin the one or the other goes well or changes anything. -/
theorem C97_pin_stuck (env : Pin.PinEnv) (hfuel : 3 ≤ env.fuel) (le : Cid → Cid → Bool) (root c d : Cid) (hd : d ≠ root) (hcd : c ≠ d)
    (n1 n2 : Option Bytes) {w : Arrival} {t n m : Nat} {data : Bytes} {doc : Ipld} (hlost : w t c = some (n, none)) (hcame : w (t + n) d = some (m, some data))
    (hdec : decodeIpld env.ipld env.size d data = .ok doc) (hleaf : Refs.ipldLinks d doc = some []) :
    ∃ g g' : MemPins, (pinProg env le [] root [(n1, c), (n2, d)]).timed w t = some (t + n + m, some (.ok (), g)) ∧
      g.removeRecursive le root [some c, some d] = (.error .notPinned, g') ∧ g'.isPinned root = false ∧ g'.isPinned d = true ∧
      ∀ refs, (∃ e, g'.removeRecursive le root refs = (.error e, g')) ∧ (∃ e, g'.removeRecursive le d refs = (.error e, g')) ∧
        (∃ e, g'.removeDirect le root = (.error e, g')) ∧ ∃ e, g'.removeDirect le d = (.error e, g') := by
  obtain ⟨fuel, hf⟩ : ∃ fuel, env.fuel = fuel + 1 + 1 + 1 := ⟨env.fuel - 3, by omega⟩
  refine ⟨[(root, { recursive := .count 1 }), (d, { indirectBy := [Cid.asV1 (Cid.asV1 root)] })], [(d, { indirectBy := [Cid.asV1 (Cid.asV1 root)] })],
    ?_, ?_, ?_, ?_, fun refs => ⟨⟨.notPinnedOrIndirect, ?_⟩, ⟨.pinnedIndirectlyThrough (Cid.asV1 (Cid.asV1 root)), ?_⟩, ⟨.notPinned, ?_⟩,
      ⟨.cannotUnpinUnpinned, ?_⟩⟩⟩
  · simp [pinProg, MemPins.insertPin, AMap.get, AMap.set, PinDocument.update, timed_map, hf, Refs.enqueueRoots, Refs.enqueue, pinLoopProg, Prog.timed, hlost,
      hcame, hdec, hleaf, Ne.symm hcd, Ne.symm hd]
  · simp [MemPins.removeRecursive, MemPins.removePin, MemPins.removeRefs, AMap.get, AMap.erase, PinDocument.update, PinDocument.pickKind,
      PinDocument.mode, PinDocument.canRemove, Recursive.isSet, hd, Ne.symm hcd]
  · simp [MemPins.isPinned, AMap.get, hd]
  · simp [MemPins.isPinned, AMap.get]
  · simp [MemPins.removeRecursive, AMap.get, hd]
  · simp [MemPins.removeRecursive, AMap.get, PinDocument.pickKind, PinDocument.mode, Recursive.isSet]
  · simp [MemPins.removeDirect, MemPins.removePin, AMap.get, hd]
  · simp [MemPins.removeDirect, MemPins.removePin, AMap.get, PinDocument.update, Recursive.isSet]

/-- **C97**: what is stuck is free again when the root is pinned and unpinned once more with all blocks there. -/
theorem C97_pin_again (le : Cid → Cid → Bool) (root c d : Cid) (hc : c ≠ root) (hd : d ≠ root) (hcd : c ≠ d) :
    ∃ g : MemPins, MemPins.insertRecursive le [(d, { indirectBy := [Cid.asV1 (Cid.asV1 root)] })] root [some c, some d] = (.ok (), g) ∧
      (g.isPinned root = true ∧ g.isPinned c = true ∧ g.isPinned d = true) ∧ g.removeRecursive le root [some c, some d] = (.ok (), []) := by
  refine ⟨[(d, { indirectBy := [Cid.asV1 (Cid.asV1 root)] }), (root, { recursive := .count 2 }), (c, { indirectBy := [Cid.asV1 (Cid.asV1 root)] })],
    ?_, ?_, ?_⟩
  · simp [MemPins.insertRecursive, MemPins.insertRefs, MemPins.insertPin, AMap.get, AMap.set, PinDocument.update, toSet, insertSorted, hd, Ne.symm hcd,
      Ne.symm hc]
  · simp [MemPins.isPinned, AMap.get, hd, Ne.symm hcd, Ne.symm hc]
  · simp [MemPins.removeRecursive, MemPins.removePin, MemPins.removeRefs, AMap.get, AMap.erase, PinDocument.update, PinDocument.pickKind,
      PinDocument.mode, PinDocument.canRemove, Recursive.isSet, toSet, insertSorted, hd, hc, Ne.symm hcd]

/-- `C97_pin_again` applies. -/
example : ∃ g : MemPins, MemPins.insertRecursive (fun _ _ => true) [(formCid 1, { indirectBy := [Cid.asV1 (Cid.asV1 (formCid 2))] })] (formCid 2)
      [some (formCid 0), some (formCid 1)] = (.ok (), g) ∧
    g.removeRecursive (fun _ _ => true) (formCid 2) [some (formCid 0), some (formCid 1)] = (.ok (), []) := by
  obtain ⟨g, h1, -, h2⟩ := C97_pin_again (fun _ _ => true) (formCid 2) (formCid 0) (formCid 1) (by decide) (by decide) (by decide)
  exact ⟨g, h1, h2⟩

/-- `C97_pin_stuck` applies: the file with two leaves, and the walk of the unpin over its blocks goes over both of them in this order. -/
example : (∃ g g' : MemPins, (pinProg ⟨netServed.env, netServed.size, 100⟩ (fun _ _ => true) [] (formCid 2) [(none, formCid 0), (none, formCid 1)]).timed
      (lostArrival 0) 3 = some (5, some (.ok (), g)) ∧
      g.removeRecursive (fun _ _ => true) (formCid 2) [some (formCid 0), some (formCid 1)] = (.error .notPinned, g') ∧ g'.isPinned (formCid 1) = true) ∧
    (match (formBlocks.foldl (fun (m : MemBlocks) x => (m.put ⟨x.1, x.2⟩).1) []), formBlocks.lookup (formCid 2) with
      | m, some data => (Pin.descendants (ε := PinErr) ⟨netServed.env, netServed.size, 100⟩ m (formCid 2) data).toOption
      | _, none => none) = some [some (formCid 0), some (formCid 1)] := by
  refine ⟨?_, by decide +kernel⟩
  have h : (match formBlocks.lookup (formCid 1) with
    | some data =>
      match decodeIpld netServed.env netServed.size (formCid 1) data with
      | .ok doc => decide (Refs.ipldLinks (formCid 1) doc = some [])
      | .error _ => false
    | none => false) = true := by decide +kernel
  split at h
  · rename_i data hdata
    split at h
    · rename_i doc hdoc
      obtain ⟨g, g', h1, h2, -, h4, -⟩ := C97_pin_stuck ⟨netServed.env, netServed.size, 100⟩ (by show 3 ≤ 100; decide) (fun _ _ => true) (formCid 2) (formCid 0)
        (formCid 1) (by decide) (by decide) none none (w := lostArrival 0) (t := 3) (n := 1) (m := 1) (data := data) (doc := doc)
        (by decide +kernel) (by unfold lostArrival; rw [if_neg (by decide), hdata]) hdoc (of_decide_eq_true h)
      exact ⟨g, g', h1, h2, h4⟩
    · cases h
  · cases h

/-- `C97_pin_true` applies: of two blocks below the root the first cannot be loaded; the second is pinned and is below the root. -/
example : ∃ g : MemPins, (pinProg ⟨netServed.env, netServed.size, 100⟩ (fun _ _ => true) [] (formCid 2) [(none, formCid 0), (none, formCid 1)]).timed
      (lostArrival 0) 3 = some (5, some (.ok (), g)) ∧ g.isPinned (formCid 0) = false ∧ g.isPinned (formCid 1) = true ∧
    BelowRoot netServed.env netServed.size (fun c => formBlocks.lookup c) (formCid 2) [(none, formCid 0), (none, formCid 1)] (formCid 1) := by
  have h : (match (pinProg ⟨netServed.env, netServed.size, 100⟩ (fun _ _ => true) [] (formCid 2) [(none, formCid 0), (none, formCid 1)]).timed
      (lostArrival 0) 3 with
    | some (5, some (.ok (), g)) => !MemPins.isPinned g (formCid 0) && MemPins.isPinned g (formCid 1)
    | _ => false) = true := by decide +kernel
  split at h
  · rename_i g hg
    simp only [Bool.and_eq_true, Bool.not_eq_true'] at h
    refine ⟨g, hg, h.1, h.2, ?_⟩
    rcases C97_pin_true (lostArrival_faithful 0) _ _ _ _ _ _ hg h.2 with h1 | h1 | h1
    · cases h1
    · exact absurd h1 (by decide)
    · exact h1
  · cases h

/-! ### Examples -/

/-- The answer, if it is over: what was sent and how it ended. -/
def sentOf {ε : Type} (x : Timing (Reply ε)) : Option (List Bytes × ε) :=
  match x.last with
  | some (_, .stream sent e) => some (sent, e)
  | _ => none

/-- `C97_cat` applies: the file has the bytes 1 to 4 and its second leaf cannot be loaded. -/
example : (∃ whole, catInner (fun _ _ => none) { netServed with fetch := fun c => formBlocks.lookup c, elapses := false } (fileArgs none) =
      .stream whole .done ∧ ∀ t r, (catTimed (fun _ _ => none) netServed (fileArgs none) (lostArrival 1) 0).last = some (t, r) →
        SoFar .done (fun e => ∃ c, e = .loading c) whole r) ∧
    sentOf (catTimed (fun _ _ => none) netServed (fileArgs none) (lostArrival 1) 0) = some ([[1, 2]], .loading (formCid 1)) := by
  refine ⟨?_, by decide +kernel⟩
  have h : (match catInner (fun _ _ => none) { netServed with fetch := fun c => formBlocks.lookup c, elapses := false } (fileArgs none) with
    | .stream _ .done => true
    | _ => false) = true := by decide +kernel
  split at h
  · rename_i whole hw
    exact ⟨whole, hw, fun t r hr => C97_cat (lostArrival_faithful 1) _ netServed (fileArgs none) hw 0 hr⟩
  · cases h

/-- At time 7 the first half of a file is there whose leaves take three units each, at 8 all of it. -/
example : sentOf (catTimed (fun _ _ => none) netServed (fileArgs none) (upTo 7 (formArrival 2 3)) 2) = some ([[1, 2]], .loading (formCid 1)) ∧
    sentOf (catTimed (fun _ _ => none) netServed (fileArgs none) (upTo 8 (formArrival 2 3)) 2) = some ([[1, 2], [3, 4]], .done) := by decide +kernel

/-- `C97_refs_partial` and `C97_refs_true` apply: there are lines, with one block lost. -/
example : ((linesOf (refsInner (fun _ => []) (fun _ _ => none) { netServed with fetch := fun c => formBlocks.lookup c, elapses := false } topRefs)).map
      List.length, ((refsTimed (fun _ => []) (fun _ _ => none) netServed topRefs (lostArrival 0) 0).last.bind fun x => linesOf x.2).map List.length) =
    (some 3, some 2) := by decide +kernel

/-- `C97_get` applies. -/
example : ∃ whole, getInner (fun _ _ => none) { netServed with fetch := fun c => formBlocks.lookup c, elapses := false } ⟨.ipld netTop, []⟩ none =
      .stream whole .done ∧ ∀ t r, (getTimed (fun _ _ => none) netServed ⟨.ipld netTop, []⟩ none (lostArrival 1) 0).last = some (t, r) →
        SoFar .done (fun e => ∃ c, e = .walk (.missing c)) whole r := by
  have h : (match getInner (fun _ _ => none) { netServed with fetch := fun c => formBlocks.lookup c, elapses := false } ⟨.ipld netTop, []⟩ none with
    | .stream _ .done => true
    | _ => false) = true := by decide +kernel
  split at h
  · rename_i whole hw
    exact ⟨whole, hw, fun t r hr => C97_get (lostArrival_faithful 1) _ netServed _ none hw 0 hr⟩
  · cases h

end Verif.Props
