import Verif.Net.Timeout
import Verif.Props.NetWalk
import Verif.Props.HttpPin
import Verif.Http.Pin

/-!
# C96: a request that was given a timeout is over when it has elapsed
-/

namespace Verif.Props

open Verif Verif.Repo Verif.Bitswap Verif.Net Verif.Unixfs Verif.Ipfs Verif.Ipld Verif.Http

variable {α β ρ : Type}

/-! ### Specification -/

/-- The status of the answer is sent by then. -/
def BegunBy (t : Nat) (x : Timing ρ) : Prop := ∃ h, x.head = some h ∧ h ≤ t

/-- The answer is over by then. -/
def OverBy (t : Nat) (x : Timing ρ) : Prop := ∃ h r, x.last = some (h, r) ∧ h ≤ t

/-- What the timeout makes of an answer: nothing if its status comes in time, and else the request ends when the timeout does. -/
def CutOff (t : Nat) (elapsed : ρ) (free x : Timing ρ) : Prop :=
  (BegunBy t free ∧ x = free) ∨ (¬ BegunBy t free ∧ x = ⟨some t, some (t, elapsed)⟩)

/-- The blocks that come are these. -/
def Brings (w : Arrival) (fetch : Cid → Option Bytes) : Prop := ∀ t c n r, w t c = some (n, r) → r = fetch c

/-- These blocks are there at once. -/
def AtOnce (w : Arrival) (near : Cid → Option Bytes) : Prop := ∀ t c d, near c = some d → w t c = some (0, some d)

/-- Nothing is heard of the block for more than that long. -/
def LaterThan (w : Arrival) (n : Nat) (c : Cid) : Prop := ∀ t m r, w t c = some (m, r) → n < m

/-! ### Helpers -/

theorem timed_bind (w : Arrival) (f : α → Prog β) (p : Prog α) (t : Nat) :
    (p.bind f).timed w t = (p.timed w t).bind (fun x => (f x.2).timed w x.1) := by
  induction p generalizing t with
  | ret a => rfl
  | load c k e ih1 ih2 =>
    simp only [Prog.bind, Prog.timed]
    rcases w t c with _ | ⟨d, _ | data⟩
    · rfl
    · exact ih2 _
    · exact ih1 _ _

theorem timed_map (w : Arrival) (f : α → β) (p : Prog α) (t : Nat) : (p.map f).timed w t = (p.timed w t).map (fun x => (x.1, f x.2)) := by
  unfold Prog.map
  rw [timed_bind]
  cases p.timed w t <;> rfl

theorem timed_ge (w : Arrival) (p : Prog α) (t : Nat) {t' : Nat} {a : α} (h : p.timed w t = some (t', a)) : t ≤ t' := by
  induction p generalizing t with
  | ret a => simp only [Prog.timed, Option.some.injEq, Prod.mk.injEq] at h; omega
  | load c k e ih1 ih2 =>
    simp only [Prog.timed] at h
    rcases hw : w t c with _ | ⟨d, _ | data⟩ <;> rw [hw] at h
    · cases h
    · have := ih2 _ h; omega
    · have := ih1 _ _ h; omega

theorem timed_eval {w : Arrival} {fetch : Cid → Option Bytes} (hw : Brings w fetch) (p : Prog α) (t : Nat) {t' : Nat} {a : α}
    (h : p.timed w t = some (t', a)) : a = p.eval fetch := by
  induction p generalizing t with
  | ret a => cases h; rfl
  | load c k e ih1 ih2 =>
    simp only [Prog.timed] at h
    simp only [Prog.eval]
    rcases hc : w t c with _ | ⟨d, r⟩
    · rw [hc] at h; cases h
    · have hr := hw _ _ _ _ hc
      rw [hc] at h
      rw [← hr]
      cases r with
      | none => exact ih2 _ h
      | some data => exact ih1 _ _ h

/-- Where all blocks that are needed are there at once, no time passes. -/
theorem timed_near {w : Arrival} {near : Cid → Option Bytes} (hw : AtOnce w near) (p : Prog α) (hp : BlocksThere near p) (t : Nat) :
    p.timed w t = some (t, p.eval near) := by
  obtain ⟨n, hn⟩ := hp
  induction p generalizing t n with
  | ret a => rfl
  | load c k e ih1 ih2 =>
    simp only [needs] at hn
    simp only [Prog.timed, Prog.eval]
    cases hc : near c with
    | none => rw [hc] at hn; cases hn
    | some d =>
      rw [hc] at hn
      rw [hw t c d hc]
      simp only [Option.map_eq_some_iff] at hn
      obtain ⟨m, hm, -⟩ := hn
      exact ih1 _ _ _ hm

theorem guarded_cutOff (w : Arrival) (d start : Nat) (first : Option (Nat × β)) (elapsed : ρ) (rest : β → Prog ρ) :
    CutOff (start + d) elapsed (guarded w none start first elapsed rest) (guarded w (some d) start first elapsed rest) := by
  unfold CutOff BegunBy guarded maybeTimeout
  rcases first with _ | ⟨t, b⟩
  · right; exact ⟨(by rintro ⟨h, hh, -⟩; cases hh), rfl⟩
  · by_cases h : t ≤ start + d
    · left; exact ⟨⟨t, rfl, h⟩, by simp [h]⟩
    · right; refine ⟨?_, by simp [h, Timing.now]⟩
      rintro ⟨t', ht, hle⟩
      cases ht
      exact h hle

theorem now_cutOff (d start : Nat) (elapsed r : ρ) : CutOff (start + d) elapsed (Timing.now start r) (Timing.now start r) :=
  Or.inl ⟨⟨start, rfl, by omega⟩, rfl⟩

theorem CutOff.begun {t : Nat} {e : ρ} {free x : Timing ρ} (h : CutOff t e free x) : BegunBy t x := by
  rcases h with ⟨h, rfl⟩ | ⟨-, rfl⟩
  · exact h
  · exact ⟨t, rfl, Nat.le_refl _⟩

/-- The status and the end come together. -/
def AtOneTime (x : Timing ρ) : Prop := (x.head = none ∧ x.last = none) ∨ ∃ t r, x.head = some t ∧ x.last = some (t, r)

theorem CutOff.over {t : Nat} {e : ρ} {free x : Timing ρ} (h : CutOff t e free x) (hf : AtOneTime free) : OverBy t x := by
  rcases h with ⟨⟨s, h1, h2⟩, rfl⟩ | ⟨-, rfl⟩
  · rcases hf with ⟨h3, -⟩ | ⟨s', r, h3, h4⟩
    · rw [h1] at h3; cases h3
    · rw [h1] at h3; cases h3; exact ⟨s, r, h4, h2⟩
  · exact ⟨t, e, rfl, Nat.le_refl _⟩

theorem guarded_oneTime (w : Arrival) (start : Nat) (timeout : Option Nat) (first : Option (Nat × β)) (elapsed : ρ) (f : β → ρ) :
    AtOneTime (guarded w timeout start first elapsed (fun b => .ret (f b))) := by
  unfold guarded
  cases maybeTimeout timeout start first with
  | never => exact Or.inl ⟨rfl, rfl⟩
  | elapsed t => exact Or.inr ⟨t, _, rfl, rfl⟩
  | over t b => exact Or.inr ⟨t, _, rfl, rfl⟩

theorem now_oneTime (t : Nat) (r : ρ) : AtOneTime (Timing.now t r) := Or.inr ⟨t, r, rfl, rfl⟩

/-! ### C96 -/

/-- **C96**: what a timeout does, for every request that takes one and whenever the blocks and answers come: if without it the status of the answer came
in time, it changes nothing, and else the request fails when the timeout elapses. -/
theorem C96_cutOff (mb : UInt8 → Bytes → Option Bytes) (s : Served) (w : Arrival) (start d : Nat) :
    (∀ args : CatArgs, CutOff (start + d) (.failed .elapsed) (catTimed mb s { args with timeout := none } w start)
      (catTimed mb s { args with timeout := some d } w start)) ∧
    (∀ arg, CutOff (start + d) (.failed .elapsed) (getTimed mb s arg none w start) (getTimed mb s arg (some d) w start)) ∧
    (∀ o : ResolveQuery, CutOff (start + d) (.failed .elapsed) (resolveTimed mb s { o with timeout := none } w start)
      (resolveTimed mb s { o with timeout := some d } w start)) ∧
    (∀ blockText (o : RefsOptions.RefsOptions Nat), CutOff (start + d) (.failed .elapsed) (refsTimed blockText mb s { o with timeout := none } w start)
      (refsTimed blockText mb s { o with timeout := some d } w start)) ∧
    (∀ (γ : Type) (answer : Option (Nat × DhtRes γ)) reply, CutOff (start + d) (.failed .elapsed) (dhtTimed none answer reply start)
      (dhtTimed (some d) answer reply start)) := by
  refine ⟨?_, fun arg => guarded_cutOff _ _ _ _ _ _, ?_, ?_, fun _ _ _ => guarded_cutOff _ _ _ _ _ _⟩
  · intro args
    unfold catTimed
    dsimp only
    cases wantedRange s.debug args.offset args.length with
    | notImplemented => exact now_cutOff _ _ _ _
    | panic => exact now_cutOff _ _ _ _
    | range range => exact guarded_cutOff _ _ _ _ _ _
  · intro o
    unfold resolveTimed
    dsimp only
    cases IpfsPath.parse mb o.arg with
    | none => exact now_cutOff _ _ _ _
    | some p => exact guarded_cutOff _ _ _ _ _ _
  · intro blockText o
    unfold refsTimed
    dsimp only
    cases RefsFormat.fromOptions o.edges o.format with
    | error e => exact now_cutOff _ _ _ _
    | ok f =>
      dsimp only
      cases parsePaths mb o.arg with
      | error e => exact now_cutOff _ _ _ _
      | ok p => exact guarded_cutOff _ _ _ _ _ _

/-- **C96**: with a timeout the status comes in time. -/
theorem C96_begun (mb : UInt8 → Bytes → Option Bytes) (s : Served) (w : Arrival) (start d : Nat) :
    (∀ args : CatArgs, args.timeout = some d → BegunBy (start + d) (catTimed mb s args w start)) ∧
    (∀ arg, BegunBy (start + d) (getTimed mb s arg (some d) w start)) ∧
    (∀ blockText (o : RefsOptions.RefsOptions Nat), o.timeout = some d → BegunBy (start + d) (refsTimed blockText mb s o w start)) := by
  obtain ⟨h1, h2, -, h4, -⟩ := C96_cutOff mb s w start d
  refine ⟨?_, fun arg => (h2 arg).begun, ?_⟩
  · intro args ha
    have := (h1 args).begun
    rw [← ha] at this
    exact this
  · intro blockText o ho
    have := (h4 blockText o).begun
    rw [← ho] at this
    exact this

/-- **C96**: with a timeout resolving a path, and asking the DHT, is over in time. -/
theorem C96_over (mb : UInt8 → Bytes → Option Bytes) (s : Served) (w : Arrival) (start d : Nat) :
    (∀ o : ResolveQuery, o.timeout = some d → OverBy (start + d) (resolveTimed mb s o w start)) ∧
    (∀ (γ : Type) (answer : Option (Nat × DhtRes γ)) reply, OverBy (start + d) (dhtTimed (some d) answer reply start)) := by
  obtain ⟨-, -, h3, -, h5⟩ := C96_cutOff mb s w start d
  refine ⟨?_, fun _ a r => (h5 _ a r).over (guarded_oneTime _ _ _ _ _ _)⟩
  intro o ho
  have := (h3 o).over (by
    unfold resolveTimed
    dsimp only
    cases IpfsPath.parse mb o.arg with
    | none => exact now_oneTime _ _
    | some p => exact guarded_oneTime _ _ _ _ _ _)
  rw [← ho] at this
  exact this

/-- **C96**: with a timeout getting a block, or its size, is over in time: with the block if it came in time, and else with the error of the timeout. -/
theorem C96_block (env : BlockEnv) (query : Option Bytes) (reply : Bytes → Repo.Block → BlockReply) {arg : Bytes} {d : Nat}
    (hq : getStatQuery env.q (query.getD []) = .ok (arg, some d)) (w : Arrival) (start : Nat) :
    OverBy (start + d) (blockTimed env query reply w start) ∧
    ∀ c, Cid.ofText env.q.mb arg = some c →
      (∀ n data, w start c = some (n, some data) → n ≤ d → (blockTimed env query reply w start).last = some (start + n, some (reply arg ⟨c, data⟩))) ∧
      ((∀ n r, w start c = some (n, r) → d < n) → (blockTimed env query reply w start).last = some (start + d, some (.failed .elapsed))) := by
  unfold blockTimed
  rw [hq]
  dsimp only
  cases hc : Cid.ofText env.q.mb arg with
  | none => exact ⟨⟨start, _, rfl, by omega⟩, fun c h => by cases h⟩
  | some c =>
    dsimp only
    refine ⟨(guarded_cutOff _ _ _ _ _ _).over (guarded_oneTime _ _ _ _ _ _), ?_⟩
    rintro _ ⟨⟩
    constructor
    · intro n data hw hn
      simp [guarded, maybeTimeout, blockProg, Prog.timed, hw, hn]
    · intro h
      simp only [guarded, maybeTimeout, blockProg, Prog.timed]
      rcases hw : w start c with _ | ⟨n, _ | data⟩
      · rfl
      · have := h _ _ hw
        have hn : ¬ start + n ≤ start + d := by omega
        simp [hn, Timing.now]
      · have := h _ _ hw
        have hn : ¬ start + n ≤ start + d := by omega
        simp [hn, Timing.now]

/-! ### Helpers: what is answered -/

theorem resolveNodeProg_eval (mb : UInt8 → Bytes → Option Bytes) (s : Served) (fetch : Cid → Option Bytes) (follow : Bool) (path : IpfsPath) :
    (resolveNodeProg mb s follow path).eval fetch = resolveNode mb { s with fetch := fetch } follow path := by
  unfold resolveNodeProg resolveNode
  dsimp only
  cases resolveIpns mb s.txt s.fuel path true with
  | none => rfl
  | some r =>
    cases r with
    | error x => rfl
    | ok resolved =>
      dsimp only
      cases resolved.root with
      | ipld c =>
        dsimp only
        rw [eval_map, dagResolveProg_eval]
        rfl
      | _ => rfl

theorem resolveNodeProg_there (mb : UInt8 → Bytes → Option Bytes) (s : Served) (fetch : Cid → Option Bytes) (follow : Bool) (path : IpfsPath)
    {n : Node × List Bytes} (h : (resolveNodeProg mb s follow path).eval fetch = some (.ok n)) :
    BlocksThere fetch (resolveNodeProg mb s follow path) := by
  unfold resolveNodeProg at h ⊢
  cases hi : resolveIpns mb s.txt s.fuel path true with
  | none => exact blocksThere_ret _
  | some r =>
    cases r with
    | error x => exact blocksThere_ret _
    | ok resolved =>
      rw [hi] at h
      dsimp only at h ⊢
      cases hro : resolved.root with
      | ipld c =>
        rw [hro] at h
        dsimp only at h ⊢
        rw [eval_map] at h
        refine blocksThere_map ?_
        cases hx : (dagResolveProg s.env s.size follow s.fuel c resolved.path).eval fetch with
        | none => rw [hx] at h; cases h
        | some r =>
          cases r with
          | error x => rw [hx] at h; simp at h
          | ok x => exact dagResolveProg_there _ _ _ _ _ _ _ hx
      | _ => exact blocksThere_ret _

theorem rootsTimed_eval {w : Arrival} {fetch : Cid → Option Bytes} (hw : Brings w fetch) (mb : UInt8 → Bytes → Option Bytes) (s : Served) (start : Nat)
    (ps : List IpfsPath) (t : Nat) {t' : Nat} {r : Roots} (h : rootsTimed mb s w start ps t = some (t', r)) :
    r = refsRoots mb { s with fetch := fetch } ps := by
  induction ps generalizing t t' r with
  | nil => cases h; rfl
  | cons p ps ih =>
    unfold rootsTimed at h
    unfold refsRoots
    cases hp : (resolveNodeProg mb s true p).timed w start with
    | none => rw [hp] at h; cases h
    | some x =>
      obtain ⟨t1, r1⟩ := x
      have he := timed_eval hw _ _ hp
      rw [resolveNodeProg_eval] at he
      rw [← he]
      rw [hp] at h
      dsimp only at h ⊢
      split at h
      · cases h; rfl
      · cases h; rfl
      · rename_i e hne
        cases h
        split
        · rename_i h2; cases h2
        · rename_i h2; cases h2; exact absurd rfl hne
        · rename_i h2; cases h2; rfl
        · rename_i h2; cases h2
      · rename_i node rem
        dsimp only
        cases hd : rootDoc s.env s.size node with
        | panic => rw [hd] at h; cases h; rfl
        | failed e => rw [hd] at h; cases h; rfl
        | noLinks => rw [hd] at h; exact ih _ h
        | doc c d =>
          rw [hd] at h
          simp only [Option.map_eq_some_iff, Prod.mk.injEq] at h
          obtain ⟨⟨t2, r2⟩, h1, -, h2⟩ := h
          dsimp only at h2 ⊢
          rw [← h2, ih _ h1]

theorem rootsTimed_near {w : Arrival} {near : Cid → Option Bytes} (hw : AtOnce w near) (mb : UInt8 → Bytes → Option Bytes) (s : Served) (start : Nat)
    (ps : List IpfsPath) {docs : List (Cid × Ipld)} (h : refsRoots mb { s with fetch := near } ps = .ok docs) :
    rootsTimed mb s w start ps start = some (start, .ok docs) := by
  induction ps generalizing docs with
  | nil => cases h; rfl
  | cons p ps ih =>
    unfold refsRoots at h
    unfold rootsTimed
    rw [← resolveNodeProg_eval] at h
    split at h
    · cases h
    · cases h
    · cases h
    · rename_i node rem he
      rw [timed_near hw _ (resolveNodeProg_there _ _ _ _ _ he), he]
      dsimp only at h ⊢
      cases hd : rootDoc s.env s.size node with
      | panic => rw [hd] at h; cases h
      | failed e => rw [hd] at h; cases h
      | noLinks => rw [hd] at h; dsimp only; rw [Nat.max_self]; exact ih h
      | doc c d =>
        rw [hd] at h
        dsimp only at h ⊢
        rw [Nat.max_self]
        cases hr : refsRoots mb { s with fetch := near } ps with
        | ok l => rw [hr] at h; cases h; rw [ih hr]; rfl
        | failed e => rw [hr] at h; cases h
        | panic => rw [hr] at h; cases h
        | running => rw [hr] at h; cases h

theorem refsRest_eval (blockText : BlockErr → Bytes) (s : Served) (fetch : Cid → Option Bytes) (f : RefsFormat.Formatter) (m : Option Nat) (u : Bool)
    (docs : List (Cid × Ipld)) : (refsRest blockText s f m u (.ok docs)).eval fetch = refsStream blockText { s with fetch := fetch } f m u docs := by
  unfold refsRest refsStream
  dsimp only
  cases (if m = some 0 then some [] else rootLinks docs) with
  | none => rfl
  | some roots =>
    dsimp only
    rw [eval_map, refsProg_eval _ _ _ _ rfl]
    rfl

theorem catRest_eval (mb : UInt8 → Bytes → Option Bytes) (s : Served) (fetch : Cid → Option Bytes) (args : CatArgs) (b : Bool) {range : Option Rng}
    (hr : wantedRange s.debug args.offset args.length = .range range) (hb : ¬ (args.timeout.isSome = true ∧ b = true)) :
    (catRest s.fuel ((catFirst mb s args.arg range).eval fetch)).eval fetch = catInner mb { s with fetch := fetch, elapses := b } args := by
  have hl : locate mb { s with fetch := fetch, elapses := b } args.arg args.timeout = locate mb { s with fetch := fetch } args.arg none := by
    unfold locate Served.timedOut
    simp only [Option.isSome_none, Bool.false_and, Bool.false_eq_true, if_false]
    have : (args.timeout.isSome && b) = false := by
      cases hx : args.timeout.isSome <;> cases b <;> simp_all
    rw [this]
    rfl
  unfold catFirst catInner
  dsimp only
  rw [hr]
  dsimp only
  rw [eval_map, locateProg_eval, hl]
  cases locate mb { s with fetch := fetch } args.arg none with
  | running => rfl
  | panic => rfl
  | failed e => rfl
  | «at» c data =>
    dsimp only
    unfold cat
    cases visitStart range data with
    | error x => cases x <;> rfl
    | ok q =>
      obtain ⟨bytes, x1, x2, visit⟩ := q
      cases visit with
      | none => rfl
      | some v =>
        dsimp only [catRest]
        rw [eval_map, catLoopProg_eval]

theorem getRest_eval (mb : UInt8 → Bytes → Option Bytes) (s : Served) (fetch : Cid → Option Bytes) (arg : IpfsPath) (timeout : Option Nat) (b : Bool)
    (hb : ¬ (timeout.isSome = true ∧ b = true)) :
    (getRest s.debug s.fuel ((locateProg mb s arg none).eval fetch)).eval fetch = getInner mb { s with fetch := fetch, elapses := b } arg timeout := by
  have hl : locate mb { s with fetch := fetch, elapses := b } arg timeout = locate mb { s with fetch := fetch } arg none := by
    unfold locate Served.timedOut
    simp only [Option.isSome_none, Bool.false_and, Bool.false_eq_true, if_false]
    have : (timeout.isSome && b) = false := by
      cases hx : timeout.isSome <;> cases b <;> simp_all
    rw [this]
    rfl
  unfold getInner
  dsimp only
  rw [locateProg_eval, hl]
  cases locate mb { s with fetch := fetch } arg none with
  | running => rfl
  | panic => rfl
  | failed e => rfl
  | «at» c data =>
    dsimp only [getRest]
    rw [eval_map, getStreamProg_eval]

/-- The end of what was guarded. -/
theorem guarded_last {w : Arrival} {timeout : Option Nat} {start : Nat} {first : Option (Nat × β)} {elapsed : ρ} {rest : β → Prog ρ} {t : Nat} {r : ρ}
    (h : (guarded w timeout start first elapsed rest).last = some (t, r)) :
    (∃ d, timeout = some d ∧ (∀ t b, first = some (t, b) → start + d < t) ∧ t = start + d ∧ r = elapsed) ∨
    ∃ t1 b, first = some (t1, b) ∧ (∀ d, timeout = some d → t1 ≤ start + d) ∧ (rest b).timed w t1 = some (t, r) := by
  unfold guarded maybeTimeout at h
  cases timeout with
  | none =>
    rcases first with _ | ⟨t1, b⟩
    · cases h
    · exact Or.inr ⟨t1, b, rfl, (by intro d hd; cases hd), h⟩
  | some d =>
    rcases first with _ | ⟨t1, b⟩
    · cases h
      exact Or.inl ⟨d, rfl, (by intro t b hb; cases hb), rfl, rfl⟩
    · by_cases hle : t1 ≤ start + d
      · simp only [hle, if_true] at h
        exact Or.inr ⟨t1, b, rfl, (by rintro _ ⟨⟩; exact hle), h⟩
      · simp only [hle, if_false, Timing.now] at h
        cases h
        exact Or.inl ⟨d, rfl, (by rintro _ _ ⟨⟩; omega), rfl, rfl⟩

/-- The answer is that of the node whose timeout elapses, or does not. -/
def AsUntimed (timeout : Option Nat) (start : Nat) (free : Timing ρ) (answer : Bool → ρ) (r : ρ) : Prop :=
  ∃ b, r = answer b ∧ (b = true ↔ ∃ d, timeout = some d ∧ ¬ BegunBy (start + d) free)

theorem guarded_untimed {w : Arrival} {timeout : Option Nat} {start : Nat} {first : Option (Nat × β)} {elapsed : ρ} {rest : β → Prog ρ} {t : Nat} {r : ρ}
    {answer : Bool → ρ} (h : (guarded w timeout start first elapsed rest).last = some (t, r))
    (he : timeout.isSome = true → answer true = elapsed)
    (hr : ∀ t1 b, first = some (t1, b) → ∀ t r, (rest b).timed w t1 = some (t, r) → r = answer false) :
    AsUntimed timeout start (guarded w none start first elapsed rest) answer r := by
  have hfree : ∀ d, BegunBy (start + d) (guarded w none start first elapsed rest) ↔ ∃ t b, first = some (t, b) ∧ t ≤ start + d := by
    intro d
    unfold BegunBy guarded maybeTimeout
    rcases first with _ | ⟨t1, b⟩
    · constructor
      · rintro ⟨h, hh, -⟩; cases hh
      · rintro ⟨_, _, hh, -⟩; cases hh
    · constructor
      · rintro ⟨h, hh, hle⟩; cases hh; exact ⟨_, _, rfl, hle⟩
      · rintro ⟨_, _, hh, hle⟩; cases hh; exact ⟨_, rfl, hle⟩
  rcases guarded_last h with ⟨d, hd, hlate, -, hre⟩ | ⟨t1, b, hf, hin, hrest⟩
  · refine ⟨true, by rw [hre, he (by rw [hd]; rfl)], ?_⟩
    refine ⟨fun _ => ⟨d, hd, ?_⟩, fun _ => rfl⟩
    rw [hfree]
    rintro ⟨t, b, hb, hle⟩
    have := hlate _ _ hb
    omega
  · refine ⟨false, hr _ _ hf _ _ hrest, ?_⟩
    constructor
    · intro h; cases h
    · rintro ⟨d, hd, hn⟩
      exact absurd ((hfree d).mpr ⟨t1, b, hf, hin d hd⟩) hn

/-- **C96**: whenever blocks come, an answer that is over is the one of the models in which they are there at once and in which it is free whether a
timeout elapses. It elapses exactly when the status would not come in time. -/
theorem C96_answer {w : Arrival} {fetch : Cid → Option Bytes} (hw : Brings w fetch) (mb : UInt8 → Bytes → Option Bytes) (s : Served) (start t : Nat) :
    (∀ (args : CatArgs) r, (catTimed mb s args w start).last = some (t, r) →
      AsUntimed args.timeout start (catTimed mb s { args with timeout := none } w start)
        (fun b => catInner mb { s with fetch := fetch, elapses := b } args) r) ∧
    (∀ arg timeout r, (getTimed mb s arg timeout w start).last = some (t, r) →
      AsUntimed timeout start (getTimed mb s arg none w start) (fun b => getInner mb { s with fetch := fetch, elapses := b } arg timeout) r) ∧
    (∀ (o : ResolveQuery) r, (resolveTimed mb s o w start).last = some (t, r) →
      AsUntimed o.timeout start (resolveTimed mb s { o with timeout := none } w start)
        (fun b => resolveInner mb { s with fetch := fetch, elapses := b } o) r) ∧
    (∀ blockText (o : RefsOptions.RefsOptions Nat) r, (refsTimed blockText mb s o w start).last = some (t, r) →
      AsUntimed o.timeout start (refsTimed blockText mb s { o with timeout := none } w start)
        (fun b => refsInner blockText mb { s with fetch := fetch, elapses := b } o) r) := by
  have hnow : ∀ {ρ : Type} (timeout : Option Nat) (x r : ρ) (answer : Bool → ρ), (Timing.now start x).last = some (t, r) → x = answer false →
      AsUntimed timeout start (Timing.now start x) answer r := by
    intro ρ timeout x r answer h hx
    cases h
    refine ⟨false, hx, ?_⟩
    constructor
    · intro h; cases h
    · rintro ⟨d, -, hn⟩
      exact absurd ⟨start, rfl, by omega⟩ hn
  refine ⟨?_, ?_, ?_, ?_⟩
  · intro args r h
    unfold catTimed at h ⊢
    dsimp only at h ⊢
    cases hr : wantedRange s.debug args.offset args.length with
    | notImplemented =>
      rw [hr] at h
      refine hnow _ _ _ _ h ?_
      simp only [catInner, hr]
    | panic =>
      rw [hr] at h
      refine hnow _ _ _ _ h ?_
      simp only [catInner, hr]
    | range range =>
      rw [hr] at h
      refine guarded_untimed h ?_ ?_
      · intro ht
        simp [catInner, hr, locate, Served.timedOut, ht]
      · intro t1 b hf t2 r2 h2
        rw [timed_eval hw _ _ h2, timed_eval hw _ _ hf, catRest_eval mb s fetch args false hr (by simp)]
  · intro arg timeout r h
    unfold getTimed at h ⊢
    refine guarded_untimed h ?_ ?_
    · intro ht
      simp [getInner, locate, Served.timedOut, ht]
    · intro t1 b hf t2 r2 h2
      rw [timed_eval hw _ _ h2, timed_eval hw _ _ hf, getRest_eval mb s fetch arg timeout false (by simp)]
  · intro o r h
    unfold resolveTimed at h ⊢
    dsimp only at h ⊢
    cases hp : IpfsPath.parse mb o.arg with
    | none =>
      rw [hp] at h
      refine hnow _ _ _ _ h ?_
      simp only [resolveInner, hp]
    | some p =>
      rw [hp] at h
      refine guarded_untimed h ?_ ?_
      · intro ht
        simp [resolveInner, hp, Served.timedOut, ht]
      · intro t1 b hf t2 r2 h2
        have := timed_eval hw _ _ hf
        rw [resolveNodeProg_eval] at this
        cases h2
        have hsame : resolveNode mb { s with fetch := fetch, elapses := false } (!o.localResolve) p =
          resolveNode mb { s with fetch := fetch } (!o.localResolve) p := rfl
        simp only [resolveInner, hp, Served.timedOut, Bool.and_false, Bool.false_eq_true, if_false, hsame, ← this]
        rfl
  · intro blockText o r h
    unfold refsTimed at h ⊢
    dsimp only at h ⊢
    cases hf : RefsFormat.fromOptions o.edges o.format with
    | error e =>
      rw [hf] at h
      refine hnow _ _ _ _ h ?_
      simp only [refsInner, hf]
    | ok f =>
      rw [hf] at h
      dsimp only at h ⊢
      cases hp : parsePaths mb o.arg with
      | error x =>
        rw [hp] at h
        refine hnow _ _ _ _ h ?_
        simp only [refsInner, hf, hp]
      | ok paths =>
        rw [hp] at h
        refine guarded_untimed h ?_ ?_
        · intro ht
          simp [refsInner, hf, hp, Served.timedOut, ht]
        · intro t1 b hb t2 r2 h2
          have := rootsTimed_eval hw _ _ _ _ _ hb
          have hsame : refsRoots mb { s with fetch := fetch, elapses := false } paths = refsRoots mb { s with fetch := fetch } paths := by
            have : ∀ l, refsRoots mb { s with fetch := fetch, elapses := false } l = refsRoots mb { s with fetch := fetch } l := by
              intro l
              induction l with
              | nil => rfl
              | cons p l ih => unfold refsRoots; rw [ih]; rfl
            exact this _
          rw [timed_eval hw _ _ h2]
          simp only [refsInner, hf, hp, Served.timedOut, Bool.and_false, Bool.false_eq_true, if_false, hsame, ← this]
          cases b with
          | failed e => rfl
          | panic => rfl
          | running => rfl
          | ok docs => dsimp only; rw [refsRest_eval]; rfl

/-- **C96**: the same about the DHT, when the node answers. -/
theorem C96_dht {γ : Type} (timeout : Option Nat) (t1 : Nat) (x : DhtRes γ) (reply : γ → Json) (start t : Nat) (r : NodeReply)
    (h : (dhtTimed timeout (some (t1, x)) reply start).last = some (t, r)) :
    AsUntimed timeout start (dhtTimed none (some (t1, x)) reply start) (fun b => awaited timeout b x reply) r := by
  unfold dhtTimed at h ⊢
  refine guarded_untimed h ?_ ?_
  · intro ht
    obtain ⟨d, rfl⟩ := Option.isSome_iff_exists.mp ht
    rfl
  · rintro _ _ ⟨⟩ t2 r2 h2
    cases h2
    cases timeout <;> rfl

/-- **C96**: the same about the requests of `bootstrap`: with a timeout they are over in time, and an answer is that of a request that is answered in
time or whose timeout elapses, whether or not what was asked for happens all the same. -/
theorem C96_bootstrap {S γ : Type} (s s' : S) (x : γ) (reply : γ → BootReply) (start : Nat) :
    (∀ d (answer : Option (Nat × γ)), OverBy (start + d) (bootTimed (some d) answer reply start)) ∧
    ∀ timeout t1 t r handled, (bootTimed timeout (some (t1, x)) reply start).last = some (t, r) →
      AsUntimed timeout start (bootTimed none (some (t1, x)) reply start)
        (fun b => (withFate timeout (if b then .elapses handled else .inTime) s (s', x) reply).2) r := by
  refine ⟨fun d answer => (guarded_cutOff _ _ _ _ _ _).over (guarded_oneTime _ _ _ _ _ _), ?_⟩
  intro timeout t1 t r handled h
  unfold bootTimed at h ⊢
  refine guarded_untimed h ?_ ?_
  · intro ht
    obtain ⟨d, rfl⟩ := Option.isSome_iff_exists.mp ht
    rfl
  · rintro _ _ ⟨⟩ t2 r2 h2
    cases h2
    rfl

/-- An answer after three, with timeouts of two and of three. -/
example : (bootTimed (some 2) (some (8, [])) BootReply.peers 5).last = some (7, .failed .elapsed) ∧
    (bootTimed (some 3) (some (8, [])) BootReply.peers 5).last = some (8, .peers []) := ⟨rfl, rfl⟩

/-! ### Where it is not so -/

theorem late_load {w : Arrival} {n : Nat} {c : Cid} (h : LaterThan w n c) (k : Repo.Block → Prog α) (e : Prog α) (start t : Nat) (r : α)
    (ht : (Prog.load c k e).timed w start = some (t, r)) : start + n < t := by
  simp only [Prog.timed] at ht
  rcases hw : w start c with _ | ⟨m, _ | data⟩ <;> rw [hw] at ht
  · cases ht
  · have h1 := h _ _ _ hw; have h2 := timed_ge _ _ _ ht; omega
  · have h1 := h _ _ _ hw; have h2 := timed_ge _ _ _ ht; omega

theorem guarded_near (w : Arrival) (timeout : Option Nat) (start : Nat) (b : β) (elapsed : ρ) (rest : β → Prog ρ) :
    guarded w timeout start (some (start, b)) elapsed rest = ⟨some start, (rest b).timed w start⟩ := by
  unfold guarded maybeTimeout
  cases timeout <;> simp

/-- **C96**, where it fails: `cat` with any timeout. Where the blocks up to the file are at hand and the next one is not heard of for longer than any given
time, the status is sent and the answer is not over by then. -/
theorem C96_cat_late {w : Arrival} {near : Cid → Option Bytes} (hw : AtOnce w near) (mb : UInt8 → Bytes → Option Bytes) (s : Served) (args : CatArgs)
    {range : Option Rng} (hr : wantedRange s.debug args.offset args.length = .range range) {c : Cid} {data : Bytes}
    (hl : locate mb { s with fetch := near } args.arg none = .at c data) {bytes : Bytes} {size : Nat} {m : Metadata} {v : Visit}
    (hv : visitStart range data = .ok (bytes, size, m, some v)) {next : Cid} {x : Rng} {more : List (Cid × Rng)}
    (hn : v.pending = (next, x) :: more) (hfuel : s.fuel ≠ 0) {n : Nat} (hlate : LaterThan w n next) (start : Nat) :
    (catTimed mb s args w start).head = some start ∧ ¬ OverBy (start + n) (catTimed mb s args w start) := by
  rw [← locateProg_eval] at hl
  have hf : (catFirst mb s args.arg range).timed w start = some (start, .ok (if bytes.isEmpty then [] else [bytes], some v)) := by
    unfold catFirst
    rw [timed_map, timed_near hw _ (locateProg_there _ _ _ _ _ hl), hl]
    simp [hv]
  have he : catTimed mb s args w start =
      ⟨some start, (catRest s.fuel (.ok (if bytes.isEmpty then [] else [bytes], some v))).timed w start⟩ := by
    unfold catTimed
    rw [hr]
    dsimp only
    rw [hf, guarded_near]
  rw [he]
  refine ⟨rfl, ?_⟩
  rintro ⟨t, r, ht, hle⟩
  dsimp only [catRest] at ht
  rw [timed_map] at ht
  simp only [Option.map_eq_some_iff, Prod.mk.injEq] at ht
  obtain ⟨⟨t', r'⟩, ht, rfl, -⟩ := ht
  obtain ⟨fuel, hfu⟩ := Nat.exists_eq_succ_of_ne_zero hfuel
  rw [hfu] at ht
  unfold catLoopProg at ht
  rw [hn] at ht
  have := late_load hlate _ _ _ _ _ ht
  dsimp only at hle
  omega

/-- **C96**, where it fails: `get` with any timeout, in the same way. -/
theorem C96_get_late {w : Arrival} {near : Cid → Option Bytes} (hw : AtOnce w near) (mb : UInt8 → Bytes → Option Bytes) (s : Served) (arg : IpfsPath)
    (timeout : Option Nat) {c : Cid} {data : Bytes} (hl : locate mb { s with fetch := near } arg none = .at c data) {item : WItem} {wk : Walker}
    (hs : (Walker.new s.debug c c.toText).step data = .ok (item, wk)) {th : TarHelper} {chunks : List Bytes}
    (hi : (TarHelper.withCapacity (16 * 1024)).item item = .ok (th, chunks)) (hc : wk.shouldContinue = true) {next : Cid}
    (hn : wk.wanted = some next) (hfuel : s.fuel ≠ 0) {n : Nat} (hlate : LaterThan w n next) (start : Nat) :
    (getTimed mb s arg timeout w start).head = some start ∧ ¬ OverBy (start + n) (getTimed mb s arg timeout w start) := by
  rw [← locateProg_eval] at hl
  unfold getTimed
  rw [timed_near hw _ (locateProg_there _ _ _ _ _ hl), hl, guarded_near]
  refine ⟨rfl, ?_⟩
  rintro ⟨t, r, ht, hle⟩
  dsimp only [getRest] at ht
  rw [timed_map] at ht
  simp only [Option.map_eq_some_iff, Prod.mk.injEq] at ht
  obtain ⟨⟨t', r'⟩, ht, rfl, -⟩ := ht
  obtain ⟨fuel, hfu⟩ := Nat.exists_eq_succ_of_ne_zero hfuel
  unfold getStreamProg at ht
  simp only [hs, hi, hfu] at ht
  unfold walkProg at ht
  simp only [hc, if_true, hn] at ht
  have := late_load hlate _ _ _ _ _ ht
  dsimp only at hle
  omega

/-- **C96**, where it fails: `refs` with any timeout, when the block of the first link is late. -/
theorem C96_refs_late {w : Arrival} {near : Cid → Option Bytes} (hw : AtOnce w near) (blockText : BlockErr → Bytes) (mb : UInt8 → Bytes → Option Bytes)
    (s : Served) (o : RefsOptions.RefsOptions Nat) {f : RefsFormat.Formatter} (hf : RefsFormat.fromOptions o.edges o.format = .ok f)
    {paths : List IpfsPath} (hp : parsePaths mb o.arg = .ok paths) {docs : List (Cid × Ipld)}
    (hd : refsRoots mb { s with fetch := near } paths = .ok docs) {roots : List (Cid × List (Option Bytes × Cid))} (hro : rootLinks docs = some roots)
    {first : Refs.Work} {work : List Refs.Work} (hq : (Refs.enqueueRoots o.unique roots []).1 = first :: work)
    (ht : Refs.traverse s.debug o.depth first.depth = .go) (hfuel : s.fuel ≠ 0) {n : Nat} (hlate : LaterThan w n first.edge.destination) (start : Nat) :
    (refsTimed blockText mb s o w start).head = some start ∧ ¬ OverBy (start + n) (refsTimed blockText mb s o w start) := by
  have h0 : o.depth ≠ some 0 := by
    intro h
    rw [h] at ht
    simp [Refs.traverse] at ht
  unfold refsTimed
  rw [hf]
  dsimp only
  rw [hp]
  dsimp only
  rw [rootsTimed_near hw mb s start paths hd, guarded_near]
  refine ⟨rfl, ?_⟩
  rintro ⟨t, r, hx, hle⟩
  dsimp only [refsRest] at hx
  rw [if_neg h0, hro] at hx
  dsimp only at hx
  rw [timed_map] at hx
  simp only [Option.map_eq_some_iff, Prod.mk.injEq] at hx
  obtain ⟨⟨t', r'⟩, hx, rfl, -⟩ := hx
  obtain ⟨fuel, hfu⟩ := Nat.exists_eq_succ_of_ne_zero hfuel
  unfold refsProg at hx
  simp only [h0, if_false, hq, hfu] at hx
  unfold refsLoopProg at hx
  simp only [ht] at hx
  have := late_load hlate _ _ _ _ _ hx
  dsimp only at hle
  omega

/-- A path whose result does not end the others. -/
def PathGood (mb : UInt8 → Bytes → Option Bytes) (s : Served) (w : Arrival) (start : Nat) (p : IpfsPath) : Prop :=
  ∃ t node rem, (resolveNodeProg mb s true p).timed w start = some (t, some (.ok (node, rem))) ∧
    ((∃ c d, rootDoc s.env s.size node = .doc c d) ∨ rootDoc s.env s.size node = .noLinks)

/-- When a path is resolved. -/
def PathAt (mb : UInt8 → Bytes → Option Bytes) (s : Served) (w : Arrival) (start : Nat) (p : IpfsPath) (t : Nat) : Prop :=
  ∃ r, (resolveNodeProg mb s true p).timed w start = some (t, r)

theorem rootsTimed_when (mb : UInt8 → Bytes → Option Bytes) (s : Served) (w : Arrival) (start : Nat) (ps : List IpfsPath) (t : Nat) {t' : Nat} {r : Roots}
    (h : rootsTimed mb s w start ps t = some (t', r)) :
    ∃ done rest, ps = done ++ rest ∧ t ≤ t' ∧ (∀ p ∈ done, ∃ n, PathAt mb s w start p n ∧ n ≤ t') ∧
      (t' = t ∨ ∃ p ∈ done, PathAt mb s w start p t') ∧
      ((rest = [] ∧ (∀ p ∈ done, PathGood mb s w start p)) ∨
        (∃ good bad, done = good ++ [bad] ∧ (∀ p ∈ good, PathGood mb s w start p) ∧ ¬ PathGood mb s w start bad)) := by
  induction ps generalizing t t' r with
  | nil =>
    cases h
    exact ⟨[], [], rfl, Nat.le_refl _, (by intro p hp; cases hp), Or.inl rfl, Or.inl ⟨rfl, by intro p hp; cases hp⟩⟩
  | cons p ps ih =>
    unfold rootsTimed at h
    cases hp : (resolveNodeProg mb s true p).timed w start with
    | none => rw [hp] at h; cases h
    | some x =>
      obtain ⟨t1, r1⟩ := x
      rw [hp] at h
      dsimp only at h
      have hat : PathAt mb s w start p t1 := ⟨r1, hp⟩
      have hbad : ∀ r', some (max t t1, r') = some (t', r) → ¬ PathGood mb s w start p →
          ∃ done rest, p :: ps = done ++ rest ∧ t ≤ t' ∧ (∀ p ∈ done, ∃ n, PathAt mb s w start p n ∧ n ≤ t') ∧
            (t' = t ∨ ∃ p ∈ done, PathAt mb s w start p t') ∧
            ((rest = [] ∧ (∀ p ∈ done, PathGood mb s w start p)) ∨
              (∃ good bad, done = good ++ [bad] ∧ (∀ p ∈ good, PathGood mb s w start p) ∧ ¬ PathGood mb s w start bad)) := by
        intro r' he hn
        cases he
        refine ⟨[p], ps, rfl, Nat.le_max_left _ _, ?_, ?_, Or.inr ⟨[], p, rfl, (by intro q hq; cases hq), hn⟩⟩
        · intro q hq
          rw [List.mem_singleton] at hq
          subst hq
          exact ⟨t1, hat, Nat.le_max_right _ _⟩
        · by_cases hle : t1 ≤ t
          · left; omega
          · right
            refine ⟨p, List.mem_singleton.mpr rfl, ?_⟩
            rw [Nat.max_eq_right (by omega)]
            exact hat
      have hgood : PathGood mb s w start p → ∀ r', rootsTimed mb s w start ps (max t t1) = some (t', r') →
          ∃ done rest, p :: ps = done ++ rest ∧ t ≤ t' ∧ (∀ p ∈ done, ∃ n, PathAt mb s w start p n ∧ n ≤ t') ∧
            (t' = t ∨ ∃ p ∈ done, PathAt mb s w start p t') ∧
            ((rest = [] ∧ (∀ p ∈ done, PathGood mb s w start p)) ∨
              (∃ good bad, done = good ++ [bad] ∧ (∀ p ∈ good, PathGood mb s w start p) ∧ ¬ PathGood mb s w start bad)) := by
        intro hg r' hr
        obtain ⟨done, rest, rfl, h1, h2, h3, h4⟩ := ih _ hr
        refine ⟨p :: done, rest, rfl, by omega, ?_, ?_, ?_⟩
        · intro q hq
          rcases List.mem_cons.mp hq with rfl | hq
          · exact ⟨t1, hat, by omega⟩
          · exact h2 q hq
        · rcases h3 with h3 | ⟨q, hq, h3⟩
          · by_cases hle : t1 ≤ t
            · left; omega
            · right
              refine ⟨p, List.mem_cons_self, ?_⟩
              rw [h3, Nat.max_eq_right (by omega)]
              exact hat
          · exact Or.inr ⟨q, List.mem_cons_of_mem _ hq, h3⟩
        · rcases h4 with ⟨hr, h4⟩ | ⟨good, bad, rfl, h4, h5⟩
          · refine Or.inl ⟨hr, ?_⟩
            intro q hq
            rcases List.mem_cons.mp hq with rfl | hq
            · exact hg
            · exact h4 q hq
          · refine Or.inr ⟨p :: good, bad, rfl, ?_, h5⟩
            intro q hq
            rcases List.mem_cons.mp hq with rfl | hq
            · exact hg
            · exact h4 q hq
      have hnot : (∀ node rem, r1 = some (.ok (node, rem)) → (∀ c d, rootDoc s.env s.size node ≠ .doc c d) ∧ rootDoc s.env s.size node ≠ .noLinks) →
          ¬ PathGood mb s w start p := by
        rintro hx ⟨t2, node, rem, h2, h3⟩
        rw [hp] at h2
        cases h2
        rcases h3 with ⟨c, d, h3⟩ | h3
        · exact (hx node rem rfl).1 c d h3
        · exact (hx node rem rfl).2 h3
      split at h
      · exact hbad _ h (hnot (by intro _ _ h; cases h))
      · exact hbad _ h (hnot (by intro _ _ h; cases h))
      · exact hbad _ h (hnot (by intro _ _ h; cases h))
      · rename_i node rem
        cases hd : rootDoc s.env s.size node with
        | panic => rw [hd] at h; exact hbad _ h (hnot (by intro _ _ h; cases h; rw [hd]; exact ⟨(by intro _ _ h; cases h), (by intro h; cases h)⟩))
        | failed e => rw [hd] at h; exact hbad _ h (hnot (by intro _ _ h; cases h; rw [hd]; exact ⟨(by intro _ _ h; cases h), (by intro h; cases h)⟩))
        | noLinks => rw [hd] at h; exact hgood ⟨t1, node, rem, hp, Or.inr hd⟩ _ h
        | doc c d =>
          rw [hd] at h
          simp only [Option.map_eq_some_iff, Prod.mk.injEq] at h
          obtain ⟨⟨t2, r2⟩, h1, rfl, -⟩ := h
          exact hgood ⟨t1, node, rem, hp, Or.inl ⟨c, d, hd⟩⟩ _ h1

/-- **C96**: the paths of `refs` are resolved at the same time. Without a timeout the status is sent as soon as all of them are, or as soon as the first
that fails and those before it are; it waits for no other. -/
theorem C96_refs_when (blockText : BlockErr → Bytes) (mb : UInt8 → Bytes → Option Bytes) (s : Served) (o : RefsOptions.RefsOptions Nat)
    (ho : o.timeout = none) {f : RefsFormat.Formatter} (hf : RefsFormat.fromOptions o.edges o.format = .ok f) {paths : List IpfsPath}
    (hp : parsePaths mb o.arg = .ok paths) (w : Arrival) (start : Nat) {t : Nat} (h : (refsTimed blockText mb s o w start).head = some t) :
    ∃ done rest, paths = done ++ rest ∧ start ≤ t ∧ (∀ p ∈ done, ∃ n, PathAt mb s w start p n ∧ n ≤ t) ∧
      (t = start ∨ ∃ p ∈ done, PathAt mb s w start p t) ∧
      ((rest = [] ∧ (∀ p ∈ done, PathGood mb s w start p)) ∨
        (∃ good bad, done = good ++ [bad] ∧ (∀ p ∈ good, PathGood mb s w start p) ∧ ¬ PathGood mb s w start bad)) := by
  unfold refsTimed at h
  rw [hf] at h
  dsimp only at h
  rw [hp] at h
  dsimp only at h
  rw [ho] at h
  unfold guarded maybeTimeout at h
  dsimp only at h
  rcases hr : rootsTimed mb s w start paths start with _ | ⟨t1, r⟩
  · rw [hr] at h; cases h
  · rw [hr] at h
    cases h
    exact rootsTimed_when mb s w start paths start hr

/-- **C96**, where it fails: a timeout makes no difference to a request to pin. -/
theorem C96_pin_ignored {σ ε : Type} (q : QueryEnv) (env : Pin.PinEnv) (st : Pin.PinStore σ ε) (order : List Cid → List Cid) (s : RepoState σ) (a b : Bytes)
    (h : (formPairs q.lossy a).filter (fun p => p.1 ≠ kTimeout) = (formPairs q.lossy b).filter (fun p => p.1 ≠ kTimeout)) :
    pinAdd q env st order s (some a) = pinAdd q env st order s (some b) := by
  have hk : kTimeout ≠ kArg ∧ kTimeout ≠ kRecursive ∧ kTimeout ≠ kProgress := by decide +kernel
  have hloop : ∀ (l : List (Bytes × Bytes)) (v : AddVars), pairLoop (addStep q.mb) v l = pairLoop (addStep q.mb) v (l.filter (fun p => p.1 ≠ kTimeout)) := by
    intro l
    induction l with
    | nil => intro v; rfl
    | cons p l ih =>
      intro v
      by_cases hp : p.1 = kTimeout
      · have : addStep q.mb v p = .ok v := by simp [addStep, hp, hk]
        rw [List.filter_cons_of_neg (by simp [hp]), pairLoop, this]
        exact ih v
      · rw [List.filter_cons_of_pos (by simp [hp]), pairLoop, pairLoop]
        cases addStep q.mb v p with
        | error e => rfl
        | ok v' => exact ih v'
  have hreq : addRequest q a = addRequest q b := by
    unfold addRequest
    rw [hloop, h, ← hloop]
  simp only [pinAdd, hreq]

/-! ### Examples -/

/-- Some blocks of the form are at hand, and the others come after a time. -/
def nearForm (k : Nat) : Cid → Option Bytes := fun c => (formBlocks.drop k).lookup c

def formArrival (k n : Nat) : Arrival := fun _ c =>
  match nearForm k c with
  | some d => some (0, some d)
  | none => some (n, formBlocks.lookup c)

theorem formArrival_atOnce (k n : Nat) : AtOnce (formArrival k n) (nearForm k) := by
  intro t c d h
  simp only [formArrival, h]

theorem formArrival_late (k n : Nat) (c : Cid) (h : nearForm k c = none) : LaterThan (formArrival k (n + 1)) n c := by
  intro t m r hr
  simp only [formArrival, h] at hr
  cases hr
  omega

/-- The blocks, the directory last. -/
def formCid (i : UInt8) : Cid := Cid.v0 (i :: List.replicate 31 0)

def fileArgs (timeout : Option Nat) : CatArgs := ⟨⟨.ipld netTop, ["a b".toUTF8.toList]⟩, none, none, timeout⟩

def visitNext (r : Except ReadFail (Bytes × Nat × Metadata × Option Visit)) : Option Cid :=
  match r with
  | .ok (_, _, _, some v) => v.pending.head?.map Prod.fst
  | _ => none

/-- `C96_cat_late` applies: the leaves of the file are not there yet, and with any timeout the answer takes as long as they do. -/
example (d n : Nat) : (catTimed (fun _ _ => none) netServed (fileArgs (some d)) (formArrival 2 (n + 1)) 5).head = some 5 ∧
    ¬ OverBy (5 + n) (catTimed (fun _ _ => none) netServed (fileArgs (some d)) (formArrival 2 (n + 1)) 5) := by
  have h : visitNext (visitStart none ((formBlocks.map Prod.snd).getD 2 [])) = some (formCid 0) := by decide +kernel
  unfold visitNext at h
  split at h
  · rename_i bytes size m v hv
    cases hp : v.pending with
    | nil => rw [hp] at h; cases h
    | cons x more =>
      rw [hp] at h
      obtain ⟨next, rng⟩ := x
      cases h
      exact C96_cat_late (formArrival_atOnce 2 (n + 1)) _ netServed (fileArgs (some d)) (range := none) (c := formCid 2)
        (data := (formBlocks.map Prod.snd).getD 2 []) rfl (by show locate _ _ (fileArgs none).arg none = _; decide +kernel) hv hp (by decide)
        (formArrival_late 2 n _ (by decide +kernel)) 5
  · cases h

def walkNext (c : Cid) (data : Bytes) : Option Cid :=
  match (Walker.new true c c.toText).step data with
  | .ok (item, w) =>
    match (TarHelper.withCapacity (16 * 1024)).item item with
    | .ok _ => if w.shouldContinue then w.wanted else none
    | _ => none
  | _ => none

/-- `C96_get_late` applies. -/
example (d n : Nat) : (getTimed (fun _ _ => none) netServed ⟨.ipld netTop, []⟩ (some d) (formArrival 3 (n + 1)) 5).head = some 5 ∧
    ¬ OverBy (5 + n) (getTimed (fun _ _ => none) netServed ⟨.ipld netTop, []⟩ (some d) (formArrival 3 (n + 1)) 5) := by
  have h : walkNext netTop ((formBlocks.map Prod.snd).getD 3 []) = some (formCid 2) := by decide +kernel
  unfold walkNext at h
  split at h
  · rename_i item w hs
    split at h
    · rename_i x hx
      obtain ⟨th, chunks⟩ := x
      split at h
      · rename_i hc
        exact C96_get_late (formArrival_atOnce 3 (n + 1)) _ netServed ⟨.ipld netTop, []⟩ (some d) (c := netTop)
          (data := (formBlocks.map Prod.snd).getD 3 []) (by decide +kernel) hs hx hc h (by decide)
          (formArrival_late 3 n _ (by decide +kernel)) 5
      · cases h
    · cases h
  · cases h

def refsNext (near : Cid → Option Bytes) (paths : List IpfsPath) : Option (Cid × Nat) :=
  match refsRoots (fun _ _ => none) { netServed with fetch := near } paths with
  | .ok docs =>
    match rootLinks docs with
    | some roots => (Refs.enqueueRoots false roots []).1.head?.map (fun w => (w.edge.destination, w.depth))
    | none => none
  | _ => none

/-- `C96_refs_late` applies. -/
example (d n : Nat) : let o : RefsOptions.RefsOptions Nat := ⟨["/ipfs/".toUTF8.toList ++ netTop.toText], none, false, false, true, none, some d⟩
    (refsTimed (fun _ => []) (fun _ _ => none) netServed o (formArrival 3 (n + 1)) 5).head = some 5 ∧
    ¬ OverBy (5 + n) (refsTimed (fun _ => []) (fun _ _ => none) netServed o (formArrival 3 (n + 1)) 5) := by
  have h : refsNext (nearForm 3) [⟨.ipld netTop, []⟩] = some (formCid 2, 0) := by decide +kernel
  unfold refsNext at h
  split at h
  · rename_i docs hd
    split at h
    · rename_i roots hr
      cases hq : (Refs.enqueueRoots false roots []).1 with
      | nil => rw [hq] at h; cases h
      | cons first work =>
        rw [hq] at h
        simp only [List.head?_cons, Option.map_some, Option.some.injEq, Prod.mk.injEq] at h
        exact C96_refs_late (formArrival_atOnce 3 (n + 1)) _ _ netServed _ rfl (paths := [⟨.ipld netTop, []⟩])
          (by show parsePaths _ ["/ipfs/".toUTF8.toList ++ netTop.toText] = _; decide +kernel) hd hr hq
          (by rw [h.2]; rfl) (by decide) (by rw [h.1]; exact formArrival_late 3 n _ (by decide +kernel)) 5
    · cases h
  · cases h

/-- What comes of a timeout: the whole file in time, its status in time and the rest later, and the error. -/
example : (catTimed (fun _ _ => none) netServed (fileArgs (some 9)) (formArrival 2 3) 5).last.map Prod.fst = some 11 ∧
    (catTimed (fun _ _ => none) netServed (fileArgs (some 9)) (formArrival 2 30) 5).last.map Prod.fst = some 65 ∧
    (catTimed (fun _ _ => none) netServed (fileArgs (some 9)) (formArrival 4 30) 5).last.map Prod.fst = some 14 ∧
    (catTimed (fun _ _ => none) netServed (fileArgs (some 9)) (formArrival 4 4) 5).head = some 13 := by decide +kernel

/-- All blocks are on their way. -/
example : Brings (formArrival 4 7) (fun c => formBlocks.lookup c) := by
  have h4 : formBlocks.drop 4 = [] := by decide +kernel
  intro t c n r h
  simp only [formArrival, nearForm, h4, List.lookup_nil] at h
  cases h
  rfl

/-- `C96_refs_when` applies: of two paths the second takes longer, and the status waits for it. -/
example : let o : RefsOptions.RefsOptions Nat := ⟨["/ipfs/".toUTF8.toList ++ netTop.toText, "/ipfs/".toUTF8.toList ++ (formCid 2).toText], none, false, false,
      true, none, none⟩
    (refsTimed (fun _ => []) (fun _ _ => none) netServed o (formArrival 3 7) 5).head = some 12 := by decide +kernel

end Verif.Props
