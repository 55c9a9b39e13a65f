import Verif.Net.Readers
import Verif.Props.NetFile
import Verif.Props.Get

/-!
# C89: everything that reads blocks gives over the network what it gives where the blocks are
-/

namespace Verif.Props

open Verif Verif.Repo Verif.Repo.Subs Verif.Bitswap Verif.Net Verif.Unixfs Verif.Ipfs Verif.Ipld Verif.Http
open Verif.Bitswap.Bitswap

variable {P : Type} [DecidableEq P] {α β : Type}

/-! ### Specification -/

/-- The number of blocks a program loads, if they are all there. -/
def needs (fetch : Cid → Option Bytes) : Prog α → Option Nat
  | .ret _ => some 0
  | .load c k _ =>
    match fetch c with
    | some d => (needs fetch (k ⟨c, d⟩)).map (· + 1)
    | none => none

/-- The blocks that a program loads are all there. -/
def BlocksThere (fetch : Cid → Option Bytes) (p : Prog α) : Prop := ∃ n, needs fetch p = some n

/-- The future of the program is nobody else's. -/
def NotMine (x : P) (l : Loader α) (e : NetEv P) : Prop := ∀ i, l.wait = some i → e ≠ .await x i ∧ e ≠ .drop x i

/-- A program at `x` and everything else, in any order. The number counts how often the program went on and got further. -/
inductive LoadRun (H : Hashes) (debug : Bool) (ok : NetSt P → NetEv P → NetSt P → Prop) (x : P) (s0 : NetSt P) (p0 : Prog α) :
    Nat → NetSt P → Loader α → Prop
  | refl : LoadRun H debug ok x s0 p0 0 s0 ⟨p0, none⟩
  | other {k : Nat} {s s' : NetSt P} {l : Loader α} (e : NetEv P) : LoadRun H debug ok x s0 p0 k s l → NotMine x l e → ok s e s' →
      s.step H debug e = some s' → LoadRun H debug ok x s0 p0 k s' l
  | further {k : Nat} {s : NetSt P} {l : Loader α} : LoadRun H debug ok x s0 p0 k s l → (l.go x s).2 ≠ l →
      LoadRun H debug ok x s0 p0 (k + 1) (l.go x s).1 (l.go x s).2
  | again {k : Nat} {s : NetSt P} {l : Loader α} : LoadRun H debug ok x s0 p0 k s l → (l.go x s).2 = l →
      LoadRun H debug ok x s0 p0 k (l.go x s).1 l

/-! ### Helpers: programs -/

theorem eval_bind {fetch : Cid → Option Bytes} (f : α → Prog β) (p : Prog α) : (p.bind f).eval fetch = (f (p.eval fetch)).eval fetch := by
  induction p with
  | ret a => rfl
  | load c k e ih1 ih2 =>
    simp only [Prog.bind, Prog.eval]
    cases fetch c with
    | none => exact ih2
    | some d => exact ih1 _

theorem eval_map {fetch : Cid → Option Bytes} (f : α → β) (p : Prog α) : (p.map f).eval fetch = f (p.eval fetch) := eval_bind _ p

theorem blocksThere_ret {fetch : Cid → Option Bytes} (a : α) : BlocksThere fetch (.ret a) := ⟨0, rfl⟩

theorem blocksThere_load {fetch : Cid → Option Bytes} {c : Cid} {k : Repo.Block → Prog α} {e : Prog α} {d : Bytes} (hd : fetch c = some d)
    (h : BlocksThere fetch (k ⟨c, d⟩)) : BlocksThere fetch (.load c k e) := by
  obtain ⟨n, hn⟩ := h
  exact ⟨n + 1, by simp [needs, hd, hn]⟩

theorem blocksThere_bind {fetch : Cid → Option Bytes} {f : α → Prog β} {p : Prog α} (h : BlocksThere fetch p) (hf : BlocksThere fetch (f (p.eval fetch))) :
    BlocksThere fetch (p.bind f) := by
  induction p with
  | ret a => exact hf
  | load c k e ih1 ih2 =>
    obtain ⟨n, hn⟩ := h
    simp only [needs] at hn
    cases hd : fetch c with
    | none => rw [hd] at hn; cases hn
    | some d =>
      rw [hd] at hn
      obtain ⟨m, hm, -⟩ := Option.map_eq_some_iff.mp hn
      simp only [Prog.eval, hd] at hf
      exact blocksThere_load hd (ih1 _ ⟨m, hm⟩ hf)

theorem blocksThere_map {fetch : Cid → Option Bytes} {f : α → β} {p : Prog α} (h : BlocksThere fetch p) : BlocksThere fetch (p.map f) :=
  blocksThere_bind h (blocksThere_ret _)

/-! ### Helpers: the programs are the functions -/

theorem feedProg_eval (fetch : Cid → Option Bytes) (needle : Bytes) (fuel : Nat) (queue : List Cid) :
    (feedProg needle fuel queue).eval fetch = feed fetch needle fuel queue := by
  induction fuel generalizing queue with
  | zero => rfl
  | succ fuel ih =>
    cases queue with
    | nil => rfl
    | cons c queue =>
      simp only [feedProg, feed, Prog.eval]
      cases fetch c with
      | none => rfl
      | some d =>
        dsimp only
        rcases continueWalk needle queue d with e | (c | q | _)
        · rfl
        · rfl
        · exact ih q
        · rfl

theorem feedProg_there (fetch : Cid → Option Bytes) (needle : Bytes) (fuel : Nat) (queue : List Cid)
    (h : ∀ c, (feedProg needle fuel queue).eval fetch ≠ .missing c) : BlocksThere fetch (feedProg needle fuel queue) := by
  induction fuel generalizing queue with
  | zero => exact blocksThere_ret _
  | succ fuel ih =>
    cases queue with
    | nil => exact blocksThere_ret _
    | cons c queue =>
      simp only [feedProg, Prog.eval] at h ⊢
      cases hf : fetch c with
      | none => rw [hf] at h; exact absurd rfl (h c)
      | some d =>
        rw [hf] at h
        refine blocksThere_load hf ?_
        dsimp only at h ⊢
        rcases hw : continueWalk needle queue d with e | (c | q | _)
        · exact blocksThere_ret _
        · exact blocksThere_ret _
        · rw [hw] at h
          exact ih q h
        · exact blocksThere_ret _

theorem resolveProg_eval (e : Env) (size : Nat) (fetch : Cid → Option Bytes) (follow : Bool) (fuel : Nat) (c : Cid) (segs : List Bytes) (total : Nat) :
    (resolveProg e size follow fuel c segs total).eval fetch = resolve0 e size fetch follow fuel c segs total := by
  induction fuel generalizing c segs total with
  | zero => rfl
  | succ fuel ih =>
    simp only [resolveProg, resolve0, Prog.eval]
    cases fetch c with
    | none => rfl
    | some d =>
      dsimp only
      cases hr : resolveLocal e size c d segs with
      | error x => rfl
      | ok q =>
        obtain ⟨r, matched, rest⟩ := q
        cases r with
        | incomplete src needle queue =>
          dsimp only
          rw [eval_bind, feedProg_eval]
          cases hfd : feed fetch needle fuel queue with
          | found dest =>
            dsimp only
            split
            · exact ih _ _ _
            · rfl
          | failed x =>
            cases x with
            | lookup y => cases y <;> rfl
            | _ => rfl
          | _ => rfl
        | complete n =>
          cases n with
          | link src dest =>
            dsimp only
            split
            · exact ih _ _ _
            · rfl
          | _ => rfl

theorem resolveProg_there (e : Env) (size : Nat) (fetch : Cid → Option Bytes) (follow : Bool) (fuel : Nat) (c : Cid) (segs : List Bytes) (total : Nat)
    {x : Node × Nat} (h : (resolveProg e size follow fuel c segs total).eval fetch = some (.ok x)) :
    BlocksThere fetch (resolveProg e size follow fuel c segs total) := by
  induction fuel generalizing c segs total with
  | zero => exact blocksThere_ret _
  | succ fuel ih =>
    simp only [resolveProg, Prog.eval] at h ⊢
    cases hf : fetch c with
    | none => rw [hf] at h; simp at h
    | some d =>
      rw [hf] at h
      refine blocksThere_load hf ?_
      dsimp only at h ⊢
      cases hr : resolveLocal e size c d segs with
      | error x => exact blocksThere_ret _
      | ok q =>
        obtain ⟨r, matched, rest⟩ := q
        rw [hr] at h
        cases r with
        | incomplete src needle queue =>
          dsimp only at h ⊢
          rw [eval_bind] at h
          refine blocksThere_bind (feedProg_there _ _ _ _ ?_) ?_
          · intro c' hc'
            rw [hc'] at h
            simp [Prog.eval] at h
          · cases hfd : (feedProg needle fuel queue).eval fetch with
            | found dest =>
              rw [hfd] at h
              dsimp only at h ⊢
              split
              · rename_i hfo
                rw [if_pos hfo] at h
                exact ih _ _ _ h
              · exact blocksThere_ret _
            | failed x =>
              cases x with
              | lookup y => cases y <;> exact blocksThere_ret _
              | _ => exact blocksThere_ret _
            | _ => exact blocksThere_ret _
        | complete n =>
          cases n with
          | link src dest =>
            dsimp only at h ⊢
            split
            · rename_i hfo
              rw [if_pos hfo] at h
              exact ih _ _ _ h
            · exact blocksThere_ret _
          | _ => exact blocksThere_ret _

theorem dagGetProg_eval (e : Env) (size : Nat) (fetch : Cid → Option Bytes) (fuel : Nat) (c : Cid) (path : List Bytes) :
    (dagGetProg e size fuel c path).eval fetch = dagGet e size fetch fuel c path := by
  unfold dagGetProg dagGet
  rw [eval_map, resolveProg_eval]
  rfl

theorem dagResolveProg_eval (e : Env) (size : Nat) (fetch : Cid → Option Bytes) (follow : Bool) (fuel : Nat) (c : Cid) (path : List Bytes) :
    (dagResolveProg e size follow fuel c path).eval fetch = dagResolve e size fetch follow fuel c path := by
  unfold dagResolveProg dagResolve
  rw [eval_map, resolveProg_eval]
  rfl

theorem dagGetProg_there (e : Env) (size : Nat) (fetch : Cid → Option Bytes) (fuel : Nat) (c : Cid) (path : List Bytes)
    {d : Ipld} (h : (dagGetProg e size fuel c path).eval fetch = some (.ok d)) : BlocksThere fetch (dagGetProg e size fuel c path) := by
  unfold dagGetProg at h ⊢
  rw [eval_map] at h
  cases hr : (resolveProg e size true fuel c path 0).eval fetch with
  | none => rw [hr] at h; cases h
  | some r =>
    cases r with
    | error x => rw [hr] at h; simp at h
    | ok x => exact blocksThere_map (resolveProg_there _ _ _ _ _ _ _ _ hr)

theorem dagResolveProg_there (e : Env) (size : Nat) (fetch : Cid → Option Bytes) (follow : Bool) (fuel : Nat) (c : Cid) (path : List Bytes)
    {d : Node × List Bytes} (h : (dagResolveProg e size follow fuel c path).eval fetch = some (.ok d)) :
    BlocksThere fetch (dagResolveProg e size follow fuel c path) := by
  unfold dagResolveProg at h ⊢
  rw [eval_map] at h
  cases hr : (resolveProg e size follow fuel c path 0).eval fetch with
  | none => rw [hr] at h; cases h
  | some r =>
    cases r with
    | error x => rw [hr] at h; simp at h
    | ok x => exact blocksThere_map (resolveProg_there _ _ _ _ _ _ _ _ hr)

theorem resolveAnyProg_eval (mb : UInt8 → Bytes → Option Bytes) (s : Served) (fetch : Cid → Option Bytes) (path : IpfsPath) :
    (resolveAnyProg mb s path).eval fetch = resolveAny mb { s with fetch := fetch } path := by
  unfold resolveAnyProg resolveAny
  dsimp only
  cases resolveIpns mb s.txt s.fuel path true with
  | none => rfl
  | some r =>
    cases r with
    | error x => rfl
    | ok resolved =>
      dsimp only
      cases resolved.root with
      | ipld c =>
        dsimp only
        rw [eval_map, dagResolveProg_eval]
        rfl
      | _ => rfl

theorem resolveAnyProg_there (mb : UInt8 → Bytes → Option Bytes) (s : Served) (fetch : Cid → Option Bytes) (path : IpfsPath) {n : Node}
    (h : (resolveAnyProg mb s path).eval fetch = some (.ok n)) : BlocksThere fetch (resolveAnyProg mb s path) := by
  unfold resolveAnyProg at h ⊢
  cases hi : resolveIpns mb s.txt s.fuel path true with
  | none => exact blocksThere_ret _
  | some r =>
    cases r with
    | error x => exact blocksThere_ret _
    | ok resolved =>
      rw [hi] at h
      dsimp only at h ⊢
      cases hro : resolved.root with
      | ipld c =>
        rw [hro] at h
        dsimp only at h ⊢
        rw [eval_map] at h
        refine blocksThere_map ?_
        cases hx : (dagResolveProg s.env s.size true s.fuel c resolved.path).eval fetch with
        | none => rw [hx] at h; cases h
        | some r =>
          cases r with
          | error x => rw [hx] at h; simp at h
          | ok x => exact dagResolveProg_there _ _ _ _ _ _ _ hx
      | _ => exact blocksThere_ret _

theorem locateProg_eval (mb : UInt8 → Bytes → Option Bytes) (s : Served) (fetch : Cid → Option Bytes) (path : IpfsPath) (timeout : Option Nat) :
    (locateProg mb s path timeout).eval fetch = locate mb { s with fetch := fetch } path timeout := by
  unfold locateProg locate
  have : Served.timedOut { s with fetch := fetch } timeout = s.timedOut timeout := rfl
  rw [this]
  split
  · rfl
  · rw [eval_map, resolveAnyProg_eval]
    rfl

theorem locateProg_there (mb : UInt8 → Bytes → Option Bytes) (s : Served) (fetch : Cid → Option Bytes) (path : IpfsPath) (timeout : Option Nat)
    {c : Cid} {data : Bytes} (h : (locateProg mb s path timeout).eval fetch = .at c data) : BlocksThere fetch (locateProg mb s path timeout) := by
  unfold locateProg at h ⊢
  split
  · exact blocksThere_ret _
  · rename_i ht
    rw [if_neg ht, eval_map] at h
    refine blocksThere_map ?_
    cases hr : (resolveAnyProg mb s path).eval fetch with
    | none => rw [hr] at h; cases h
    | some r =>
      rw [hr] at h
      cases r with
      | error x => cases x with
        | dag x => cases x <;> simp at h
        | _ => simp at h
      | ok x => exact resolveAnyProg_there _ _ _ _ hr

theorem catLoopProg_eval (fetch : Cid → Option Bytes) (fuel : Nat) (v : Visit) (out : List Bytes) :
    (catLoopProg fuel v out).eval fetch = (out ++ (catLoop fetch fuel v).1, (catLoop fetch fuel v).2) := by
  induction fuel generalizing v out with
  | zero => simp [catLoopProg, catLoop, Prog.eval]
  | succ fuel ih =>
    unfold catLoopProg catLoop
    cases v.pending with
    | nil => simp [Prog.eval]
    | cons p ps =>
      obtain ⟨c, r⟩ := p
      simp only [Prog.eval]
      cases fetch c with
      | none => simp
      | some d =>
        dsimp only
        cases v.continueWalk d with
        | error x => cases x <;> simp [Prog.eval]
        | ok q =>
          obtain ⟨bytes, more⟩ := q
          cases more with
          | none => simp [Prog.eval]
          | some v' =>
            dsimp only
            rw [ih, List.append_assoc]

theorem catLoopProg_there (fetch : Cid → Option Bytes) (fuel : Nat) (v : Visit) (out : List Bytes)
    (h : ((catLoopProg fuel v out).eval fetch).2 = .done) : BlocksThere fetch (catLoopProg fuel v out) := by
  induction fuel generalizing v out with
  | zero => exact blocksThere_ret _
  | succ fuel ih =>
    unfold catLoopProg at h ⊢
    cases hp : v.pending with
    | nil => exact blocksThere_ret _
    | cons p ps =>
      obtain ⟨c, r⟩ := p
      rw [hp] at h
      simp only [Prog.eval] at h ⊢
      cases hf : fetch c with
      | none => rw [hf] at h; cases h
      | some d =>
        rw [hf] at h
        refine blocksThere_load hf ?_
        dsimp only at h ⊢
        cases hw : v.continueWalk d with
        | error x => cases x <;> exact blocksThere_ret _
        | ok q =>
          obtain ⟨bytes, more⟩ := q
          rw [hw] at h
          cases more with
          | none => exact blocksThere_ret _
          | some v' => exact ih _ _ h

theorem catInnerProg_eval (mb : UInt8 → Bytes → Option Bytes) (s : Served) (fetch : Cid → Option Bytes) (args : CatArgs) :
    (catInnerProg mb s args).eval fetch = catInner mb { s with fetch := fetch } args := by
  unfold catInnerProg catInner
  dsimp only
  cases wantedRange s.debug args.offset args.length with
  | notImplemented => rfl
  | panic => rfl
  | range range =>
    dsimp only
    rw [eval_bind, locateProg_eval]
    cases locate mb { s with fetch := fetch } args.arg args.timeout with
    | running => rfl
    | panic => rfl
    | failed e => rfl
    | «at» c data =>
      dsimp only
      unfold cat
      cases visitStart range data with
      | error x => cases x <;> rfl
      | ok q =>
        obtain ⟨bytes, x1, x2, visit⟩ := q
        cases visit with
        | none => rfl
        | some v =>
          dsimp only
          rw [eval_map, catLoopProg_eval]

theorem catInnerProg_there (mb : UInt8 → Bytes → Option Bytes) (s : Served) (fetch : Cid → Option Bytes) (args : CatArgs) {chunks : List Bytes}
    (h : (catInnerProg mb s args).eval fetch = .stream chunks .done) : BlocksThere fetch (catInnerProg mb s args) := by
  unfold catInnerProg at h ⊢
  cases hw : wantedRange s.debug args.offset args.length with
  | notImplemented => exact blocksThere_ret _
  | panic => exact blocksThere_ret _
  | range range =>
    rw [hw] at h
    dsimp only at h ⊢
    rw [eval_bind] at h
    cases hl : (locateProg mb s args.arg args.timeout).eval fetch with
    | running => rw [hl] at h; cases h
    | panic => rw [hl] at h; cases h
    | failed e => rw [hl] at h; cases h
    | «at» c data =>
      rw [hl] at h
      refine blocksThere_bind (locateProg_there _ _ _ _ _ hl) ?_
      rw [hl]
      dsimp only at h ⊢
      cases hv : visitStart range data with
      | error x => cases x <;> exact blocksThere_ret _
      | ok q =>
        obtain ⟨bytes, x1, x2, visit⟩ := q
        rw [hv] at h
        cases visit with
        | none => exact blocksThere_ret _
        | some v =>
          dsimp only at h ⊢
          rw [eval_map] at h
          cases h' : (catLoopProg s.fuel v (if bytes.isEmpty then [] else [bytes])).eval fetch with
          | mk o en =>
            rw [h'] at h
            cases h
            exact blocksThere_map (catLoopProg_there _ _ _ _ (by rw [h']))

theorem catRequestProg_eval (q : QueryEnv) (s : Served) (fetch : Cid → Option Bytes) (query : Bytes) :
    (catRequestProg q s query).eval fetch = catRequest q { s with fetch := fetch } query := by
  unfold catRequestProg catRequest
  cases catQuery q query with
  | error x => rfl
  | ok args => exact catInnerProg_eval _ _ _ _

theorem catRequestProg_there (q : QueryEnv) (s : Served) (fetch : Cid → Option Bytes) (query : Bytes) {chunks : List Bytes}
    (h : (catRequestProg q s query).eval fetch = .stream chunks .done) : BlocksThere fetch (catRequestProg q s query) := by
  unfold catRequestProg at h ⊢
  cases hq : catQuery q query with
  | error x => exact blocksThere_ret _
  | ok args => rw [hq] at h; exact catInnerProg_there _ _ _ _ h

/-- The chunks for what the walker reports, after others. -/
def ofWalk (out : List Bytes) (t : TarHelper) (r : List WItem × WalkEnd) : List Bytes × GetEnd :=
  match (t.items r.1).2 with
  | some e => (out ++ (t.items r.1).1, .tar e)
  | none => (out ++ (t.items r.1).1, if r.2 = .done then .done else .walk r.2)

theorem walkProg_eval (fetch : Cid → Option Bytes) (fuel : Nat) (w : Walker) (t : TarHelper) (out : List Bytes) :
    (walkProg fuel w t out).eval fetch = ofWalk out t (w.feed fetch fuel) := by
  induction fuel generalizing w t out with
  | zero =>
    simp only [walkProg, Walker.feed, ofWalk, TarHelper.items, Prog.eval, List.append_nil]
    split <;> simp
  | succ fuel ih =>
    unfold walkProg Walker.feed
    split
    · cases w.wanted with
      | none => simp [Prog.eval, ofWalk, TarHelper.items]
      | some c =>
        simp only [Prog.eval]
        cases fetch c with
        | none => simp [ofWalk, TarHelper.items]
        | some d =>
          dsimp only
          cases w.step d with
          | error x => simp [Prog.eval, ofWalk, TarHelper.items]
          | ok q =>
            obtain ⟨item, w'⟩ := q
            dsimp only
            simp only [ofWalk, TarHelper.items]
            cases t.item item with
            | error x => simp [Prog.eval]
            | ok q =>
              obtain ⟨t', chunks⟩ := q
              dsimp only
              rw [ih]
              simp only [ofWalk, List.append_assoc]
    · simp [Prog.eval, ofWalk, TarHelper.items]

theorem walkProg_there (fetch : Cid → Option Bytes) (fuel : Nat) (w : Walker) (t : TarHelper) (out : List Bytes)
    (h : ((walkProg fuel w t out).eval fetch).2 = .done) : BlocksThere fetch (walkProg fuel w t out) := by
  induction fuel generalizing w t out with
  | zero => exact blocksThere_ret _
  | succ fuel ih =>
    unfold walkProg at h ⊢
    split
    · rename_i hs
      rw [if_pos hs] at h
      cases hw : w.wanted with
      | none => exact blocksThere_ret _
      | some c =>
        rw [hw] at h
        simp only [Prog.eval] at h ⊢
        cases hf : fetch c with
        | none => rw [hf] at h; cases h
        | some d =>
          rw [hf] at h
          refine blocksThere_load hf ?_
          dsimp only at h ⊢
          cases hst : w.step d with
          | error x => exact blocksThere_ret _
          | ok q =>
            obtain ⟨item, w'⟩ := q
            rw [hst] at h
            dsimp only at h ⊢
            cases ht : t.item item with
            | error x => exact blocksThere_ret _
            | ok q =>
              rw [ht] at h
              exact ih _ _ _ h
    · exact blocksThere_ret _

theorem getStreamProg_eval (debug : Bool) (fetch : Cid → Option Bytes) (fuel : Nat) (c : Cid) (first : Bytes) :
    (getStreamProg debug fuel c first).eval fetch = getStream debug fetch fuel c first := by
  have : getStream debug fetch fuel c first =
      ofWalk [] (TarHelper.withCapacity (16 * 1024)) (walkFrom fetch fuel (Walker.new debug c c.toText) first) := by
    simp only [getStream, ofWalk, List.nil_append]
    rfl
  rw [this]
  unfold getStreamProg walkFrom
  cases (Walker.new debug c c.toText).step first with
  | error x => simp [Prog.eval, ofWalk, TarHelper.items]
  | ok q =>
    obtain ⟨item, w⟩ := q
    dsimp only
    simp only [ofWalk, TarHelper.items]
    cases (TarHelper.withCapacity (16 * 1024)).item item with
    | error x => simp [Prog.eval]
    | ok q =>
      dsimp only
      rw [walkProg_eval]
      simp only [ofWalk, List.nil_append]

theorem getStreamProg_there (debug : Bool) (fetch : Cid → Option Bytes) (fuel : Nat) (c : Cid) (first : Bytes)
    (h : ((getStreamProg debug fuel c first).eval fetch).2 = .done) : BlocksThere fetch (getStreamProg debug fuel c first) := by
  unfold getStreamProg at h ⊢
  cases hs : (Walker.new debug c c.toText).step first with
  | error x => exact blocksThere_ret _
  | ok q =>
    obtain ⟨item, w⟩ := q
    rw [hs] at h
    dsimp only at h ⊢
    cases ht : (TarHelper.withCapacity (16 * 1024)).item item with
    | error x => exact blocksThere_ret _
    | ok q => rw [ht] at h; exact walkProg_there _ _ _ _ _ h

theorem getRequestProg_eval (q : QueryEnv) (s : Served) (fetch : Cid → Option Bytes) (query : Bytes) :
    (getRequestProg q s query).eval fetch = getRequest q { s with fetch := fetch } query := by
  unfold getRequestProg getRequest
  cases getQuery q query with
  | error x => rfl
  | ok args =>
    obtain ⟨arg, timeout⟩ := args
    dsimp only
    unfold getInnerProg getInner
    rw [eval_bind, locateProg_eval]
    cases locate q.mb { s with fetch := fetch } arg timeout with
    | running => rfl
    | panic => rfl
    | failed e => rfl
    | «at» c data =>
      dsimp only
      rw [eval_map, getStreamProg_eval]

theorem getRequestProg_there (q : QueryEnv) (s : Served) (fetch : Cid → Option Bytes) (query : Bytes) {chunks : List Bytes}
    (h : (getRequestProg q s query).eval fetch = .stream chunks .done) : BlocksThere fetch (getRequestProg q s query) := by
  unfold getRequestProg at h ⊢
  cases hq : getQuery q query with
  | error x => exact blocksThere_ret _
  | ok args =>
    obtain ⟨arg, timeout⟩ := args
    rw [hq] at h
    dsimp only at h ⊢
    unfold getInnerProg at h ⊢
    rw [eval_bind] at h
    cases hl : (locateProg q.mb s arg timeout).eval fetch with
    | running => rw [hl] at h; cases h
    | panic => rw [hl] at h; cases h
    | failed e => rw [hl] at h; cases h
    | «at» c data =>
      rw [hl] at h
      refine blocksThere_bind (locateProg_there _ _ _ _ _ hl) ?_
      rw [hl]
      dsimp only at h ⊢
      rw [eval_map] at h
      cases h' : (getStreamProg s.debug s.fuel c data).eval fetch with
      | mk o en =>
        rw [h'] at h
        cases h
        exact blocksThere_map (getStreamProg_there _ _ _ _ _ (by rw [h']))

theorem refsLoopProg_eval (e : Env) (size : Nat) (fetch : Cid → Option Bytes) (o : Refs.Opts) (hd : o.download = true) (fuel : Nat) (work : List Refs.Work)
    (vis : List Cid) (out : List Refs.Item) : (refsLoopProg e size o fuel work vis out).eval fetch =
      (Refs.loop o (Refs.look e size fetch) fuel work vis).map (fun r => (out ++ r.1, r.2)) := by
  induction fuel generalizing work vis out with
  | zero => rfl
  | succ fuel ih =>
    cases work with
    | nil => simp [refsLoopProg, Refs.loop, Prog.eval]
    | cons w work =>
      unfold refsLoopProg Refs.loop
      cases ht : Refs.traverse o.debug o.maxDepth w.depth with
      | skip => exact ih _ _ _
      | overflow => simp [Prog.eval]
      | leaf =>
        simp only [Prog.eval, Refs.look, hd, if_true]
        cases fetch w.edge.destination with
        | none => exact ih _ _ _
        | some d =>
          dsimp only
          cases decodeIpld e size w.edge.destination d with
          | error x => dsimp only; rw [ih]; cases Refs.loop o (Refs.look e size fetch) fuel work vis <;> simp
          | ok x =>
            dsimp only
            rw [ih]
            cases Refs.ipldLinks w.edge.destination x with
            | none => dsimp only; cases Refs.loop o (Refs.look e size fetch) fuel work vis <;> simp
            | some ls => dsimp only; cases Refs.loop o (Refs.look e size fetch) fuel work vis <;> simp
      | go =>
        simp only [Prog.eval, Refs.look, hd, if_true, reduceCtorEq, if_false]
        cases fetch w.edge.destination with
        | none => exact ih _ _ _
        | some d =>
          dsimp only
          cases decodeIpld e size w.edge.destination d with
          | error x => dsimp only; rw [ih]; cases Refs.loop o (Refs.look e size fetch) fuel work vis <;> simp
          | ok x =>
            dsimp only
            cases Refs.ipldLinks w.edge.destination x with
            | none => simp [Prog.eval]
            | some ls =>
              dsimp only
              rw [ih]
              cases Refs.loop o (Refs.look e size fetch) fuel _ _ <;> simp

theorem refsProg_eval (e : Env) (size : Nat) (fetch : Cid → Option Bytes) (o : Refs.Opts) (hd : o.download = true) (fuel : Nat)
    (roots : List (Cid × List (Option Bytes × Cid))) :
    (refsProg e size o fuel roots).eval fetch = Refs.refs o (Refs.look e size fetch) fuel roots := by
  unfold refsProg Refs.refs
  split
  · rfl
  · rw [refsLoopProg_eval _ _ _ _ hd]
    cases Refs.loop o (Refs.look e size fetch) fuel (Refs.enqueueRoots o.unique roots []).1 (Refs.enqueueRoots o.unique roots []).2 <;> simp

/-! ### Helpers: what a program does is what nodes do -/

/-- The events of `Loader.go`. -/
theorem load_events {H : Hashes} {debug : Bool} (x : P) (s : NetSt P) (l : Loader α) (ok : NetSt P → NetEv P → NetSt P → Prop)
    (hget : ∀ c k e, l.prog = .load c k e → ok s (.get x c) (s.upd x ((s.node x).get c).2))
    (hup : ∀ c k e, l.prog = .load c k e → ∀ i s1 n e, l.wait = some i → s1.flight = s.flight → (e = .await x i ∨ e = .drop x i) →
      ok s1 e (s1.upd x n)) :
    NetRun H debug ok s (l.go x s).1 := by
  have hupd : ∀ n n', (s.upd x n).upd x n' = s.upd x n' := by
    intro n n'
    simp only [NetSt.upd, NetSt.mk.injEq, and_true]
    funext y; split <;> rfl
  unfold Loader.go
  cases hp : l.prog with
  | ret a => exact .refl s
  | load c k e =>
    dsimp only
    have hup := hup c k e hp
    cases hw : l.wait with
    | some i =>
      dsimp only
      unfold Loader.poll
      cases hp : (s.node x).reg.poll i with
      | none => exact .refl s
      | some q =>
        obtain ⟨reg, out⟩ := q
        dsimp only
        have h1 : NetRun H debug ok s (s.upd x { s.node x with reg := reg }) :=
          .step (.await x i) (.refl s) (hup i s _ _ hw rfl (Or.inl rfl)) (by simp only [NetSt.step, hp]; rfl)
        have h2 : NetRun H debug ok s (s.upd x (Peer.drop { s.node x with reg := reg } i)) := by
          refine .step (.drop x i) h1 (t := s.upd x { s.node x with reg := reg }) ?_ ?_
          · have h := hup i (s.upd x { s.node x with reg := reg }) (Peer.drop { s.node x with reg := reg } i) _ hw rfl (Or.inr rfl)
            rw [hupd] at h
            exact h
          · simp only [NetSt.step, upd_self, hupd]
        cases out <;> first | exact h1 | exact h2
    | none =>
      dsimp only
      have : (l.ask x s c k).1 = s.upd x ((s.node x).get c).2 := by
        unfold Loader.ask
        rcases (s.node x).get c with ⟨_ | b, n⟩ <;> rfl
      rw [this]
      exact .step (.get x c) (.refl s) (hget c k e hp) rfl

/-! ### Helpers: the program under way -/

/-- What is left of the program gives the result, and its future will answer. -/
structure LoadInv (fetch : Cid → Option Bytes) (whole : α) (bound : Nat) (x : P) (k : Nat) (s : NetSt P) (l : Loader α) : Prop where
  left : ∃ m, needs fetch l.prog = some m ∧ l.prog.eval fetch = whole ∧ k + 2 * m ≤ bound + (if l.wait.isSome then 1 else 0)
  held : ∀ i, l.wait = some i → ∃ c k e, l.prog = .load c k e ∧ HeldBy (s.node x).reg c i

theorem needs_load {fetch : Cid → Option Bytes} {c : Cid} {k : Repo.Block → Prog α} {e : Prog α} {m : Nat} (h : needs fetch (.load c k e) = some m) :
    ∃ d n, fetch c = some d ∧ needs fetch (k ⟨c, d⟩) = some n ∧ m = n + 1 ∧ (Prog.load c k e).eval fetch = (k ⟨c, d⟩).eval fetch := by
  simp only [needs] at h
  cases hd : fetch c with
  | none => rw [hd] at h; cases h
  | some d =>
    rw [hd] at h
    obtain ⟨n, hn, rfl⟩ := Option.map_eq_some_iff.mp h
    exact ⟨d, n, rfl, hn, rfl, by simp [Prog.eval, hd]⟩

omit [DecidableEq P] in
theorem loadInv_take {fetch : Cid → Option Bytes} {whole : α} {bound : Nat} {x : P} {n : Nat} {s s' : NetSt P} {l : Loader α}
    {H : Hashes} (hone : OneData H fetch) {c : Cid} {k : Repo.Block → Prog α} {e : Prog α} {b : Repo.Block} (hp : l.prog = .load c k e) (hb : b.cid = c)
    (ha : Authentic H c b.data) (hi : LoadInv fetch whole bound x n s l) :
    LoadInv fetch whole bound x (n + 1) s' ⟨k b, none⟩ ∧ (⟨k b, none⟩ : Loader α) ≠ l := by
  obtain ⟨m, h1, h2, h3⟩ := hi.left
  rw [hp] at h1 h2
  obtain ⟨d, m', hd, hn, rfl, he⟩ := needs_load h1
  have hbd : b = ⟨c, d⟩ := by
    have := hone c d b.data hd ha
    cases b
    simp_all
  subst hbd
  refine ⟨⟨⟨m', hn, by rw [← h2, he], ?_⟩, ?_⟩, ?_⟩
  · simp only [Option.isSome_none, Bool.false_eq_true, if_false]
    split at h3 <;> omega
  · intro i h; cases h
  · intro h
    have h := congrArg (fun l => needs fetch l.prog) h
    simp only [hn, hp, h1, Option.some.injEq] at h
    omega

theorem LoadInv.go {fetch : Cid → Option Bytes} {whole : α} {bound : Nat} {x : P} {n : Nat} {s : NetSt P} {l : Loader α}
    {H : Hashes} (hone : OneData H fetch) (hn : TrueInv H (s.node x))
    (hown : ∀ c d, fetch c = some d → ∀ b, (s.node x).store.getBlock c = some b → b.cid = c) (hi : LoadInv fetch whole bound x n s l) :
    (LoadInv fetch whole bound x n (l.go x s).1 (l.go x s).2 ∧ (l.go x s).2 = l ∧
      ((∃ a, l.prog = .ret a) ∨ ∃ c k e i w, l.prog = .load c k e ∧ Waits (s.node x).reg c i w)) ∨
    (LoadInv fetch whole bound x (n + 1) (l.go x s).1 (l.go x s).2 ∧ (l.go x s).2 ≠ l) := by
  unfold Loader.go
  cases hp : l.prog with
  | ret a => left; exact ⟨hi, rfl, Or.inl ⟨a, rfl⟩⟩
  | load c k e =>
    dsimp only
    cases hw : l.wait with
    | some i =>
      obtain ⟨c', k', e', hc, hh⟩ := hi.held i hw
      rw [hp] at hc; cases hc
      dsimp only
      unfold Loader.poll
      rcases heldBy_out hn hh rfl with ⟨reg', hq, hh', w, hww⟩ | ⟨reg', b, hq, hb, ha⟩
      · left
        rw [hq]
        dsimp only
        refine ⟨⟨hi.left, ?_⟩, rfl, Or.inr ⟨c, k, e, i, w, rfl, hww⟩⟩
        intro j hj
        rw [hw] at hj; cases hj
        exact ⟨c, k, e, hp, by rw [upd_self]; exact hh'⟩
      · right
        rw [hq]
        exact loadInv_take hone hp hb ha hi
    | none =>
      right
      dsimp only
      unfold Loader.ask
      rcases hg : (s.node x).get c with ⟨_ | b, n'⟩
      · have hg1 : ((s.node x).get c).1 = none := by rw [hg]
        have hh := heldBy_new hn hg1
        rw [hg] at hh
        dsimp only
        obtain ⟨m, h1, h2, h3⟩ := hi.left
        rw [hw] at h3
        refine ⟨⟨⟨m, h1, h2, by simp at h3 ⊢; omega⟩, ?_⟩, ?_⟩
        · intro i h
          cases h
          exact ⟨c, k, e, hp, by rw [upd_self]; exact hh⟩
        · intro he
          have := congrArg Loader.wait he
          rw [hw] at this; cases this
      · obtain ⟨g0, g1, g2⟩ := get_answer hn (by rw [hg] : ((s.node x).get c).1 = some b)
        obtain ⟨m, h1, -⟩ := hi.left
        rw [hp] at h1
        obtain ⟨d, -, hd, -⟩ := needs_load h1
        exact loadInv_take hone hp (hown c d hd b g0) g2 hi

/-- Everything that happens with the program happens at the nodes, and the program stays on its way. -/
theorem load_inv {H : Hashes} {debug : Bool} {ok : NetSt P → NetEv P → NetSt P → Prop} {x : P} {s0 s : NetSt P} {k : Nat} {l : Loader α}
    {fetch : Cid → Option Bytes} {p : Prog α} {n : Nat} (hone : OneData H fetch)
    (hpre : NetRun H debug (fun s e _ => PutsTrue H e ∧ ∀ c d, fetch c = some d → NoAlias x c s e) NetSt.init s0)
    (hok : ∀ s e s', ok s e s' → PutsTrue H e ∧ ∀ c d, fetch c = some d → NoAlias x c s e)
    (hneeds : needs fetch p = some n) (hrun : LoadRun H debug ok x s0 p k s l) :
    NetRun H debug (fun s e _ => PutsTrue H e ∧ ∀ c d, fetch c = some d → NoAlias x c s e) NetSt.init s ∧
      LoadInv fetch (p.eval fetch) (2 * n) x k s l := by
  have hown : ∀ {s : NetSt P}, NetRun H debug (fun s e _ => PutsTrue H e ∧ ∀ c d, fetch c = some d → NoAlias x c s e) NetSt.init s →
      ∀ c d, fetch c = some d → ∀ b, (s.node x).store.getBlock c = some b → b.cid = c := by
    intro s h c d hd b hb
    exact own_cid (h.mono fun _ _ _ h => ⟨h.1, h.2 c d hd⟩) b hb
  have hev : ∀ (s : NetSt P) (l : Loader α), NetRun H debug (fun s e _ => PutsTrue H e ∧ ∀ c d, fetch c = some d → NoAlias x c s e) s (l.go x s).1 := by
    intro s l
    refine load_events x s l _ (fun _ _ _ _ => ⟨trivial, fun _ _ _ => trivial⟩) ?_
    rintro c k e - i s1 n e' - - (rfl | rfl) <;> exact ⟨trivial, fun _ _ _ => trivial⟩
  induction hrun with
  | refl =>
    refine ⟨hpre, ⟨⟨n, hneeds, rfl, by simp⟩, ?_⟩⟩
    intro i h; cases h
  | other e _ hoth ho hst ih =>
    refine ⟨.step e ih.1 (hok _ _ _ ho) hst, ih.2.left, ?_⟩
    intro i hw
    obtain ⟨c, k, e', hc, hh⟩ := ih.2.held i hw
    exact ⟨c, k, e', hc, heldBy_net (true_net (ih.1.mono fun _ _ _ h => h.1) x) hh (hoth i hw) hst⟩
  | @further k s l _ hne ih =>
    refine ⟨NetRun.trans ih.1 (hev s l), ?_⟩
    rcases ih.2.go hone (true_net (ih.1.mono fun _ _ _ h => h.1) x) (hown ih.1) with ⟨-, h, -⟩ | h
    · exact absurd h hne
    · exact h.1
  | @again k s l _ he ih =>
    refine ⟨NetRun.trans ih.1 (hev s l), ?_⟩
    rcases ih.2.go hone (true_net (ih.1.mono fun _ _ _ h => h.1) x) (hown ih.1) with ⟨h, -, -⟩ | h
    · rw [he] at h; exact h
    · exact absurd he h.2

/-! ### The theorems -/

/-- **C89**: whatever anybody sends, a program that loads blocks gives over the network what it gives where its blocks are, if it ends. It goes
on a bounded number of times. -/
theorem C89_same {H : Hashes} {fetch : Cid → Option Bytes} (hone : OneData H fetch) {p : Prog α} (hall : BlocksThere fetch p) :
    ∃ bound, ∀ (debug : Bool) (x : P) (s0 s : NetSt P) (k : Nat) (l : Loader α),
      NetRun H debug (fun s e _ => PutsTrue H e ∧ ∀ c d, fetch c = some d → NoAlias x c s e) NetSt.init s0 →
      LoadRun H debug (fun s e _ => PutsTrue H e ∧ ∀ c d, fetch c = some d → NoAlias x c s e) x s0 p k s l →
      k ≤ bound ∧ ∀ a, l.prog = .ret a → a = p.eval fetch := by
  obtain ⟨n, hn⟩ := hall
  refine ⟨2 * n + 1, ?_⟩
  intro debug x s0 s k l hpre hrun
  obtain ⟨-, hi⟩ := load_inv hone hpre (fun _ _ _ h => h) hn hrun
  obtain ⟨m, h1, h2, h3⟩ := hi.left
  refine ⟨by split at h3 <;> omega, ?_⟩
  intro a ha
  rw [← h2, ha]; rfl

/-- **C89**: when a connected peer has the blocks of the program, it ends. The peer `y` had the blocks before `x` wanted them, or before
`x` knew of the connection; from then on the two are undisturbed, whatever else happens, at them and elsewhere, and none of the blocks
is stored at `x` under another cid. Then, when nothing is left to do at the two and the program gets no further, it has ended with the
result it has where the blocks are. -/
theorem C89_ends {H : Hashes} {fetch : Cid → Option Bytes} (hone : OneData H fetch) (hvalid : ∀ c d, fetch c = some d → c.Valid)
    {p : Prog α} (hall : BlocksThere fetch p) {debug : Bool} {x y : P} (hxy : x ≠ y) {s0 s : NetSt P} {k : Nat} {l : Loader α}
    (hpre : NetRun H debug (fun s e s' => InOrder H e ∧ Short64 s' ∧ ∀ c d, fetch c = some d → NoAlias x c s e) NetSt.init s0)
    (hhas : ∀ c d, fetch c = some d → (s0.node y).store.getBlock c = some ⟨c, d⟩)
    (hnot : ∀ c d, fetch c = some d → (s0.node y).bits.bs.wanted.get c = none ∧ RepoEv.want c ∉ (s0.node y).chan)
    (hstart : ∀ c d, fetch c = some d → (s0.node x).bits.bs.wanted.get c = none ∨ (s0.node x).bits.bs.peers.get y = none)
    (hshort : ∀ f ∈ s0.flight, Between x y f → f.bytes.length ≤ maxBufSize)
    (hrun : LoadRun H debug (fun s e s' => InOrder H e ∧ Short64 s' ∧ ∀ c d, fetch c = some d → NoAlias x c s e ∧ Undisturbed x y c s e s')
      x s0 p k s l)
    (hidle : Idle (s.node x) ∧ Idle (s.node y) ∧ ∀ f ∈ s.flight, ¬ Between x y f)
    (hlink : ∃ lg, (s.node x).bits.bs.peers.get y = some lg)
    (hstuck : (l.go x s).2 = l) : l.prog = .ret (p.eval fetch) := by
  obtain ⟨n, hneeds⟩ := hall
  have hput : ∀ e : NetEv P, InOrder H e → PutsTrue H e := by
    intro e he; cases e <;> first | trivial | exact he.2
  have hpre' : NetRun H debug (fun s e _ => PutsTrue H e ∧ ∀ c d, fetch c = some d → NoAlias x c s e) NetSt.init s0 :=
    hpre.mono fun _ _ _ h => ⟨hput _ h.1, h.2.2⟩
  have hinv : ∀ {k : Nat} {s : NetSt P} {l : Loader α}, LoadRun H debug
      (fun s e s' => InOrder H e ∧ Short64 s' ∧ ∀ c d, fetch c = some d → NoAlias x c s e ∧ Undisturbed x y c s e s') x s0 p k s l →
      NetRun H debug (fun s e _ => PutsTrue H e ∧ ∀ c d, fetch c = some d → NoAlias x c s e) NetSt.init s ∧
        LoadInv fetch (p.eval fetch) (2 * n) x k s l := by
    intro k s l h
    exact load_inv hone hpre' (fun _ _ _ h => ⟨hput _ h.1, fun c d hd => (h.2.2 c d hd).1⟩) hneeds h
  have hs0 : Short64 s0 := by
    cases hpre with
    | refl => intro f hf; cases hf
    | step e _ ho _ => exact ho.2.1
  have hgo : ∀ {k : Nat} {s : NetSt P} {l : Loader α}, LoadInv fetch (p.eval fetch) (2 * n) x k s l →
      NetRun H debug (fun s e s' => InOrder H e ∧ Short64 s' ∧ ∀ c d, fetch c = some d → NoAlias x c s e ∧ Undisturbed x y c s e s') s0 s →
      NetRun H debug (fun s e s' => InOrder H e ∧ Short64 s' ∧ ∀ c d, fetch c = some d → NoAlias x c s e ∧ Undisturbed x y c s e s') s (l.go x s).1 := by
    intro k s l hi hr
    have hnext : ∀ c k e, l.prog = .load c k e → ∃ d, fetch c = some d := by
      intro c k e hp
      obtain ⟨m, h1, -⟩ := hi.left
      rw [hp] at h1
      obtain ⟨d, -, hd, -⟩ := needs_load h1
      exact ⟨d, hd⟩
    have h1 : Short64 s := by
      cases hr with
      | refl => exact hs0
      | step e _ ho _ => exact ho.2.1
    have h2 : (∃ c d, fetch c = some d) → ∀ f ∈ s.flight, Between x y f → f.bytes.length ≤ maxBufSize := by
      rintro ⟨c, d, hd⟩
      cases hr with
      | refl => exact hshort
      | step e _ ho _ => exact (ho.2.2 c d hd).2.short
    have und : ∀ (s1 : NetSt P) n e b, (∃ c d, fetch c = some d) → s1.flight = s.flight →
        (∃ c, e = .get x c) ∨ (∃ i, e = .await x i ∨ e = .drop x i) → Undisturbed x y b s1 e (s1.upd x n) := by
      intro s1 n e b hne hf he
      have hfl : ∀ f ∈ (s1.upd x n).flight, Between x y f → f.bytes.length ≤ maxBufSize := by
        intro f hm; exact h2 hne f (by rw [← hf]; exact hm)
      rcases he with ⟨c, rfl⟩ | ⟨i, rfl | rfl⟩ <;>
        exact ⟨⟨by simp, by simp⟩, ⟨by simp, by simp⟩, by simp, by simp, hfl⟩
    refine load_events x s l _ ?_ ?_
    · intro c k e hp
      obtain ⟨d, hd⟩ := hnext c k e hp
      exact ⟨hvalid c d hd, h1, fun c' d' _ => ⟨trivial, und s _ _ _ ⟨c, d, hd⟩ rfl (Or.inl ⟨c, rfl⟩)⟩⟩
    · intro c k e hp i s1 n e' _ hf he
      obtain ⟨d, hd⟩ := hnext c k e hp
      have h1' : Short64 (s1.upd x n) := by
        intro f hm; exact h1 f (by rw [← hf]; exact hm)
      have hu := fun b => und s1 n e' b ⟨c, d, hd⟩ hf (Or.inr ⟨i, he⟩)
      rcases he with rfl | rfl <;> exact ⟨trivial, h1', fun c' _ _ => ⟨trivial, hu c'⟩⟩
  have hnet : NetRun H debug (fun s e s' => InOrder H e ∧ Short64 s' ∧ ∀ c d, fetch c = some d → NoAlias x c s e ∧ Undisturbed x y c s e s') s0 s := by
    clear hidle hlink hstuck
    induction hrun with
    | refl => exact .refl s0
    | other e _ _ ho hst ih => exact .step e ih ho hst
    | further hr _ ih => exact NetRun.trans ih (hgo (hinv hr).2 ih)
    | again hr _ ih => exact NetRun.trans ih (hgo (hinv hr).2 ih)
  obtain ⟨hn, hi⟩ := hinv hrun
  obtain ⟨m, h1, h2, h3⟩ := hi.left
  have hcase : (∃ a, l.prog = .ret a) ∨ ∃ c k e i w, l.prog = .load c k e ∧ Waits (s.node x).reg c i w := by
    rcases hi.go hone (true_net (hn.mono fun _ _ _ h => h.1) x)
      (fun c d hd b hb => own_cid (hn.mono fun _ _ _ h => ⟨h.1, h.2 c d hd⟩) b hb) with ⟨-, -, h⟩ | ⟨-, h⟩
    · exact h
    · exact absurd hstuck h
  rcases hcase with ⟨a, ha⟩ | ⟨c, k, e, i, w, hc, hwt⟩
  · rw [ha, ← h2, ha]; rfl
  · exfalso
    rw [hc] at h1
    obtain ⟨d, -, hd, -⟩ := needs_load h1
    exact C73_arrives hxy (hpre.mono fun _ _ _ h => ⟨h.1, h.2.1, h.2.2 c d hd⟩) ⟨_, hhas c d hd, rfl⟩ (hnot c d hd) (hstart c d hd)
      (hnet.mono fun _ _ _ h => ⟨h.1, h.2.1, (h.2.2 c d hd).1, (h.2.2 c d hd).2⟩) hidle hlink i w hwt

/-- **C89**: what reads blocks is such a program: looking up a name in a sharded directory, resolving a path, getting a document, listing
references, and the requests to `cat` and `get`. -/
theorem C89_programs (fetch : Cid → Option Bytes) (fuel : Nat) :
    (∀ needle queue, (feedProg needle fuel queue).eval fetch = feed fetch needle fuel queue) ∧
    (∀ e size follow c path, (dagResolveProg e size follow fuel c path).eval fetch = dagResolve e size fetch follow fuel c path) ∧
    (∀ e size c path, (dagGetProg e size fuel c path).eval fetch = dagGet e size fetch fuel c path) ∧
    (∀ e size (o : Refs.Opts) roots, o.download = true →
      (refsProg e size o fuel roots).eval fetch = Refs.refs o (Refs.look e size fetch) fuel roots) ∧
    (∀ q s query, (catRequestProg q s query).eval fetch = catRequest q { s with fetch := fetch } query) ∧
    (∀ q s query, (getRequestProg q s query).eval fetch = getRequest q { s with fetch := fetch } query) :=
  ⟨fun _ _ => feedProg_eval _ _ _ _, fun _ _ _ _ _ => dagResolveProg_eval _ _ _ _ _ _ _, fun _ _ _ _ => dagGetProg_eval _ _ _ _ _ _,
    fun _ _ _ _ h => refsProg_eval _ _ _ _ h _ _, fun _ _ _ => catRequestProg_eval _ _ _ _, fun _ _ _ => getRequestProg_eval _ _ _ _⟩

/-- **C89**: when they succeed where the blocks are, these are all the blocks they need. -/
theorem C89_needed (fetch : Cid → Option Bytes) (fuel : Nat) :
    (∀ e size follow c path r, dagResolve e size fetch follow fuel c path = some (.ok r) → BlocksThere fetch (dagResolveProg e size follow fuel c path)) ∧
    (∀ e size c path r, dagGet e size fetch fuel c path = some (.ok r) → BlocksThere fetch (dagGetProg e size fuel c path)) ∧
    (∀ q s query chunks, catRequest q { s with fetch := fetch } query = .stream chunks .done → BlocksThere fetch (catRequestProg q s query)) ∧
    (∀ q s query chunks, getRequest q { s with fetch := fetch } query = .stream chunks .done → BlocksThere fetch (getRequestProg q s query)) := by
  refine ⟨fun _ _ _ _ _ _ h => ?_, fun _ _ _ _ _ h => ?_, fun _ _ _ _ h => ?_, fun _ _ _ _ h => ?_⟩
  · rw [← dagResolveProg_eval] at h; exact dagResolveProg_there _ _ _ _ _ _ _ h
  · rw [← dagGetProg_eval] at h; exact dagGetProg_there _ _ _ _ _ _ h
  · rw [← catRequestProg_eval] at h; exact catRequestProg_there _ _ _ _ h
  · rw [← getRequestProg_eval] at h; exact getRequestProg_there _ _ _ _ h

/-- **C89**: a future that is cancelled lets the program go on without the block; it is not waited for again. -/
theorem C89_cancelled (x : P) (s : NetSt P) (c : Cid) (k : Repo.Block → Prog α) (e : Prog α) (i : Nat) (reg : Reg Cid Repo.Block)
    (h : (s.node x).reg.poll i = some (reg, .cancelled)) : ((⟨.load c k e, some i⟩ : Loader α).go x s).2 = ⟨e, none⟩ := by
  simp only [Loader.go, Loader.poll, h]

/-- Such a future: the node is shut down while the program waits. -/
example : ((Reg.run false (Reg.init : Reg Cid Repo.Block) [.create (Cid.v0 []) true, .insert 0, .poll 0, .shutFlag, .shutTake]).bind
    (fun reg => (reg.poll 0).map Prod.snd)) = some .cancelled := by decide +kernel

/-! ### What was added over HTTP -/

/-- The program `p` was run at `x`, connected to `y` that has the blocks, and gets no further: `y` had the blocks before `x` wanted them, or before
`x` knew of the connection; from then on the two are undisturbed, whatever else happens, at them and elsewhere, and none of the blocks
is stored at `x` under another cid; now nothing is left to do at the two. -/
structure RanBeside (H : Hashes) (debug : Bool) (blocks : List (Cid × Bytes)) (x y : P) (p : Prog α) (s : NetSt P) (l : Loader α) : Prop where
  ne : x ≠ y
  run : ∃ (s0 : NetSt P) (k : Nat),
    NetRun H debug (fun s e s' => InOrder H e ∧ Short64 s' ∧ ∀ b ∈ blocks, NoAlias x b.1 s e) NetSt.init s0 ∧
    (∀ b ∈ blocks, (s0.node y).store.getBlock b.1 = some ⟨b.1, b.2⟩) ∧
    (∀ b ∈ blocks, (s0.node y).bits.bs.wanted.get b.1 = none ∧ RepoEv.want b.1 ∉ (s0.node y).chan) ∧
    (∀ b ∈ blocks, (s0.node x).bits.bs.wanted.get b.1 = none ∨ (s0.node x).bits.bs.peers.get y = none) ∧
    (∀ f ∈ s0.flight, Between x y f → f.bytes.length ≤ maxBufSize) ∧
    LoadRun H debug (fun s e s' => InOrder H e ∧ Short64 s' ∧ ∀ b ∈ blocks, NoAlias x b.1 s e ∧ Undisturbed x y b.1 s e s') x s0 p k s l
  idle : Idle (s.node x) ∧ Idle (s.node y) ∧ ∀ f ∈ s.flight, ¬ Between x y f
  link : ∃ lg, (s.node x).bits.bs.peers.get y = some lg
  stuck : (l.go x s).2 = l

theorem LoadRun.mono {H : Hashes} {debug : Bool} {ok ok' : NetSt P → NetEv P → NetSt P → Prop} {x : P} {s0 s : NetSt P} {p : Prog α} {k : Nat}
    {l : Loader α} (h : LoadRun H debug ok x s0 p k s l) (hok : ∀ s e s', ok s e s' → ok' s e s') : LoadRun H debug ok' x s0 p k s l := by
  induction h with
  | refl => exact .refl
  | other e _ h1 h2 h3 ih => exact .other e ih h1 (hok _ _ _ h2) h3
  | further _ h1 ih => exact .further ih h1
  | again _ h1 ih => exact .again ih h1

/-- Blocks with cids of the version 0. -/
theorem storeOf_v0 {sha : Bytes → Bytes} (hsha : Digest32 sha) {H : Hashes} (hH : H mhSha256 = some sha) {blocks : List (Cid × Bytes)}
    (hv0 : ∀ b ∈ blocks, b.1 = Cid.v0 (sha b.2)) (hno : NoOther sha blocks) :
    OneData H (storeOf blocks) ∧ (∀ b ∈ blocks, storeOf blocks b.1 = some b.2) ∧ ∀ c d, storeOf blocks c = some d → c.Valid := by
  have hcoll : NoCollision blocks := by
    intro b hb b' hb' he
    rw [hv0 b hb, hv0 b' hb'] at he
    simp only [Cid.v0, Cid.mk.injEq, true_and] at he
    exact hno b' hb' b.2 he
  refine ⟨?_, storeOf_mem hcoll, ?_⟩
  · intro c data d hc ha
    have hm := storeOf_some hc
    have hcv := hv0 _ hm
    dsimp only at hcv
    obtain ⟨f, hf, hp⟩ := ha
    rw [hcv] at hf hp
    have : f = sha := by
      have : H mhSha256 = some f := hf
      rw [hH] at this; cases this; rfl
    subst this
    refine hno _ hm d ?_
    obtain ⟨t, ht⟩ := hp
    have hl := congrArg List.length ht
    simp only [Cid.v0, List.length_append] at hl
    have hl1 := hsha data
    have hl2 := hsha d
    have : t = [] := List.eq_nil_of_length_eq_zero (by omega)
    subst this
    simpa [Cid.v0] using ht.symm
  · intro c d hc
    have := hv0 _ (storeOf_some hc)
    dsimp only at this
    rw [this]
    exact Cid.v0_valid _ (hsha _)

theorem ran_beside {sha : Bytes → Bytes} (hsha : Digest32 sha) {H : Hashes} (hH : H mhSha256 = some sha) {blocks : List (Cid × Bytes)}
    (hv0 : ∀ b ∈ blocks, b.1 = Cid.v0 (sha b.2)) (hno : NoOther sha blocks) {p : Prog α} (hall : BlocksThere (storeOf blocks) p) {debug : Bool} {x y : P}
    {s : NetSt P} {l : Loader α} (h : RanBeside H debug blocks x y p s l) : l.prog = .ret (p.eval (storeOf blocks)) := by
  obtain ⟨h1, -, h3⟩ := storeOf_v0 hsha hH hv0 hno
  obtain ⟨s0, k, g1, g2, g3, g4, g5, g6⟩ := h.run
  exact C89_ends h1 h3 hall h.ne (g1.mono fun _ _ _ h => ⟨h.1, h.2.1, fun c d hd => h.2.2 _ (storeOf_some hd)⟩)
    (fun c d hd => g2 _ (storeOf_some hd)) (fun c d hd => g3 _ (storeOf_some hd)) (fun c d hd => g4 _ (storeOf_some hd)) g5
    (g6.mono fun _ _ _ h => ⟨h.1, h.2.1, fun c d hd => h.2.2 _ (storeOf_some hd)⟩) h.idle h.link h.stuck

theorem fileDags_v0 {sha : Bytes → Bytes} (hsha : Digest32 sha) {args : AddArgs} {parts : List FormPart} {ops : List DirOp} {puts : List Unixfs.Block}
    (hfit : ∀ p ∈ parts, Fits args.chunk args.bf p.chunks.flatten) (h : FileDags sha args parts ops puts) :
    ∀ b ∈ puts, b.1 = Cid.v0 (sha b.2) := by
  induction h with
  | nil => intro b hb; cases hb
  | file _ _ _ hadd _ _ ih =>
    intro b hb
    rcases List.mem_append.mp hb with hb | hb
    · obtain ⟨bl, rt, h1, h2, hv0, -⟩ := C03_closed_dag hsha (hfit _ List.mem_cons_self)
      rw [hadd] at h1; cases h1
      exact hv0 b hb
    · exact ih (fun p hp => hfit p (List.mem_cons_of_mem _ hp)) b hb
  | dir _ _ _ _ ih => exact ih (fun p hp => hfit p (List.mem_cons_of_mem _ hp))

/-- The blocks that are stored for a form have cids of the version 0. -/
theorem added_v0 {sha : Bytes → Bytes} (hsha : Digest32 sha) {put : Unixfs.Block → Bool} {args : AddArgs} {parts : List FormPart} {broken : Bool}
    {ev : List AddEvent} (hfit : ∀ p ∈ parts, Fits args.chunk args.bf p.chunks.flatten)
    (hs : ∀ p ∈ parts, ∀ raw, p.filename = some raw → raw.length < 2 ^ 30) (htot : FormTotals sha args parts)
    (h : addStream sha put args parts broken = (ev, .ok ())) : ∀ b ∈ putsOf ev, b.1 = Cid.v0 (sha b.2) := by
  obtain ⟨ops, lines, nodes, puts, ha, hacc, hrun, hlines, hfd, hputs⟩ := addStream_inv hsha hfit h
  obtain ⟨qs, node, _, _, _, hout, hnode⟩ := C12_nodes hsha args.tree ops (ha.fits hs) (htot ops puts hfd) hrun
  intro b hb
  rw [hputs] at hb
  rcases List.mem_append.mp hb with hb | hb
  · exact fileDags_v0 hsha hfit hfd b hb
  · obtain ⟨n, hn, rfl⟩ := List.mem_map.mp hb
    rw [hout] at hn
    obtain ⟨x, hx, rfl⟩ := List.mem_map.mp hn
    exact (hnode x hx).cid

/-- **C89**: what was added over HTTP at one node, with a wrapping directory, is served by `cat` at another one that is connected to it. -/
theorem C89_cat {sha : Bytes → Bytes} (hsha : Digest32 sha) {H : Hashes} (hH : H mhSha256 = some sha) {put : Unixfs.Block → Bool} {args : AddArgs}
    (hw : args.wrap = true) {parts : List FormPart} {broken : Bool} {ev : List AddEvent}
    (hfit : ∀ p ∈ parts, Fits args.chunk args.bf p.chunks.flatten)
    (hs : ∀ p ∈ parts, ∀ raw, p.filename = some raw → raw.length < 2 ^ 30)
    (htot : FormTotals sha args parts) (h : addStream sha put args parts broken = (ev, .ok ())) (hno : NoOther sha (putsOf ev))
    (q : QueryEnv) (hl : ∀ s, utf8Ok s = true → q.lossy s = s) (sv : Served)
    (esc : UInt8 → Bool) (h37 : esc 37 = true) (h38 : esc 38 = true) (h43 : esc 43 = true) :
    ∃ top total, (linesOf ev).getLast? = some (.added [] top total) ∧
      ∀ p ∈ parts, p.contentType = some octetStream → ∀ raw path, p.filename = some raw → addPath raw = .ok path →
        path ≠ [] → ∀ range : Option (Nat × Nat), (∀ r, range = some r → r.1 + r.2 < 2 ^ 64) →
        ∃ fuel0 chunks, chunks.flatten = asked range p.chunks.flatten ∧ ∀ fuel, fuel0 ≤ fuel →
          ∀ (debug : Bool) (x y : P) (s : NetSt P) (l : Loader (Reply CatEnd)),
            RanBeside H debug (putsOf ev) x y (catRequestProg q { sv with fuel := fuel } (catUrl esc (ipfsText top path) range)) s l →
            l.prog = .ret (.stream chunks .done) := by
  have hv0 := added_v0 hsha hfit hs htot h
  obtain ⟨-, h2, -⟩ := storeOf_v0 hsha hH hv0 hno
  obtain ⟨top, total, h3, h4⟩ := C66_added hsha hw hfit hs htot h q hl { sv with fetch := storeOf (putsOf ev) } h2 esc h37 h38 h43
  refine ⟨top, total, h3, ?_⟩
  intro p hp hct raw path hraw hpath hne range hrange
  obtain ⟨fuel0, chunks, h5, h6⟩ := h4 p hp hct raw path hraw hpath hne range hrange
  refine ⟨fuel0, chunks, h5, ?_⟩
  intro fuel hfuel debug x y s l hran
  have he := h6 fuel hfuel
  rw [ran_beside hsha hH hv0 hno ((C89_needed _ fuel).2.2.1 q { sv with fuel := fuel } _ _ he) hran,
    (C89_programs _ fuel).2.2.2.2.1 q { sv with fuel := fuel }, he]

/-- **C89**: and `get` at the other node gives an archive of exactly the files and directories that were sent. -/
theorem C89_get {sha : Bytes → Bytes} (hsha : Digest32 sha) {H : Hashes} (hH : H mhSha256 = some sha) {put : Unixfs.Block → Bool} {args : AddArgs}
    (hw : args.wrap = true) {parts : List FormPart} {broken : Bool} {ev : List AddEvent}
    (hfit : ∀ p ∈ parts, Fits args.chunk args.bf p.chunks.flatten)
    (hs : ∀ p ∈ parts, ∀ raw, p.filename = some raw → raw.length < 2 ^ 30)
    (hbig : ∀ p ∈ parts, p.chunks.flatten.length < 2 ^ 33)
    (htot : FormTotals sha args parts) (h : addStream sha put args parts broken = (ev, .ok ())) (hno : NoOther sha (putsOf ev))
    (q : QueryEnv) (hl : ∀ s, utf8Ok s = true → q.lossy s = s) (sv : Served)
    (esc : UInt8 → Bool) (h37 : esc 37 = true) (h38 : esc 38 = true) (h43 : esc 43 = true) :
    ∃ top total, (linesOf ev).getLast? = some (.added [] top total) ∧
      (PathsFit top.toText parts → ∃ fuel0 chunks es,
        tarEntries chunks.flatten = some es ∧ (es.map TarEntry.path).Nodup ∧ (∀ e, e ∈ es ↔ Archived top.toText parts e) ∧
        ∀ fuel, fuel0 ≤ fuel → ∀ (debug : Bool) (x y : P) (s : NetSt P) (l : Loader (Reply GetEnd)),
          RanBeside H debug (putsOf ev) x y
            (getRequestProg q { sv with fuel := fuel } (catUrl esc ("/ipfs/".toUTF8.toList ++ top.toText) none)) s l →
          l.prog = .ret (.stream chunks .done)) := by
  have hv0 := added_v0 hsha hfit hs htot h
  obtain ⟨-, h2, -⟩ := storeOf_v0 hsha hH hv0 hno
  obtain ⟨top, total, h3, h4⟩ := C67_archive hsha hw hfit hs hbig htot h q hl { sv with fetch := storeOf (putsOf ev) } h2 esc h37 h38 h43
  refine ⟨top, total, h3, ?_⟩
  intro hpf
  obtain ⟨fuel0, chunks, es, h5, h6, h7, h8⟩ := h4 hpf
  refine ⟨fuel0, chunks, es, h5, h6, h7, ?_⟩
  intro fuel hfuel debug x y s l hran
  have he := h8 fuel hfuel
  rw [ran_beside hsha hH hv0 hno ((C89_needed _ fuel).2.2.2 q { sv with fuel := fuel } _ _ he) hran,
    (C89_programs _ fuel).2.2.2.2.2 q { sv with fuel := fuel }, he]

/-! ### Examples -/

/-- A hash that tells the entries of a table apart from each other and from everything else. -/
def tableSha (table : List Bytes) (d : Bytes) : Bytes := UInt8.ofNat (table.findIdx (· = d)) :: List.replicate 31 0

/-- A form with a file, which is cut into two leaves. -/
def netForm : List FormPart := [⟨some "file".toUTF8.toList, some "a%20b".toUTF8.toList, some octetStream, [[1, 2, 3], [4]], false⟩]

def netArgs : AddArgs := { wrap := true, chunk := 2, bf := 2 }

/-- The data of the blocks: two leaves, the root of the file, and the directory. -/
def netTable : List Bytes :=
  [[10, 8, 8, 2, 18, 2, 1, 2, 24, 2],
   [10, 8, 8, 2, 18, 2, 3, 4, 24, 2],
   [18, 40, 10, 34, 18, 32, 0] ++ List.replicate 31 0 ++ [18, 0, 24, 10, 18, 40, 10, 34, 18, 32, 1] ++ List.replicate 31 0 ++
     [18, 0, 24, 10, 10, 8, 8, 2, 24, 4, 32, 2, 32, 2],
   [18, 43, 10, 34, 18, 32, 2] ++ List.replicate 31 0 ++ [18, 3, 97, 32, 98, 24, 114, 10, 2, 8, 1]]

def formSha : Bytes → Bytes := tableSha netTable

def formHashes : Hashes := fun n => if n = mhSha256 then some formSha else none

def netAdded : List AddEvent := ((addRounds formSha (fun _ => true) netArgs netForm false 20).map Prod.fst).getD []

def formBlocks : List (Cid × Bytes) := putsOf netAdded

def netTop : Cid := Cid.v0 (3 :: List.replicate 31 0)

theorem netAdded_eq : addStream formSha (fun _ => true) netArgs netForm false = (netAdded, .ok ()) := by
  apply addRounds_eq (n := 20)
  have h : ((addRounds formSha (fun _ => true) netArgs netForm false 20).map Prod.snd) = some (.ok ()) := by decide +kernel
  unfold netAdded
  cases hr : addRounds formSha (fun _ => true) netArgs netForm false 20 with
  | none => rw [hr] at h; cases h
  | some r =>
    rw [hr] at h
    obtain ⟨a, b⟩ := r
    simp only [Option.map_some, Option.some.injEq] at h
    subst h
    rfl

theorem netAdded_shape : formBlocks.map Prod.snd = netTable ∧ (linesOf netAdded).getLast? = some (.added [] netTop 163) := by decide +kernel

theorem tableSha_digest32 (table : List Bytes) : Digest32 (tableSha table) := by intro d; simp [tableSha]

theorem formBlocks_noOther : NoOther formSha formBlocks := by
  intro b hb d hd
  have hm : b.2 ∈ netTable := by
    rw [← netAdded_shape.1]; exact List.mem_map_of_mem hb
  have hlt : netTable.findIdx (· = b.2) < netTable.length := List.findIdx_lt_length_of_exists ⟨b.2, hm, by simp⟩
  have hle : netTable.findIdx (· = d) ≤ netTable.length := List.findIdx_le_length
  have hlen : netTable.length = 4 := by decide +kernel
  have he : netTable.findIdx (· = d) = netTable.findIdx (· = b.2) := by
    simp only [formSha, tableSha, List.cons.injEq, and_true] at hd
    have := congrArg UInt8.toNat hd
    simp only [UInt8.toNat_ofNat'] at this
    omega
  have h1 := List.findIdx_getElem (w := hlt)
  have h2 := List.findIdx_getElem (p := fun x => decide (x = d)) (xs := netTable) (w := by omega)
  simp only [decide_eq_true_eq] at h1 h2
  rw [← h1, ← h2]
  simp only [he]

theorem netForm_fits : ∀ p ∈ netForm, Fits netArgs.chunk netArgs.bf p.chunks.flatten := by
  intro p hp
  simp only [netForm, List.mem_cons, List.not_mem_nil, or_false] at hp
  subst hp
  constructor <;> simp [netArgs]

theorem netForm_totals : FormTotals formSha netArgs netForm := by
  intro ops puts h
  unfold netForm at h
  have key : TotalsFit formSha (builderAfter netArgs.tree [.put "a b".toUTF8.toList (Cid.v0 (2 :: List.replicate 31 0)) 114]) := by
    unfold TotalsFit; decide +kernel
  cases h with
  | dir _ _ h _ => exact absurd (Option.some.inj h) (by decide +kernel)
  | @file _ _ _ blocks _ _ path root a1 a2 _ a4 a5 a6 =>
    cases a6
    have e : (match addFile formSha 2 2 [[1, 2, 3], [4]] with
      | .ok bl => some ((bl.getLast?).map Prod.fst, bytesIn bl)
      | _ => none) = some (some (Cid.v0 (2 :: List.replicate 31 0)), 114) := by decide +kernel
    have a4' : addFile formSha 2 2 [[1, 2, 3], [4]] = .ok blocks := a4
    rw [a4'] at e
    simp only [a5, Option.map_some, Option.some.injEq, Prod.mk.injEq] at e
    rw [e.1, e.2]
    cases a1
    have e1 : addPath "a%20b".toUTF8.toList = .ok "a b".toUTF8.toList := by decide +kernel
    rw [e1] at a2
    cases a2
    exact key

theorem netForm_paths : PathsFit netTop.toText netForm := by
  have key : (splitSlash "a b".toUTF8.toList).length = 1 ∧
      ∀ n < 2, TarPath (joinSlash (netTop.toText :: (splitSlash "a b".toUTF8.toList).take n)) := by decide +kernel
  intro q hq
  rcases hq with rfl | ⟨p, path, ⟨hp, raw, hr, hpath⟩, hpre⟩
  · exact key.2 0 (by decide)
  · simp only [netForm, List.mem_cons, List.not_mem_nil, or_false] at hp
    subst hp
    have := Option.some.inj hr
    subst this
    have e : addPath "a%20b".toUTF8.toList = .ok "a b".toUTF8.toList := by decide +kernel
    rw [e] at hpath
    cases hpath
    have hle := hpre.length_le
    have := key.2 q.length (by omega)
    rw [← List.prefix_iff_eq_take.mp hpre] at this
    exact this

/-! #### Runs with a program that can be computed -/

def notMineB (x : Fin 3) (l : Loader α) (e : NetEv (Fin 3)) : Bool :=
  match e with
  | .await y i => decide (¬ (y = x ∧ l.wait = some i))
  | .drop y i => decide (¬ (y = x ∧ l.wait = some i))
  | _ => true

theorem notMineB_sound {x : Fin 3} {l : Loader α} {e : NetEv (Fin 3)} (h : notMineB x l e = true) : NotMine x l e := by
  intro i hi
  constructor
  · rintro rfl; simp [notMineB, hi] at h
  · rintro rfl; simp [notMineB, hi] at h

/-- `none` is the program. -/
def loadRun (H : Hashes) (debug : Bool) (ok : NetSt (Fin 3) → NetEv (Fin 3) → NetSt (Fin 3) → Bool) (x : Fin 3) :
    NetSt (Fin 3) → Loader α → List (Option (NetEv (Fin 3))) → Option (NetSt (Fin 3) × Loader α)
  | s, l, [] => some (s, l)
  | s, l, none :: es => loadRun H debug ok x (l.go x s).1 (l.go x s).2 es
  | s, l, some e :: es =>
    match s.step H debug e with
    | none => none
    | some s' => if ok s e s' && notMineB x l e then loadRun H debug ok x s' l es else none

theorem loadRun_sound {H : Hashes} {debug : Bool} {ok : NetSt (Fin 3) → NetEv (Fin 3) → NetSt (Fin 3) → Bool}
    {okP : NetSt (Fin 3) → NetEv (Fin 3) → NetSt (Fin 3) → Prop} (hok : ∀ s e s', ok s e s' = true → okP s e s') {x : Fin 3} {s0 : NetSt (Fin 3)}
    {p : Prog α} : ∀ (evs : List (Option (NetEv (Fin 3)))) (k : Nat) (s s' : NetSt (Fin 3)) (l l' : Loader α), LoadRun H debug okP x s0 p k s l →
    loadRun H debug ok x s l evs = some (s', l') → ∃ k', LoadRun H debug okP x s0 p k' s' l' := by
  intro evs
  induction evs with
  | nil => intro k s s' l l' h hr; cases hr; exact ⟨k, h⟩
  | cons e es ih =>
    intro k s s' l l' h hr
    cases e with
    | none =>
      simp only [loadRun] at hr
      by_cases he : (l.go x s).2 = l
      · have h' := h.again he
        rw [he] at hr
        exact ih k _ _ _ _ h' hr
      · exact ih (k + 1) _ _ _ _ (h.further he) hr
    | some e =>
      simp only [loadRun] at hr
      split at hr
      · cases hr
      · rename_i t ht
        split at hr
        · rename_i ho
          simp only [Bool.and_eq_true] at ho
          exact ih k _ _ _ _ (h.other e (notMineB_sound ho.2) (hok _ _ _ ho.1) ht) hr
        · cases hr

def formPreB (s : NetSt (Fin 3)) (e : NetEv (Fin 3)) (s' : NetSt (Fin 3)) : Bool :=
  inOrderB formHashes e && fitsB s' && formBlocks.all (fun b => noAliasB 0 b.1 s e)

def formPostB (s : NetSt (Fin 3)) (e : NetEv (Fin 3)) (s' : NetSt (Fin 3)) : Bool :=
  inOrderB formHashes e && fitsB s' && formBlocks.all (fun b => noAliasB 0 b.1 s e && calmB 0 1 b.1 s e s')

theorem formPreB_sound (s : NetSt (Fin 3)) (e : NetEv (Fin 3)) (s' : NetSt (Fin 3)) (h : formPreB s e s' = true) :
    InOrder formHashes e ∧ Short64 s' ∧ ∀ b ∈ formBlocks, NoAlias 0 b.1 s e := by
  simp only [formPreB, Bool.and_eq_true, List.all_eq_true] at h
  exact ⟨inOrderB_sound h.1.1, fitsB_sound h.1.2, fun b hb => noAliasB_sound (h.2 b hb)⟩

theorem formPostB_sound (s : NetSt (Fin 3)) (e : NetEv (Fin 3)) (s' : NetSt (Fin 3)) (h : formPostB s e s' = true) :
    InOrder formHashes e ∧ Short64 s' ∧ ∀ b ∈ formBlocks, NoAlias 0 b.1 s e ∧ Undisturbed 0 1 b.1 s e s' := by
  simp only [formPostB, Bool.and_eq_true, List.all_eq_true] at h
  exact ⟨inOrderB_sound h.1.1, fitsB_sound h.1.2, fun b hb => ⟨noAliasB_sound (h.2 b hb).1, calmB_sound (h.2 b hb).2⟩⟩

/-- The second node has the blocks of the form, and the two are connected. -/
def formPre : List (NetEv (Fin 3)) :=
  formBlocks.map (fun b => .put 1 ⟨b.1, b.2⟩) ++
    [.event 1, .event 1, .event 1, .event 1, .established 1 0, .established 0 1, .swarm 0 [1], .swarm 1 [0], .deliver 0, .deliver 0]

def formStartB (s : NetSt (Fin 3)) : Bool :=
  formBlocks.all (fun b => decide ((s.node 1).store.getBlock b.1 = some ⟨b.1, b.2⟩) && decide ((s.node 1).bits.bs.wanted.get b.1 = none) &&
    decide (RepoEv.want b.1 ∉ (s.node 1).chan) && decide ((s.node 0).bits.bs.wanted.get b.1 = none)) && s.flight.isEmpty

def retB (l : Loader α) : Bool :=
  match l.prog with
  | .ret _ => true
  | _ => false

def formEndB (q : NetSt (Fin 3) × Loader α) : Bool :=
  idleB (q.1.node 0) && idleB (q.1.node 1) && q.1.flight.isEmpty && ((q.1.node 0).bits.bs.peers.get 1).isSome && retB q.2

theorem stuck_ret {P : Type} [DecidableEq P] {x : P} {s : NetSt P} {l : Loader α} (h : retB l = true) : (l.go x s).2 = l := by
  unfold retB at h
  split at h
  · rename_i a ha; simp only [Loader.go, ha]
  · cases h

/-- Four blocks go over. -/
def formRun : List (Option (NetEv (Fin 3))) := fileRound ++ fileRound ++ fileRound ++ fileRound

theorem ran_met {p : Prog α} (h : ((netRun formHashes false formPreB NetSt.init formPre).any (fun s0 => formStartB s0 &&
    (loadRun formHashes false formPostB 0 s0 ⟨p, none⟩ formRun).any formEndB)) = true) :
    ∃ s l, RanBeside formHashes false formBlocks (0 : Fin 3) 1 p s l := by
  obtain ⟨s0, -, h1, h2⟩ := netRun_end (H := formHashes) (debug := false) (ok := formPreB) (s := NetSt.init) (evs := formPre) formPreB_sound h
  simp only [Bool.and_eq_true] at h2
  cases hr : loadRun formHashes false formPostB 0 s0 ⟨p, none⟩ formRun with
  | none => rw [hr] at h2; cases h2.2
  | some q =>
    rw [hr] at h2
    obtain ⟨s, l⟩ := q
    obtain ⟨k, hk⟩ := loadRun_sound formPostB_sound formRun 0 s0 s ⟨p, none⟩ l .refl hr
    have h5 := h2.1
    have h4 := h2.2
    simp only [Option.any_some, formStartB, formEndB, Bool.and_eq_true, List.all_eq_true, decide_eq_true_eq, List.isEmpty_iff] at h5 h4
    obtain ⟨⟨⟨⟨g1, g2⟩, g3⟩, g4⟩, g5⟩ := h4
    refine ⟨s, l, ⟨by decide, ⟨s0, k, h1, fun b hb => (h5.1 b hb).1.1.1, fun b hb => ⟨(h5.1 b hb).1.1.2, (h5.1 b hb).1.2⟩,
      fun b hb => Or.inl (h5.1 b hb).2, (by rw [h5.2]; intro f hf; cases hf), hk⟩, ⟨idleB_sound g1, idleB_sound g2, (by rw [g3]; intro f hf; cases hf)⟩,
      Option.isSome_iff_exists.mp g4, stuck_ret g5⟩⟩

/-- The node that is asked. -/
def netServed : Served := { exServed with fetch := fun _ => none, fuel := 20 }

/-- Runs that meet the hypotheses of `C89_cat` and `C89_get`: of a request for a range of the file, and one for the archive; four blocks go
over the network. -/
theorem C89_met :
    (∃ s l, RanBeside formHashes false (putsOf netAdded) (0 : Fin 3) 1
      (catRequestProg exQueryEnv netServed (catUrl exEsc (ipfsText netTop "a b".toUTF8.toList) (some (1, 2)))) s l) ∧
    ∃ s l, RanBeside formHashes false (putsOf netAdded) (0 : Fin 3) 1
      (getRequestProg exQueryEnv netServed (catUrl exEsc ("/ipfs/".toUTF8.toList ++ netTop.toText) none)) s l :=
  ⟨ran_met (by decide +kernel), ran_met (by decide +kernel)⟩

/-- What `C89_cat` says about that form. -/
example := C89_cat (P := Fin 3) (tableSha_digest32 netTable) (H := formHashes) rfl (put := fun _ => true) (args := netArgs) rfl netForm_fits
  (by decide +kernel) netForm_totals netAdded_eq formBlocks_noOther exQueryEnv (fun _ _ => rfl) netServed exEsc rfl rfl rfl

end Verif.Props
