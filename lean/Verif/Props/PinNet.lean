import Verif.Net.PinNet
import Verif.Props.NetKept
import Verif.Props.Pin

/-!
# C91: what is pinned at a node of the network is downloaded and stays
-/

namespace Verif.Props

open Verif Verif.Repo Verif.Repo.Subs Verif.Bitswap Verif.Net Verif.Ipld Verif.Ipfs.Pin Verif.Ipfs.Refs
open Verif.Bitswap.Bitswap

variable {P : Type} [DecidableEq P] {α : Type}

/-! ### Specification -/

/-- What may happen: blocks have the data of their cids, none of those in use is stored under another cid, futures are polled by those who
have them, requests are about cids in use, and nobody removes a block that is about to be pinned. -/
def PinOk (H : Hashes) (U : Cid → Prop) (x : P) (s : PinNet P) : PinEv P → Prop
  | .net e => PutsTrue H e ∧ (∀ c, U c → NoAlias x c s.net e) ∧
      ∀ id j i, s.jobs id = some j → j.stage.wait = some i → e ≠ .await x i ∧ e ≠ .drop x i
  | .ask _ c _ => U c
  | .unpin c _ => U c
  | .remove c => U c ∧ ∀ id j, s.jobs id = some j → j.cid ≠ c
  | _ => True

/-- What is to be kept after an answer. -/
def KeptPins.told (k : KeptPins) : Option (NodeOp × Bool) → KeptPins
  | none => k
  | some (op, ok) => k.after op ok

/-- Anything that may happen from the start on, in any order. -/
inductive PinRun (H : Hashes) (debug : Bool) (env : PinEnv) (le : Cid → Cid → Bool) (x : P) (ok : PinNet P → PinEv P → Prop) :
    PinNet P → KeptPins → Prop
  | refl : PinRun H debug env le x ok ⟨NetSt.init, [], fun _ => none, none⟩ {}
  | step {s s' : PinNet P} {k : KeptPins} {a : Option (NodeOp × Bool)} (e : PinEv P) : PinRun H debug env le x ok s k → ok s e →
      s.step H debug env le x e = some (s', a) → PinRun H debug env le x ok s' (k.told a)

/-! ### Helpers: the walk -/

theorem blocksThere_of_bind {β : Type} {fetch : Cid → Option Bytes} {f : α → Prog β} {p : Prog α} (h : BlocksThere fetch (p.bind f)) :
    BlocksThere fetch p := by
  induction p with
  | ret a => exact blocksThere_ret a
  | load c k e ih1 ih2 =>
    obtain ⟨n, hn⟩ := h
    obtain ⟨d, m, hd, hm, -⟩ := needs_load hn
    exact blocksThere_load hd (ih1 _ ⟨m, hm⟩)

theorem pinLoop_stream {env : PinEnv} {le : Cid → Cid → Bool} {kind : PinKind} {f : Cid → Option Bytes} (fuel : Nat) (work : List Work)
    (vis : List Cid) (g : MemPins) (n : Nat) {r : Except PinErr Nat} {g' : MemPins}
    (hall : BlocksThere f (pinLoopProg env le kind fuel work vis g n)) (he : (pinLoopProg env le kind fuel work vis g n).eval f = some (r, g')) :
    ∃ L, MemPins.insertRefs le kind g L n = (r, g') ∧
      (none ∈ L ∨ ∃ items, loop walkOpts (look env.ipld env.size f) fuel work vis = some (items, .done) ∧ AllEdges items ∧ L = (dests items).map some) := by
  induction fuel generalizing work vis g n with
  | zero => cases he
  | succ fuel ih =>
    cases work with
    | nil =>
      simp only [pinLoopProg, Prog.eval, Option.some.injEq, Prod.mk.injEq] at he
      obtain ⟨rfl, rfl⟩ := he
      exact ⟨[], rfl, Or.inr ⟨[], rfl, (fun i hi => by cases hi), rfl⟩⟩
    | cons w work =>
      obtain ⟨m, hm⟩ := hall
      simp only [pinLoopProg] at hm he
      obtain ⟨d, m', hd, hm', -, hev⟩ := needs_load hm
      rw [hev] at he
      dsimp only at hm' he
      cases hdec : decodeIpld env.ipld env.size w.edge.destination d with
      | error x =>
        simp only [hdec, Prog.eval, Option.some.injEq, Prod.mk.injEq] at he
        obtain ⟨rfl, rfl⟩ := he
        exact ⟨[none], rfl, Or.inl (by simp)⟩
      | ok doc =>
        simp only [hdec] at hm' he
        cases hls : ipldLinks w.edge.destination doc with
        | none =>
          simp only [hls, Prog.eval, Option.some.injEq, Prod.mk.injEq] at he
          obtain ⟨rfl, rfl⟩ := he
          exact ⟨[none], rfl, Or.inl (by simp)⟩
        | some ls =>
          simp only [hls] at hm' he
          cases hins : g.insertPin le w.edge.destination kind with
          | error x =>
            simp only [hins, Prog.eval, Option.some.injEq, Prod.mk.injEq] at he
            obtain ⟨rfl, rfl⟩ := he
            exact ⟨[some w.edge.destination, none], by simp [MemPins.insertRefs, hins], Or.inl (by simp)⟩
          | ok q =>
            obtain ⟨ch, g1⟩ := q
            simp only [hins] at hm' he
            obtain ⟨L, h1, h2⟩ := ih _ _ _ _ ⟨m', hm'⟩ he
            refine ⟨some w.edge.destination :: L, by simp only [MemPins.insertRefs, hins]; exact h1, ?_⟩
            rcases h2 with h2 | ⟨items, h2, h3, h4⟩
            · exact Or.inl (List.mem_cons_of_mem _ h2)
            · right
              refine ⟨.edge w.edge :: items, ?_, ?_, ?_⟩
              · rw [loop]
                simp only [traverse, walkOpts, look, hd, hdec, hls]
                simp only [walkOpts] at h2
                simp [h2]
              · intro i hi
                rcases List.mem_cons.mp hi with rfl | hi
                · exact ⟨_, rfl⟩
                · exact h3 i hi
              · rw [h4]; simp [dests, edgesOf]

/-- What a walk that has ended left behind: the stream failed, or it was everything below. -/
theorem pinProg_stream {env : PinEnv} {le : Cid → Cid → Bool} {f : Cid → Option Bytes} {g g' : MemPins} {c : Cid}
    {ls : List (Option Bytes × Cid)} {r : Except PinErr Unit} (hall : BlocksThere f (pinProg env le g c ls))
    (he : (pinProg env le g c ls).eval f = some (r, g')) :
    ∃ L, MemPins.insertRecursive le g c L = (r, g') ∧ (none ∈ L ∨ ∃ items,
      refs walkOpts (look env.ipld env.size f) env.fuel [(c, ls)] = some (items, .done) ∧ AllEdges items ∧ L = (dests items).map some) := by
  unfold pinProg at hall he
  unfold MemPins.insertRecursive
  cases hins : g.insertPin le c .recursiveIntention with
  | error x =>
    simp only [hins, Prog.eval, Option.some.injEq, Prod.mk.injEq] at he
    obtain ⟨rfl, rfl⟩ := he
    exact ⟨[none], rfl, Or.inl (by simp)⟩
  | ok q =>
    obtain ⟨ch, g1⟩ := q
    simp only [hins] at hall he
    rw [eval_map] at he
    have hall' := blocksThere_of_bind hall
    cases hl : (pinLoopProg env le (.indirectFrom (Cid.asV1 c)) env.fuel (enqueueRoots true [(c, ls)] []).1 (enqueueRoots true [(c, ls)] []).2 g1 0).eval f with
    | none => rw [hl] at he; cases he
    | some q =>
      obtain ⟨r1, g2⟩ := q
      obtain ⟨L, h1, h2⟩ := pinLoop_stream _ _ _ _ _ hall' hl
      rw [hl] at he
      refine ⟨L, ?_, ?_⟩
      · dsimp only
        rw [h1]
        cases r1 with
        | error x => simp only [Option.some.injEq] at he; exact he
        | ok count =>
          dsimp only at he ⊢
          cases hi : g2.insertPin le c (.recursive count) with
          | error x => rw [hi] at he; simp only [Option.some.injEq] at he; exact he
          | ok q => rw [hi] at he; simp only [Option.some.injEq] at he; exact he
      · rw [refs_walk]
        exact h2

/-- The program loads only such blocks, as long as they have the data they stand for. -/
def LoadsIn (content : Cid → Bytes) (V : Cid → Prop) : Prog α → Prop
  | .ret _ => True
  | .load c k _ => V c ∧ LoadsIn content V (k ⟨c, content c⟩)

theorem loadsIn_bind {β : Type} {content : Cid → Bytes} {V : Cid → Prop} {f : α → Prog β} {p : Prog α} (h : LoadsIn content V p)
    (hf : ∀ a, LoadsIn content V (f a)) : LoadsIn content V (p.bind f) := by
  induction p with
  | ret a => exact hf a
  | load c k e ih1 ih2 => exact ⟨h.1, ih1 _ h.2⟩

theorem loadsIn_pinLoop {env : PinEnv} {content : Cid → Bytes} {U : Cid → Prop} (hcl : ∀ a b, U a → LinkTo env content a b → U b)
    {le : Cid → Cid → Bool} {kind : PinKind} (fuel : Nat) (work : List Work) (vis : List Cid) (g : MemPins) (n : Nat)
    (hw : ∀ w ∈ work, U w.edge.destination) : LoadsIn content U (pinLoopProg env le kind fuel work vis g n) := by
  induction fuel generalizing work vis g n with
  | zero => trivial
  | succ fuel ih =>
    cases work with
    | nil => trivial
    | cons w work =>
      have hu := hw w List.mem_cons_self
      refine ⟨hu, ?_⟩
      dsimp only
      cases hdec : decodeIpld env.ipld env.size w.edge.destination (content w.edge.destination) with
      | error x => trivial
      | ok doc =>
        dsimp only
        cases hls : ipldLinks w.edge.destination doc with
        | none => trivial
        | some ls =>
          dsimp only
          have hfull : fullLook env content w.edge.destination = .links ls := by simp [fullLook, look, hdec, hls]
          cases g.insertPin le w.edge.destination kind with
          | error x => trivial
          | ok q =>
            refine ih _ _ _ _ ?_
            intro w' hw'
            rcases List.mem_append.mp hw' with h | h
            · exact hw w' (List.mem_cons_of_mem _ h)
            · obtain ⟨-, -, name, h4, -⟩ := (enqueue_unique _ _ _ _).1 w' h
              exact hcl _ _ hu ((fullLook_links hfull _).mp ⟨_, h4, rfl⟩)

theorem loadsIn_pinProg {env : PinEnv} {content : Cid → Bytes} {U : Cid → Prop} (hcl : ∀ a b, U a → LinkTo env content a b → U b)
    {le : Cid → Cid → Bool} {g : MemPins} {c : Cid} (hc : U c) {ls : List (Option Bytes × Cid)} (hfull : fullLook env content c = .links ls) :
    LoadsIn content U (pinProg env le g c ls) := by
  unfold pinProg
  cases g.insertPin le c .recursiveIntention with
  | error x => trivial
  | ok q =>
    refine loadsIn_bind (loadsIn_pinLoop hcl _ _ _ _ _ ?_) (fun a => trivial)
    intro w hw
    have hf := ((enqueueRoots_unique (fullLook env content) [(c, ls)] [(c, ls)] (fun _ h => h) []).1 w hw).2.2
    generalize w.edge = ed at hf
    cases hf with
    | root h1 h2 =>
      obtain ⟨rfl, rfl⟩ := Prod.mk.inj (List.mem_singleton.mp h1)
      exact hcl _ _ hc ((fullLook_links hfull _).mp ⟨_, h2, rfl⟩)

/-! ### Helpers: a request under way -/

open Classical in
/-- The data of the blocks in use. -/
noncomputable def inUse (content : Cid → Bytes) (U : Cid → Prop) (c : Cid) : Option Bytes := if U c then some (content c) else none

theorem inUse_pos {content : Cid → Bytes} {U : Cid → Prop} {c : Cid} (h : U c) : inUse content U c = some (content c) := if_pos h

theorem inUse_some {content : Cid → Bytes} {U : Cid → Prop} {c : Cid} {d : Bytes} (h : inUse content U c = some d) : U c ∧ d = content c := by
  unfold inUse at h
  split at h
  · rename_i hu; cases h; exact ⟨hu, rfl⟩
  · cases h

/-- What a program has loaded is stored, what its future has is stored, and it loads only such blocks. -/
structure JobInv (content : Cid → Bytes) (U V : Cid → Prop) (p : Prog α) (x : P) (s : NetSt P) (l : Loader α) (got : List Cid) : Prop where
  came : CameTo (inUse content U) got p l.prog ∧ ∀ c ∈ got, V c ∧ (s.node x).store.getBlock c = some ⟨c, content c⟩
  only : LoadsIn content V l.prog
  held : ∀ i, l.wait = some i → ∃ c k e, l.prog = .load c k e ∧ HeldBy (s.node x).reg c i ∧ ReadyStored (s.node x) c i

omit [DecidableEq P] in
theorem JobInv.start {content : Cid → Bytes} {U V : Cid → Prop} {p : Prog α} {x : P} {s : NetSt P} (h : LoadsIn content V p) :
    JobInv content U V p x s ⟨p, none⟩ [] :=
  ⟨⟨.here _, fun c hc => by cases hc⟩, h, fun i hi => by cases hi⟩

theorem JobInv.net {content : Cid → Bytes} {U V : Cid → Prop} {p : Prog α} {x : P} {s s' : NetSt P} {l : Loader α} {H : Hashes} {debug : Bool}
    {e : NetEv P} {got : List Cid} (h : JobInv content U V p x s l got) (hn : TrueInv H (s.node x)) (hmine : NotMine x l e) (hr : ∀ c, V c → NotTakenOut x c e)
    (hst : s.step H debug e = some s') : JobInv content U V p x s' l got := by
  obtain ⟨h1, h2⟩ := h.came
  refine ⟨⟨h1, fun c hc => ⟨(h2 c hc).1, getBlock_stays (h2 c hc).2 (hr c (h2 c hc).1) hst⟩⟩, h.only, ?_⟩
  intro i hi
  obtain ⟨c, k, e', hp, hh, hrs⟩ := h.held i hi
  have hv : V c := by have := h.only; rw [hp] at this; exact this.1
  exact ⟨c, k, e', hp, heldBy_net hn hh (hmine i hi) hst, readyStored_net hn hh hrs (hmine i hi) (hr c hv) hst⟩

omit [DecidableEq P] in
theorem jobInv_take {content : Cid → Bytes} {U V : Cid → Prop} (hV : ∀ c, V c → U c) {p : Prog α} {x : P} {s s' : NetSt P} {l : Loader α} {H : Hashes}
    (hone : OneData H (inUse content U)) {c : Cid} {k : Repo.Block → Prog α} {e : Prog α} {b : Repo.Block} (hp : l.prog = .load c k e) (hb : b.cid = c)
    (ha : Authentic H c b.data) (hst : (s.node x).store.getBlock c = some b) (hs : (s'.node x).store = (s.node x).store)
    {got : List Cid} (hi : JobInv content U V p x s l got) : JobInv content U V p x s' ⟨k b, none⟩ (got ++ [c]) := by
  have ho := hi.only
  rw [hp] at ho
  have hd : inUse content U c = some (content c) := inUse_pos (hV c ho.1)
  have hbd : b = ⟨c, content c⟩ := by
    have := hone c _ b.data hd ha
    cases b
    simp_all
  subst hbd
  obtain ⟨h1, h2⟩ := hi.came
  refine ⟨⟨h1.snoc hp hd, ?_⟩, ho.2, fun i hi => by cases hi⟩
  intro c' hc'
  rw [hs]
  rcases List.mem_append.mp hc' with h | h
  · exact h2 c' h
  · rw [List.mem_singleton.mp h]; exact ⟨ho.1, hst⟩

/-- The program goes on: the future it then awaits is the one it awaited, or a new one. -/
theorem JobInv.go {content : Cid → Bytes} {U V : Cid → Prop} (hV : ∀ c, V c → U c) {p : Prog α} {x : P} {s : NetSt P} {l : Loader α} {H : Hashes}
    (hone : OneData H (inUse content U)) (hn : TrueInv H (s.node x))
    (hown : ∀ c, U c → ∀ b, (s.node x).store.getBlock c = some b → b.cid = c) {got : List Cid}
    (hi : JobInv content U V p x s l got) : JobInv content U V p x (l.go x s).1 (l.go x s).2 (got ++ l.gets x s) ∧
      ∀ i, (l.go x s).2.wait = some i → l.wait = some i ∨ i = (s.node x).reg.nextId := by
  unfold Loader.go Loader.gets
  cases hp : l.prog with
  | ret a => exact ⟨by rw [List.append_nil]; exact hi, fun i hi => Or.inl hi⟩
  | load c k e =>
    have hu : V c := by have := hi.only; rw [hp] at this; exact this.1
    dsimp only
    cases hw : l.wait with
    | some i =>
      obtain ⟨c', k', e', hc, hh, hrs⟩ := hi.held i hw
      rw [hp] at hc; cases hc
      dsimp only
      unfold Loader.poll
      obtain ⟨g1, sub, g2, g3⟩ := hh
      cases sub with
      | ready r =>
        obtain ⟨reg', hq⟩ : ∃ reg', (s.node x).reg.poll i = some (reg', .done r) := by
          unfold Reg.poll
          rw [g1]; dsimp only; rw [g2]
          exact ⟨_, rfl⟩
        rw [hq]
        dsimp only
        obtain ⟨t1, t2⟩ := hn.ready _ _ _ g2
        rw [t1] at t2
        refine ⟨jobInv_take hV hone hp t1 t2 (hrs r g2) ?_ hi, fun i hi => by cases hi⟩
        rw [upd_self, (drop_shape _ i).1]
      | pending w m =>
        have hq : (s.node x).reg.poll i = some ({ (s.node x).reg with subs := AMap.set (s.node x).reg.subs (c, i) (.pending true m) }, .pending) := by
          unfold Reg.poll
          rw [g1]; dsimp only; rw [g2]
        rw [hq]
        dsimp only
        refine ⟨⟨?_, hi.only, ?_⟩, fun j hj => Or.inl (by rw [← hj, hw])⟩
        · rw [upd_self, List.append_nil]; exact hi.came
        · intro j hj
          rw [hw] at hj; cases hj
          refine ⟨c, k, e, hp, ?_, ?_⟩
          · rw [upd_self]
            exact ⟨g1, .pending true m, by dsimp only; rw [AMap.get_set, if_pos rfl], by simp⟩
          · intro b hb
            rw [upd_self] at hb
            dsimp only at hb
            rw [AMap.get_set, if_pos rfl] at hb
            cases hb
      | cancelled => exact absurd rfl g3
    | none =>
      dsimp only
      unfold Loader.ask
      have hs : ((s.node x).get c).2.store = (s.node x).store := by
        unfold Peer.get; split <;> rfl
      rcases hg : (s.node x).get c with ⟨_ | b, n'⟩
      · rw [hg] at hs
        dsimp only
        have hg2 : n' = ((s.node x).get c).2 := by rw [hg]
        refine ⟨⟨?_, hi.only, ?_⟩, fun j hj => Or.inr (by cases hj; rfl)⟩
        · rw [upd_self, hs]; simpa using hi.came
        · intro j hj
          cases hj
          refine ⟨c, k, e, hp, ?_, ?_⟩
          · rw [upd_self, hg2]
            exact heldBy_new hn (by rw [hg])
          · intro b hb
            rw [upd_self, hg2] at hb
            unfold Peer.get at hg hb
            split at hg
            · cases hg
            · rename_i hnone
              rw [hnone] at hb
              obtain ⟨reg', t1, t2, t3, t4, t5⟩ := insert_true hn.owner hn.shut c
              dsimp only at hb
              rw [t1, t4, AMap.get_set, if_pos rfl] at hb
              cases hb
      · obtain ⟨g0, g1, g2⟩ := get_answer hn (by rw [hg] : ((s.node x).get c).1 = some b)
        rw [hg] at hs
        exact ⟨jobInv_take hV hone hp (hown c (hV c hu) b g0) g2 g0 (by rw [upd_self]; exact hs) hi, fun i hi => by cases hi⟩

/-- What is known of the nodes. -/
abbrev NetOk (H : Hashes) (debug : Bool) (U : Cid → Prop) (x : P) (s : NetSt P) : Prop :=
  NetRun H debug (fun s e _ => PutsTrue H e ∧ ∀ c, U c → NoAlias x c s e) NetSt.init s

/-- While another program goes on. -/
theorem JobInv.other {β : Type} {content : Cid → Bytes} {U V : Cid → Prop} {p : Prog α} {x : P} {s : NetSt P} {l : Loader α} {m : Loader β} {H : Hashes}
    {debug : Bool} {got : List Cid} (h : JobInv content U V p x s l got) (hnet : NetOk H debug U x s) (hne : ∀ i, l.wait = some i → m.wait ≠ some i) :
    JobInv content U V p x (m.go x s).1 l got := by
  have hrun : NetRun H debug (fun s e _ => (PutsTrue H e ∧ ∀ c, U c → NoAlias x c s e) ∧ NotMine x l e ∧ ∀ c, NotTakenOut x c e) s (m.go x s).1 := by
    refine load_events x s m _ (fun _ _ _ _ => ⟨⟨trivial, fun _ _ => trivial⟩, fun i hi => ⟨by simp, by simp⟩, fun _ => trivial⟩) ?_
    intro c k e _ i s1 n e' hi _ he
    have : ∀ j, l.wait = some j → j ≠ i := fun j hj hji => hne j hj (by rw [hi, hji])
    rcases he with rfl | rfl
    · exact ⟨⟨trivial, fun _ _ => trivial⟩, fun j hj => ⟨by simp [Ne.symm (this j hj)], by simp⟩, fun _ => trivial⟩
    · exact ⟨⟨trivial, fun _ _ => trivial⟩, fun j hj => ⟨by simp, by simp [Ne.symm (this j hj)]⟩, fun _ => trivial⟩
  generalize (m.go x s).1 = s' at hrun
  have key : NetOk H debug U x s' ∧ JobInv content U V p x s' l got := by
    induction hrun with
    | refl => exact ⟨hnet, h⟩
    | step e _ ho hst ih =>
      exact ⟨.step e ih.1 ho.1 hst, ih.2.net (true_net (ih.1.mono fun _ _ _ h => h.1) x) ho.2.1 (fun c _ => ho.2.2 c) hst⟩
  exact key.2

theorem netOk_go {H : Hashes} {debug : Bool} {U : Cid → Prop} {x : P} {s : NetSt P} (h : NetOk H debug U x s) (l : Loader α) :
    NetOk H debug U x (l.go x s).1 := by
  refine NetRun.trans h (load_events x s l _ (fun _ _ _ _ => ⟨trivial, fun _ _ => trivial⟩) ?_)
  rintro c k e - i s1 n e' - - (rfl | rfl) <;> exact ⟨trivial, fun _ _ => trivial⟩

/-! ### Helpers: the repo of the node -/

/-- What `NodeInv` is about here. -/
abbrev Keeping (env : PinEnv) (content : Cid → Bytes) (U : Cid → Prop) (s : RepoState MemPins) (k : KeptPins) : Prop :=
  NodeInv env content U (fun k r => k.root r = true) (KeptPins.Keeps (treeRefs env content)) (KeptInv (treeRefs env content) U) s k

theorem netOk_holds {H : Hashes} {debug : Bool} {content : Cid → Bytes} {U : Cid → Prop} (hone : OneData H (inUse content U)) {x : P} {s : NetSt P}
    (h : NetOk H debug U x s) : HoldsData content U (s.node x).store := by
  intro c hc b hb
  obtain ⟨h1, h2⟩ := (true_net (h.mono fun _ _ _ h => h.1) x).store c b hb
  exact hone c _ b.data (inUse_pos hc) (authentic_mh h1 h2)

/-- Blocks come. -/
theorem Keeping.more {env : PinEnv} {content : Cid → Bytes} {U : Cid → Prop} {m m' : MemBlocks} {g : MemPins} {k : KeptPins}
    (h : Keeping env content U ⟨m, g, []⟩ k) (hh : HoldsData content U m') (hm : ∀ c b, m.getBlock c = some b → m'.getBlock c = some b) :
    Keeping env content U ⟨m', g, []⟩ k := by
  refine ⟨h.pins, hh, fun d hd => ?_, h.whole⟩
  obtain ⟨h1, h2⟩ := h.kept d hd
  obtain ⟨b, hb⟩ := Option.isSome_iff_exists.mp h2
  exact ⟨h1, by rw [hm d b hb]; rfl⟩

/-- A request that failed without getting at the pins. -/
theorem Keeping.failed {env : PinEnv} {content : Cid → Bytes} {U : Cid → Prop} (le : Cid → Cid → Bool)
    (hv1 : ∀ a b, U a → U b → Cid.asV1 a = Cid.asV1 b → a = b) {s : RepoState MemPins} {k : KeptPins}
    (h : Keeping env content U s k) (op : NodeOp) : Keeping env content U s (k.after op false) := by
  have G := keptGuard le _ (treeRefs_nodup env content) U hv1
  refine ⟨G.early _ _ _ h.pins, h.blocks, fun d hd => h.kept d (G.keepsFail _ _ _ hd), fun r hr => ?_⟩
  rcases G.rootOf _ _ _ _ hr with h1 | ⟨-, h1⟩
  · exact h.whole r h1
  · cases h1

theorem Keeping.pinned {env : PinEnv} {content : Cid → Bytes} {U : Cid → Prop} {le : Cid → Cid → Bool}
    (hv1 : ∀ a b, U a → U b → Cid.asV1 a = Cid.asV1 b → a = b) {s : RepoState MemPins} {k : KeptPins}
    (h : Keeping env content U s k) {c : Cid} (hc : U c) (hg : (s.blocks.getBlock c).isSome = true) :
    Keeping env content U { s with pins := (s.pins.insertDirect le c).2 } (k.after (.pin c false) (s.pins.insertDirect le c).1.isOk) := by
  have G := keptGuard le _ (treeRefs_nodup env content) U hv1
  have hi := G.insertDirect s.pins k c hc h.pins
  refine ⟨hi, h.blocks, fun d hd => ?_, fun r hr => ?_⟩
  · cases hok : (s.pins.insertDirect le c).1.isOk with
    | false => rw [hok] at hd; exact h.kept d (G.keepsFail _ _ _ hd)
    | true =>
      rw [hok] at hd
      rcases G.keepsPin _ _ _ hd with rfl | h1
      · exact ⟨hc, hg⟩
      · exact h.kept d h1
  · rcases G.rootOf _ _ _ _ hr with h1 | ⟨h1, -⟩
    · exact h.whole r h1
    · cases h1

theorem Keeping.pinnedAll {env : PinEnv} {content : Cid → Bytes} {U : Cid → Prop} {le : Cid → Cid → Bool}
    (hv1 : ∀ a b, U a → U b → Cid.asV1 a = Cid.asV1 b → a = b) {s : RepoState MemPins} {k : KeptPins}
    (h : Keeping env content U s k) {c : Cid} (hc : U c) (hg : (s.blocks.getBlock c).isSome = true) {L : Repo.Refs}
    (hcase : none ∈ L ∨ (L = (treeRefs env content c).map some ∧ (∃ ls items, Whole env content c ls items) ∧
      ∀ d ∈ treeRefs env content c, U d ∧ (s.blocks.getBlock d).isSome = true)) :
    Keeping env content U { s with pins := (s.pins.insertRecursive le c L).2 } (k.after (.pin c true) (s.pins.insertRecursive le c L).1.isOk) := by
  have G := keptGuard le _ (treeRefs_nodup env content) U hv1
  have hi := G.insertRecursive s.pins k c L hc h.pins (by
    rcases hcase with h1 | h1
    · exact Or.inr ⟨trivial, h1⟩
    · exact Or.inl h1.1)
  refine ⟨hi, h.blocks, fun d hd => ?_, fun r hr => ?_⟩
  · cases hok : (s.pins.insertRecursive le c L).1.isOk with
    | false => rw [hok] at hd; exact h.kept d (G.keepsFail _ _ _ hd)
    | true =>
      rcases hcase with h1 | ⟨-, -, h1⟩
      · rw [mem_insertCut le _ _ _ h1] at hok; cases hok
      · rw [hok] at hd
        rcases G.keepsPinAll _ _ _ hd with rfl | h2 | h2
        · exact ⟨hc, hg⟩
        · exact h1 d h2
        · exact h.kept d h2
  · rcases G.rootOf _ _ _ _ hr with h1 | ⟨h1, h2⟩
    · exact h.whole r h1
    · simp only [NodeOp.pin.injEq, and_true] at h1
      subst h1
      rcases hcase with h3 | ⟨-, h3, -⟩
      · change (s.pins.insertRecursive le _ L).1.isOk = true at h2
        rw [mem_insertCut le _ _ _ h3] at h2; cases h2
      · exact h3

/-! ### Helpers: everything together -/

/-- A request to pin: its root is in use and, once loaded, stored, and what a walk has loaded is stored. -/
def JobOk (env : PinEnv) (content : Cid → Bytes) (U : Cid → Prop) (le : Cid → Cid → Bool) (x : P) (s : PinNet P) (id : Nat) (j : PinJob) : Prop :=
  U j.cid ∧
  match j.stage with
  | .root l => ∃ got, JobInv content U (· = j.cid) (rootProg j.cid) x s.net l got
  | .walk l got => s.lock = some id ∧ ((s.net.node x).store.getBlock j.cid).isSome = true ∧
      ∃ ls, fullLook env content j.cid = .links ls ∧ JobInv content U U (pinProg env le s.pins j.cid ls) x s.net l got

/-- What holds whenever something has happened. -/
structure PinInv (H : Hashes) (debug : Bool) (env : PinEnv) (content : Cid → Bytes) (U : Cid → Prop) (le : Cid → Cid → Bool) (x : P)
    (s : PinNet P) (k : KeptPins) : Prop where
  net : NetOk H debug U x s.net
  keeping : Keeping env content U (s.repo x) k
  jobs : ∀ id j, s.jobs id = some j → JobOk env content U le x s id j
  apart : ∀ id id' j j' i, s.jobs id = some j → s.jobs id' = some j' → j.stage.wait = some i → j'.stage.wait = some i → id = id'

omit [DecidableEq P] in
/-- The futures of requests are known to the node. -/
theorem JobOk.old {env : PinEnv} {content : Cid → Bytes} {U : Cid → Prop} {le : Cid → Cid → Bool} {x : P} {s : PinNet P} {id : Nat} {j : PinJob}
    {H : Hashes} (h : JobOk env content U le x s id j) (hn : TrueInv H (s.net.node x)) (i : Nat) (hi : j.stage.wait = some i) :
    i ≠ (s.net.node x).reg.nextId := by
  rintro rfl
  obtain ⟨c, r, st⟩ := j
  have key : ∃ c, HeldBy (s.net.node x).reg c (s.net.node x).reg.nextId := by
    cases st with
    | root l => obtain ⟨got, h2⟩ := h.2; obtain ⟨c, k, e, -, h1, -⟩ := h2.held _ hi; exact ⟨c, h1⟩
    | walk l _ => obtain ⟨-, -, ls, -, h1⟩ := h.2; obtain ⟨c, k, e, -, h1, -⟩ := h1.held _ hi; exact ⟨c, h1⟩
  obtain ⟨c, h1⟩ := key
  have := h1.1
  rw [hn.owner.fresh _ (Nat.le_refl _)] at this; cases this

/-- The nodes move on with all requests as they are. -/
theorem JobOk.net {env : PinEnv} {content : Cid → Bytes} {U : Cid → Prop} {le : Cid → Cid → Bool} {x : P} {s : PinNet P} {id : Nat} {j : PinJob}
    {H : Hashes} {debug : Bool} (h : JobOk env content U le x s id j) (hn : TrueInv H (s.net.node x)) {e : NetEv P} {n : NetSt P}
    (hmine : ∀ i, j.stage.wait = some i → e ≠ .await x i ∧ e ≠ .drop x i) (hr : NotTakenOut x j.cid e)
    (hr' : s.lock = some id → ∀ c, NotTakenOut x c e)
    (hst : s.net.step H debug e = some n) : JobOk env content U le x { s with net := n } id j := by
  obtain ⟨c, r, st⟩ := j
  refine ⟨h.1, ?_⟩
  cases st with
  | root l => obtain ⟨got, h2⟩ := h.2; exact ⟨got, JobInv.net h2 hn hmine (fun c hc => by rw [hc]; exact hr) hst⟩
  | walk l _ =>
    obtain ⟨h1, h2, ls, h3, h4⟩ := h.2
    refine ⟨h1, ?_, ls, h3, h4.net hn hmine (fun c _ => hr' h1 c) hst⟩
    obtain ⟨b, hb⟩ := Option.isSome_iff_exists.mp h2
    show ((n.node x).store.getBlock c).isSome = true
    rw [getBlock_stays hb hr hst]; rfl

theorem go_stores {H : Hashes} {debug : Bool} {x : P} {s : NetSt P} (l : Loader α) {c : Cid} {b : Repo.Block}
    (h : (s.node x).store.getBlock c = some b) : ((l.go x s).1.node x).store.getBlock c = some b := by
  have hrun : NetRun H debug (fun _ e _ => NotTakenOut x c e) s (l.go x s).1 := by
    refine load_events x s l _ (fun _ _ _ _ => trivial) ?_
    rintro c k e - i s1 n e' - - (rfl | rfl) <;> trivial
  generalize (l.go x s).1 = s' at hrun
  induction hrun with
  | refl => exact h
  | step e _ ho hst ih => exact getBlock_stays ih ho hst

/-- Another request goes on. -/
theorem JobOk.other {env : PinEnv} {content : Cid → Bytes} {U : Cid → Prop} {le : Cid → Cid → Bool} {x : P} {s : PinNet P} {id : Nat} {j : PinJob}
    {H : Hashes} {debug : Bool} (h : JobOk env content U le x s id j) (hnet : NetOk H debug U x s.net) (m : Loader α)
    (hne : ∀ i, j.stage.wait = some i → m.wait ≠ some i) : JobOk env content U le x { s with net := (m.go x s.net).1 } id j := by
  obtain ⟨c, r, st⟩ := j
  refine ⟨h.1, ?_⟩
  cases st with
  | root l => obtain ⟨got, h2⟩ := h.2; exact ⟨got, JobInv.other h2 hnet hne⟩
  | walk l _ =>
    obtain ⟨h1, h2, ls, h3, h4⟩ := h.2
    refine ⟨h1, ?_, ls, h3, h4.other hnet hne⟩
    obtain ⟨b, hb⟩ := Option.isSome_iff_exists.mp h2
    show (((m.go x s.net).1.node x).store.getBlock c).isSome = true
    rw [go_stores (H := H) (debug := debug) m hb]; rfl

omit [DecidableEq P] in
theorem setJob_jobs {s : PinNet P} {id id' : Nat} {j : Option PinJob} {j' : PinJob} (h : (s.setJob id j).jobs id' = some j') :
    (id' = id ∧ j = some j') ∨ (id' ≠ id ∧ s.jobs id' = some j') := by
  simp only [PinNet.setJob] at h
  split at h
  · exact Or.inl ⟨by assumption, h⟩
  · exact Or.inr ⟨by assumption, h⟩

theorem notTakenOut_of {x : P} {e : NetEv P} (h : removesAt x e = false) (c : Cid) : NotTakenOut x c e := by
  cases e with
  | remove y d => simp only [removesAt, decide_eq_false_iff_not] at h; exact fun hy => absurd hy h
  | _ => trivial

omit [DecidableEq P] in
theorem asV1_apart {U : Cid → Prop} (hU : ∀ a b, U a → U b → a.mh = b.mh → a = b) (a b : Cid) (ha : U a) (hb : U b) (h : Cid.asV1 a = Cid.asV1 b) : a = b := by
  refine hU a b ha hb ?_
  have h1 := congrArg Cid.mhCode h
  have h2 := congrArg Cid.digest h
  simp only [Cid.asV1] at h1 h2
  simp [Cid.mh, h1, h2]

omit [DecidableEq P] in
/-- Nobody holds the lock: no walk is going on. -/
theorem JobOk.noWalk {env : PinEnv} {content : Cid → Bytes} {U : Cid → Prop} {le : Cid → Cid → Bool} {x : P} {s : PinNet P} {id : Nat} {j : PinJob}
    (h : JobOk env content U le x s id j) (hl : s.lock ≠ some id) (g : MemPins) (lk : Option Nat) :
    JobOk env content U le x { s with pins := g, lock := lk } id j := by
  obtain ⟨c, r, st⟩ := j
  refine ⟨h.1, ?_⟩
  cases st with
  | root l => exact h.2
  | walk l _ => exact absurd h.2.1 hl

theorem unpin_blocks (env : PinEnv) (st : PinStore MemPins PinErr) (s : RepoState MemPins) (c : Cid) (r : Bool) :
    (nodeStep env st s (.unpin c r)).2.blocks = s.blocks := by
  simp only [nodeStep, removePin]
  cases r with
  | false => simp only [Bool.false_eq_true, if_false]; rw [(pinsAfter_isOk _ _).2]
  | true =>
    simp only [if_true]
    split
    · rfl
    · split
      · rfl
      · rw [(pinsAfter_isOk _ _).2]

theorem PinInv.step {H : Hashes} {debug : Bool} {env : PinEnv} {content : Cid → Bytes} {U : Cid → Prop} {le : Cid → Cid → Bool} {x : P}
    (hone : OneData H (inUse content U)) (hU : ∀ a b, U a → U b → a.mh = b.mh → a = b) (hcl : ∀ a b, U a → LinkTo env content a b → U b)
    {s s' : PinNet P} {k : KeptPins} {e : PinEv P} {a : Option (NodeOp × Bool)} (h : PinInv H debug env content U le x s k)
    (hok : PinOk H U x s e) (hst : s.step H debug env le x e = some (s', a)) : PinInv H debug env content U le x s' (k.told a) := by
  have hv1 := asV1_apart hU
  have htrue : TrueInv H (s.net.node x) := true_net (h.net.mono fun _ _ _ h => h.1) x
  have hown : ∀ c, U c → ∀ b, (s.net.node x).store.getBlock c = some b → b.cid = c :=
    fun c hc b hb => own_cid (h.net.mono fun _ _ _ h => ⟨h.1, h.2 c hc⟩) b hb
  cases e with
  | net e =>
    simp only [PinNet.step] at hst
    split at hst
    · cases hst
    rename_i hrem
    obtain ⟨n, hn, he⟩ := Option.map_eq_some_iff.mp hst
    cases he
    have hrem' : ∀ c, NotTakenOut x c e := notTakenOut_of (by simpa using hrem)
    have hnet : NetOk H debug U x n := .step e h.net ⟨hok.1, hok.2.1⟩ hn
    refine ⟨hnet, h.keeping.more (netOk_holds hone hnet) (fun c b hb => getBlock_stays hb (hrem' c) hn), ?_, h.apart⟩
    intro id j hj
    exact (h.jobs id j hj).net htrue (fun i hi => hok.2.2 id j i hj hi) (hrem' _) (fun _ => hrem') hn
  | ask id c r =>
    simp only [PinNet.step] at hst
    split at hst
    · cases hst
    cases hst
    refine ⟨h.net, h.keeping, ?_, ?_⟩
    · intro id' j hj
      rcases setJob_jobs hj with ⟨rfl, h1⟩ | ⟨h1, h2⟩
      · cases h1; exact ⟨hok, [], JobInv.start ⟨rfl, trivial⟩⟩
      · exact h.jobs id' j h2
    · intro id1 id2 j1 j2 i h1 h2 w1 w2
      rcases setJob_jobs h1 with ⟨rfl, g1⟩ | ⟨g1, g1'⟩
      · cases g1; cases w1
      · rcases setJob_jobs h2 with ⟨rfl, g2⟩ | ⟨g2, g2'⟩
        · cases g2; cases w2
        · exact h.apart _ _ _ _ _ g1' g2' w1 w2
  | go id =>
    -- a loader with this number goes on
    have key : ∀ (β : Type) (l : Loader β) (c : Cid) (r : Bool) (st st' : PinStage), s.jobs id = some ⟨c, r, st⟩ → st.wait = l.wait →
        st'.wait = (l.go x s.net).2.wait → (∀ i, (l.go x s.net).2.wait = some i → l.wait = some i ∨ i = (s.net.node x).reg.nextId) →
        JobOk env content U le x { s with net := (l.go x s.net).1 } id ⟨c, r, st'⟩ →
        PinInv H debug env content U le x ({ s with net := (l.go x s.net).1 }.setJob id (some ⟨c, r, st'⟩)) k := by
      intro β l c r st st' hj hw hw' hnew hjob
      have hnet := netOk_go h.net l
      refine ⟨hnet, h.keeping.more (netOk_holds hone hnet) (fun c b hb => go_stores (H := H) (debug := debug) l hb), ?_, ?_⟩
      · intro id' j' hj'
        rcases setJob_jobs hj' with ⟨rfl, h1⟩ | ⟨h1, h2⟩
        · cases h1; exact hjob
        · refine (h.jobs id' j' h2).other h.net l ?_
          intro i hi hl
          exact h1 (h.apart _ _ _ _ i h2 hj hi (by rw [hw]; exact hl))
      · have hold : ∀ id' j' i, id' ≠ id → s.jobs id' = some j' → j'.stage.wait = some i → st'.wait ≠ some i := by
          intro id' j' i hne hj' hi hi'
          rw [hw'] at hi'
          rcases hnew i hi' with g | g
          · exact hne (h.apart _ _ _ _ i hj' hj hi (by rw [hw]; exact g))
          · exact (h.jobs id' j' hj').old htrue i hi g
        intro id1 id2 j1 j2 i h1 h2 w1 w2
        rcases setJob_jobs h1 with ⟨rfl, g1⟩ | ⟨g1, g1'⟩
        · rcases setJob_jobs h2 with ⟨rfl, g2⟩ | ⟨g2, g2'⟩
          · rfl
          · cases g1; exact absurd w1 (hold _ _ _ g2 g2' w2)
        · rcases setJob_jobs h2 with ⟨rfl, g2⟩ | ⟨g2, g2'⟩
          · cases g2; exact absurd w2 (hold _ _ _ g1 g1' w1)
          · exact h.apart _ _ _ _ _ g1' g2' w1 w2
    simp only [PinNet.step] at hst
    split at hst
    · cases hst
    · rename_i c r l hj
      cases hst
      obtain ⟨h1, got, h2⟩ := h.jobs id _ hj
      obtain ⟨g1, g2⟩ := JobInv.go (V := (· = c)) (fun c' hc' => by rw [hc']; exact h1) hone htrue hown h2
      exact key _ l c r _ _ hj rfl rfl g2 ⟨h1, _, g1⟩
    · rename_i c r l got hj
      cases hst
      obtain ⟨h1, h2, h3, ls, h4, h5⟩ := h.jobs id _ hj
      obtain ⟨g1, g2⟩ := h5.go (fun _ hc => hc) hone htrue hown
      refine key _ l c r _ _ hj rfl rfl g2 ⟨h1, h2, ?_, ls, h4, g1⟩
      obtain ⟨b, hb⟩ := Option.isSome_iff_exists.mp h3
      show (((l.go x s.net).1.node x).store.getBlock c).isSome = true
      rw [go_stores (H := H) (debug := debug) l hb]; rfl
  | next id =>
    have hgone : ∀ (s1 : PinNet P), s1.jobs = s.jobs → ∀ id1 id2 j1 j2 i, (s1.setJob id none).jobs id1 = some j1 → (s1.setJob id none).jobs id2 = some j2 →
        j1.stage.wait = some i → j2.stage.wait = some i → id1 = id2 := by
      intro s1 hs1 id1 id2 j1 j2 i h1 h2 w1 w2
      rcases setJob_jobs h1 with ⟨rfl, g1⟩ | ⟨g1, g1'⟩
      · cases g1
      · rcases setJob_jobs h2 with ⟨rfl, g2⟩ | ⟨g2, g2'⟩
        · cases g2
        · rw [hs1] at g1' g2'; exact h.apart _ _ _ _ _ g1' g2' w1 w2
    have hfail : ∀ c r, PinInv H debug env content U le x (s.setJob id none) (k.told (some (.pin c r, false))) := by
      intro c r
      refine ⟨h.net, h.keeping.failed le hv1 _, ?_, hgone s rfl⟩
      intro id' j hj
      rcases setJob_jobs hj with ⟨rfl, h1⟩ | ⟨h1, h2⟩
      · cases h1
      · exact h.jobs id' j h2
    -- the root that was loaded
    have hroot : ∀ c r data w, s.jobs id = some ⟨c, r, .root ⟨.ret (some data), w⟩⟩ → U c ∧ data = content c ∧
        ((s.net.node x).store.getBlock c).isSome = true := by
      intro c r data w hj
      obtain ⟨h1, cs, h2⟩ := h.jobs id _ hj
      obtain ⟨h3, h4⟩ := h2.came
      dsimp only at h3
      unfold rootProg at h3
      cases h3 with
      | on hd h5 =>
        cases h5 with
        | here =>
          refine ⟨h1, (inUse_some hd).2, ?_⟩
          rw [(h4 c List.mem_cons_self).2]; rfl
    simp only [PinNet.step] at hst
    split at hst
    · rename_i c r w hj
      cases hst; exact hfail c r
    · rename_i c data w hj
      obtain ⟨h1, h2, h3⟩ := hroot _ _ _ _ hj
      subst h2
      split at hst
      · cases hst; exact hfail c true
      · rename_i ls hls
        split at hst
        · cases hst
        rename_i hlock
        cases hst
        have hl : s.lock = none := by simpa using hlock
        have hfull : fullLook env content c = .links ls := by
          unfold rootLinks at hls
          split at hls
          · cases hls
          · rename_i d hd; simp [fullLook, look, hd, hls]
        refine ⟨h.net, h.keeping, ?_, ?_⟩
        · intro id' j hj'
          rcases setJob_jobs hj' with ⟨rfl, g1⟩ | ⟨g1, g2⟩
          · cases g1
            exact ⟨h1, rfl, h3, ls, hfull, JobInv.start (loadsIn_pinProg hcl h1 hfull)⟩
          · exact (h.jobs id' j g2).noWalk (by rw [hl]; simp) s.pins (some id)
        · intro id1 id2 j1 j2 i h1 h2 w1 w2
          rcases setJob_jobs h1 with ⟨rfl, g1⟩ | ⟨g1, g1'⟩
          · cases g1; cases w1
          · rcases setJob_jobs h2 with ⟨rfl, g2⟩ | ⟨g2, g2'⟩
            · cases g2; cases w2
            · exact h.apart _ _ _ _ _ g1' g2' w1 w2
    · rename_i c data w hj
      obtain ⟨h1, h2, h3⟩ := hroot _ _ _ _ hj
      split at hst
      · cases hst
      rename_i hlock
      cases hst
      have hl : s.lock = none := by simpa using hlock
      refine ⟨h.net, h.keeping.pinned hv1 h1 h3, ?_, hgone _ rfl⟩
      intro id' j hj'
      rcases setJob_jobs hj' with ⟨rfl, g1⟩ | ⟨g1, g2⟩
      · cases g1
      · exact (h.jobs id' j g2).noWalk (by rw [hl]; simp) _ s.lock
    · cases hst
  | done id =>
    simp only [PinNet.step] at hst
    split at hst
    · rename_i c r0 r g w got hj
      cases hst
      obtain ⟨h1, h2, h3, ls, h4, h5⟩ := h.jobs id _ hj
      obtain ⟨h6, h7⟩ := h5.came
      have h8 := h6.same (f := localBlocks (s.net.node x)) (by
        intro c hc
        obtain ⟨g1, g2⟩ := h7 c hc
        have hu : U c := g1
        simp [localBlocks, g2, inUse_pos hu])
      obtain ⟨L, h9, h10⟩ := pinProg_stream (h8.2 (blocksThere_ret _)) h8.1
      have hcase : none ∈ L ∨ (L = (treeRefs env content c).map some ∧ (∃ ls items, Whole env content c ls items) ∧
          ∀ d ∈ treeRefs env content c, U d ∧ ((s.net.node x).store.getBlock d).isSome = true) := by
        rcases h10 with h10 | ⟨items, h10, h11, h12⟩
        · exact Or.inl h10
        · obtain ⟨b, hb⟩ := Option.isSome_iff_exists.mp h3
          refine descendants_cases (ε := PinErr) hcl (netOk_holds hone h.net) h1 hb ?_
          rw [netOk_holds hone h.net c h1 b hb]
          obtain ⟨data, k1, k2⟩ : ∃ doc, decodeIpld env.ipld env.size c (content c) = .ok doc ∧ ipldLinks c doc = some ls := by
            unfold fullLook look at h4
            dsimp only at h4
            split at h4
            · cases h4
            · rename_i d hd
              refine ⟨d, hd, ?_⟩
              split at h4
              · cases h4
              · rename_i l hl; cases h4; exact hl
          unfold descendants
          simp only [k1, k2]
          have : repoLook env (s.net.node x).store = look env.ipld env.size (localBlocks (s.net.node x)) := rfl
          rw [this, h10]
          dsimp only
          rw [stream_edges h11, h12]; rfl
      have hk := h.keeping.pinnedAll (le := le) hv1 h1 h3 hcase
      have hp : (s.repo x).pins = s.pins := rfl
      rw [hp, h9] at hk
      refine ⟨h.net, hk, ?_, ?_⟩
      · intro id' j hj'
        rcases setJob_jobs hj' with ⟨rfl, g1⟩ | ⟨g1, g2⟩
        · cases g1
        · exact (h.jobs id' j g2).noWalk (by rw [h2]; simp only [ne_eq, Option.some.injEq]; exact fun hh => g1 hh.symm) g none
      · intro id1 id2 j1 j2 i h1 h2 w1 w2
        rcases setJob_jobs h1 with ⟨rfl, g1⟩ | ⟨g1, g1'⟩
        · cases g1
        · rcases setJob_jobs h2 with ⟨rfl, g2⟩ | ⟨g2, g2'⟩
          · cases g2
          · exact h.apart _ _ _ _ _ g1' g2' w1 w2
    · cases hst
  | drop id =>
    have hgone : ∀ (s1 : PinNet P), s1.jobs = s.jobs → ∀ id1 id2 j1 j2 i, (s1.setJob id none).jobs id1 = some j1 → (s1.setJob id none).jobs id2 = some j2 →
        j1.stage.wait = some i → j2.stage.wait = some i → id1 = id2 := by
      intro s1 hs1 id1 id2 j1 j2 i h1 h2 w1 w2
      rcases setJob_jobs h1 with ⟨rfl, g1⟩ | ⟨g1, g1'⟩
      · cases g1
      · rcases setJob_jobs h2 with ⟨rfl, g2⟩ | ⟨g2, g2'⟩
        · cases g2
        · rw [hs1] at g1' g2'; exact h.apart _ _ _ _ _ g1' g2' w1 w2
    -- the nodes after the future is dropped
    have hnodes : ∀ j, s.jobs id = some j → NetOk H debug U x (s.net.dropWait x j.stage.wait) ∧
        (∀ c b, (s.net.node x).store.getBlock c = some b → ((s.net.dropWait x j.stage.wait).node x).store.getBlock c = some b) ∧
        ∀ id' j', id' ≠ id → s.jobs id' = some j' → JobOk env content U le x { s with net := s.net.dropWait x j.stage.wait } id' j' := by
      intro j hj
      cases hw : j.stage.wait with
      | none => exact ⟨h.net, fun _ _ hb => hb, fun id' j' _ hj' => h.jobs id' j' hj'⟩
      | some i =>
        have hn : s.net.step H debug (.drop x i) = some (s.net.dropWait x (some i)) := rfl
        refine ⟨.step (.drop x i) h.net ⟨trivial, fun _ _ => trivial⟩ hn, fun c b hb => getBlock_stays hb (notTakenOut_of rfl c) hn, ?_⟩
        intro id' j' hne hj'
        refine (h.jobs id' j' hj').net htrue (fun i' hi' => ⟨by simp, ?_⟩) (notTakenOut_of rfl _) (fun _ c => notTakenOut_of rfl c) hn
        intro he
        cases he
        exact hne (h.apart _ _ _ _ i hj' hj hi' hw)
    simp only [PinNet.step] at hst
    split at hst
    · rename_i c r l hj
      cases hst
      obtain ⟨h1, h2, h3⟩ := hnodes _ hj
      refine ⟨h1, h.keeping.more (netOk_holds hone h1) h2, ?_, hgone _ rfl⟩
      intro id' j' hj'
      rcases setJob_jobs hj' with ⟨rfl, g1⟩ | ⟨g1, g2⟩
      · cases g1
      · exact h3 id' j' g1 g2
    · rename_i c r d kk e w got hj
      cases hst
      obtain ⟨h1, h2, h3⟩ := hnodes _ hj
      obtain ⟨g1, g2, g3, -⟩ := h.jobs id _ hj
      obtain ⟨b, hb⟩ := Option.isSome_iff_exists.mp g3
      have hk := (h.keeping.more (netOk_holds hone h1) h2).pinnedAll (le := le) (L := got.map some ++ [none]) hv1 g1
        (by show (((s.net.dropWait x w).node x).store.getBlock c).isSome = true; exact Option.isSome_iff_exists.mpr ⟨b, h2 c b hb⟩)
        (Or.inl (by simp))
      rw [mem_insertCut le _ _ _ (by simp)] at hk
      refine ⟨h1, hk, ?_, hgone _ rfl⟩
      intro id' j' hj'
      rcases setJob_jobs hj' with ⟨rfl, k1⟩ | ⟨k1, k2⟩
      · cases k1
      · exact (h3 id' j' k1 k2).noWalk (by
          have g2' : s.lock = some id := g2
          show s.lock ≠ some id'
          rw [g2']; simp only [ne_eq, Option.some.injEq]; exact fun hh => k1 hh.symm) _ none
    · cases hst
  | unpin c r =>
    simp only [PinNet.step] at hst
    split at hst
    · cases hst
    rename_i hlock
    cases hst
    have hl : s.lock = none := by simpa using hlock
    have hk := NodeInv.step hU hcl (keptGuard le _ (treeRefs_nodup env content) U hv1) h.keeping (.unpin c r) hok (Or.inl trivial)
    refine ⟨h.net, ?_, fun id j hj => (h.jobs id j hj).noWalk (by rw [hl]; simp) _ s.lock, h.apart⟩
    exact ⟨hk.pins, h.keeping.blocks, fun d hd => by
      have := hk.kept d hd
      rwa [unpin_blocks] at this, hk.whole⟩
  | remove c =>
    simp only [PinNet.step] at hst
    split at hst
    · cases hst
    rename_i hlock
    have hl : s.lock = none := by simpa using hlock
    split at hst
    · cases hst; exact h
    · rename_i hpin
      obtain ⟨n, hn, he⟩ := Option.map_eq_some_iff.mp hst
      cases he
      have hnet : NetOk H debug U x n := .step (.remove x c) h.net ⟨trivial, fun _ _ => trivial⟩ hn
      have hother : ∀ d, U d → d ≠ c → NotTakenOut x d (.remove x c) := by
        intro d hd hne _ hm
        exact hne (hU d c hd hok.1 hm.symm)
      refine ⟨hnet, ⟨h.keeping.pins, netOk_holds hone hnet, fun d hd => ?_, h.keeping.whole⟩, ?_, h.apart⟩
      · obtain ⟨h1, h2⟩ := h.keeping.kept d hd
        refine ⟨h1, ?_⟩
        obtain ⟨b, hb⟩ := Option.isSome_iff_exists.mp h2
        have hne : d ≠ c := by
          rintro rfl
          exact hpin ((keptGuard le _ (treeRefs_nodup env content) U hv1).pinned _ _ _ h.keeping.pins hd)
        show ((n.node x).store.getBlock d).isSome = true
        rw [getBlock_stays hb (hother d h1 hne) hn]; rfl
      · intro id j hj
        have hj' := h.jobs id j hj
        refine hj'.net htrue (fun i hi => ⟨by simp, by simp⟩) (hother _ hj'.1 (hok.2 id j hj)) (fun hh => ?_) hn
        rw [hl] at hh; cases hh

theorem PinInv.run {H : Hashes} {debug : Bool} {env : PinEnv} {content : Cid → Bytes} {U : Cid → Prop} {le : Cid → Cid → Bool} {x : P}
    (hone : OneData H (inUse content U)) (hU : ∀ a b, U a → U b → a.mh = b.mh → a = b) (hcl : ∀ a b, U a → LinkTo env content a b → U b)
    {s : PinNet P} {k : KeptPins} (hrun : PinRun H debug env le x (PinOk H U x) s k) : PinInv H debug env content U le x s k := by
  induction hrun with
  | refl =>
    refine ⟨.refl _, ⟨⟨_, Rel.nil, ⟨by simp, by simp, by simp, by simp, by simp, by simp⟩⟩, ?_, ?_, ?_⟩, (fun id j hj => by cases hj), fun id id' j j' i hj => by cases hj⟩
    · intro c _ b hb
      simp [PinNet.repo, NetSt.init, Peer.init, MemBlocks.getBlock, AMap.get] at hb
    · intro d hd; simp [KeptPins.Keeps] at hd
    · intro r hr; simp at hr
  | step e _ hok hst ih => exact ih.step hone hU hcl hok hst

theorem oneData_inUse {H : Hashes} {content : Cid → Bytes} {U : Cid → Prop} (h : ∀ c d, U c → Authentic H c d → d = content c) :
    OneData H (inUse content U) := by
  intro c data d hd ha
  obtain ⟨h1, rfl⟩ := inUse_some hd
  exact h c d h1 ha

/-! ### Helpers: a walk where everything is -/

theorem pinLoop_whole {env : PinEnv} {content : Cid → Bytes} {le : Cid → Cid → Bool} {kind : PinKind} {f : Cid → Option Bytes} (fuel : Nat)
    (work : List Work) (vis : List Cid) (items : List Item) (g : MemPins) (n : Nat)
    (h : loop walkOpts (fullLook env content) fuel work vis = some (items, .done)) (ha : AllEdges items)
    (hf : ∀ d ∈ dests items, f d = some (content d)) :
    BlocksThere f (pinLoopProg env le kind fuel work vis g n) ∧
      (pinLoopProg env le kind fuel work vis g n).eval f = some (MemPins.insertRefs le kind g ((dests items).map some) n) := by
  induction fuel generalizing work vis items g n with
  | zero => simp [loop] at h
  | succ fuel ih =>
    cases work with
    | nil =>
      simp only [loop, Option.some.injEq, Prod.mk.injEq, and_true] at h
      subst h
      exact ⟨blocksThere_ret _, rfl⟩
    | cons w work =>
      rw [loop] at h
      simp only [traverse, walkOpts] at h
      cases hc : fullLook env content w.edge.destination with
      | missing => simp [hc] at h
      | broken x =>
        simp only [hc] at h
        obtain ⟨⟨l, en⟩, h1, h2⟩ := Option.map_eq_some_iff.mp h
        simp only [Prod.mk.injEq] at h2
        rw [← h2.1] at ha
        obtain ⟨e, he⟩ := ha _ List.mem_cons_self
        cases he
      | panic => simp [hc] at h
      | links ls =>
        simp only [hc, reduceCtorEq, if_false] at h
        obtain ⟨⟨l, en⟩, h1, h2⟩ := Option.map_eq_some_iff.mp h
        simp only [Prod.mk.injEq] at h2
        obtain ⟨rfl, rfl⟩ := h2
        have hd : dests (Item.edge w.edge :: l) = w.edge.destination :: dests l := by simp [dests, edgesOf]
        rw [hd] at hf ⊢
        have hfw := hf w.edge.destination List.mem_cons_self
        obtain ⟨doc, k1, k2⟩ : ∃ doc, decodeIpld env.ipld env.size w.edge.destination (content w.edge.destination) = .ok doc ∧
            ipldLinks w.edge.destination doc = some ls := by
          unfold fullLook look at hc
          dsimp only at hc
          split at hc
          · cases hc
          · rename_i d hd
            refine ⟨d, hd, ?_⟩
            split at hc
            · cases hc
            · rename_i l hl; cases hc; exact hl
        simp only [List.map_cons, MemPins.insertRefs]
        unfold pinLoopProg
        simp only [Prog.eval, hfw]
        cases hins : g.insertPin le w.edge.destination kind with
        | error x =>
          refine ⟨blocksThere_load hfw ?_, ?_⟩
          · simp only [k1, k2]; exact blocksThere_ret _
          · simp only [k1, k2, Prog.eval]
        | ok q =>
          obtain ⟨g1, g2⟩ := ih _ _ l q.2 (n + 1) h1 (fun i hi => ha i (List.mem_cons_of_mem _ hi)) (fun d hd => hf d (List.mem_cons_of_mem _ hd))
          refine ⟨blocksThere_load hfw ?_, ?_⟩
          · simp only [k1, k2]; exact g1
          · simp only [k1, k2]; exact g2

theorem pinProg_whole {env : PinEnv} {content : Cid → Bytes} {le : Cid → Cid → Bool} {f : Cid → Option Bytes} {c : Cid} {ls : List (Option Bytes × Cid)}
    {items : List Item} (hw : Whole env content c ls items) (hf : ∀ d ∈ treeRefs env content c, f d = some (content d)) (g : MemPins) :
    BlocksThere f (pinProg env le g c ls) ∧
      (pinProg env le g c ls).eval f = some (g.insertRecursive le c ((treeRefs env content c).map some)) := by
  rw [hw.treeRefs] at hf ⊢
  obtain ⟨-, h2, h3⟩ := hw
  rw [refs_walk] at h2
  unfold pinProg MemPins.insertRecursive
  cases hins : g.insertPin le c .recursiveIntention with
  | error x => exact ⟨blocksThere_ret _, rfl⟩
  | ok q =>
    obtain ⟨g1, g2⟩ := pinLoop_whole (le := le) (kind := .indirectFrom (Cid.asV1 c)) _ _ _ _ q.2 0 h2 h3 hf
    refine ⟨blocksThere_map g1, ?_⟩
    dsimp only
    rw [eval_map, g2]
    rcases MemPins.insertRefs le (.indirectFrom (Cid.asV1 c)) q.2 ((dests items).map some) 0 with ⟨r, g'⟩
    cases r with
    | error x => rfl
    | ok count =>
      dsimp only
      cases g'.insertPin le c (.recursive count) <;> rfl

/-! ### Helpers: requests that are dropped -/

theorem insertPin_pinned {le : Cid → Cid → Bool} {g g' : MemPins} {x : Cid} {k : PinKind} {b : Bool} (h : g.insertPin le x k = .ok (b, g')) (d : Cid) :
    g'.isPinned d = true ↔ g.isPinned d = true ∨ d = x := by
  have hset : ∀ doc, MemPins.isPinned (g.set x doc) d = true ↔ g.isPinned d = true ∨ d = x := by
    intro doc
    unfold MemPins.isPinned
    rw [AMap.get_set]
    split
    · rename_i he; simp [he]
    · rename_i he; simp [he]
  unfold MemPins.insertPin at h
  split at h
  · rename_i doc hg
    split at h <;> cases h
    · exact hset _
    · constructor
      · exact Or.inl
      · rintro (h1 | rfl)
        · exact h1
        · unfold MemPins.isPinned; rw [hg]; rfl
  · split at h <;> cases h
    exact hset _

theorem insert_indirect_ok (le : Cid → Cid → Bool) (g : MemPins) (c r : Cid) : ∃ ch g', g.insertPin le c (.indirectFrom r) = .ok (ch, g') := by
  unfold MemPins.insertPin
  cases g.get c with
  | none => exact ⟨true, g.set c { indirectBy := [Cid.asV1 r] }, by simp [PinDocument.update]⟩
  | some doc =>
    simp only [PinDocument.update]
    by_cases he : doc.indirectBy.isEmpty
    · simp only [he, if_true]
      exact ⟨true, _, rfl⟩
    · simp only [he, if_true]
      by_cases hc : (toSet le doc.indirectBy).contains (Cid.asV1 r)
      · exact ⟨false, g, by simp only [hc]; rfl⟩
      · exact ⟨true, _, by simp only [hc]; rfl⟩

theorem insertRefs_pinned {le : Cid → Cid → Bool} {r : Cid} (L : List Cid) (g : MemPins) (n : Nat) (d : Cid) :
    (MemPins.insertRefs le (.indirectFrom r) g (L.map some ++ [none]) n).2.isPinned d = true ↔ g.isPinned d = true ∨ d ∈ L := by
  induction L generalizing g n with
  | nil => simp [MemPins.insertRefs]
  | cons c L ih =>
    obtain ⟨ch, g1, h1⟩ := insert_indirect_ok le g c r
    simp only [List.map_cons, List.cons_append, MemPins.insertRefs, h1]
    rw [ih, insertPin_pinned h1, List.mem_cons, or_assoc]

theorem pinnedSoFar_pinned {le : Cid → Cid → Bool} {g g' : MemPins} {c : Cid} {b : Bool} (h : g.insertPin le c .recursiveIntention = .ok (b, g'))
    (got : List Cid) (d : Cid) : (g.pinnedSoFar le c got).isPinned d = true ↔ g.isPinned d = true ∨ d = c ∨ d ∈ got := by
  unfold MemPins.pinnedSoFar MemPins.insertRecursive
  rw [h]
  dsimp only
  have h1 := insertRefs_pinned (le := le) (r := Cid.asV1 c) got g' 0 d
  obtain ⟨e, g2, h2⟩ := insertRefs_cut (le := le) (kind := .indirectFrom (Cid.asV1 c)) (got.map some ++ [none]) (by simp) g' 0
  rw [h2] at h1 ⊢
  dsimp only at h1 ⊢
  rw [h1, insertPin_pinned h, or_assoc]

theorem came_in {content : Cid → Bytes} {U V : Cid → Prop} {cs : List Cid} {p q : Prog α} (h : CameTo (inUse content U) cs p q)
    (hl : LoadsIn content V p) : ∀ c ∈ cs, V c := by
  induction h with
  | here p => intro c hc; cases hc
  | on h1 _ ih =>
    obtain ⟨-, rfl⟩ := inUse_some h1
    intro c hc
    rcases List.mem_cons.mp hc with rfl | hc
    · exact hl.1
    · exact ih hl.2 c hc

theorem loadsIn_below {env : PinEnv} {content : Cid → Bytes} {le : Cid → Cid → Bool} {g : MemPins} {c : Cid} {ls : List (Option Bytes × Cid)}
    (hfull : fullLook env content c = .links ls) : LoadsIn content (Below env content c) (pinProg env le g c ls) := by
  unfold pinProg
  cases g.insertPin le c .recursiveIntention with
  | error x => trivial
  | ok q =>
    refine loadsIn_bind (loadsIn_pinLoop (fun _ _ => .step) _ _ _ _ _ ?_) (fun a => trivial)
    intro w hw
    have hf := ((enqueueRoots_unique (fullLook env content) [(c, ls)] [(c, ls)] (fun _ h => h) []).1 w hw).2.2
    generalize w.edge = ed at hf
    cases hf with
    | root h1 h2 =>
      obtain ⟨rfl, rfl⟩ := Prod.mk.inj (List.mem_singleton.mp h1)
      exact .link ((fullLook_links hfull _).mp ⟨_, h2, rfl⟩)

/-! ### The theorems -/

/-- **C91**: whatever happens at a node and in the network, and however many requests to pin wait for blocks side by side: what the node has
said is pinned, and everything below what it has said is pinned recursively, is in its store with the right data, and is not removed. While
a walk holds the lock of the pins a removal waits for it. Nobody removes the root of a request to pin that has not been answered, see
`C91_race`. -/
theorem C91_keeps {H : Hashes} {debug : Bool} {env : PinEnv} {content : Cid → Bytes} {U : Cid → Prop} {le : Cid → Cid → Bool} {x : P}
    (hdata : ∀ c d, U c → Authentic H c d → d = content c) (hU : ∀ a b, U a → U b → a.mh = b.mh → a = b)
    (hcl : ∀ a b, U a → LinkTo env content a b → U b) {s : PinNet P} {k : KeptPins} (hrun : PinRun H debug env le x (PinOk H U x) s k) (c : Cid)
    (hk : k.direct c = true ∨ k.tried c = true ∨ k.root c = true ∨ ∃ r, k.root r = true ∧ Below env content r c) :
    (s.net.node x).store.getBlock c = some ⟨c, content c⟩ ∧
      s.step H debug env le x (.remove c) = if s.lock.isSome then none else some (s, some (.remove c, false)) := by
  have h := PinInv.run (oneData_inUse hdata) hU hcl hrun
  have hk' : k.Keeps (treeRefs env content) c := by
    rcases hk with h1 | h1 | h1 | ⟨r, h1, h2⟩
    · exact Or.inl h1
    · exact Or.inr (Or.inl h1)
    · exact Or.inr (Or.inr (Or.inl h1))
    · obtain ⟨ls, items, hw⟩ := h.keeping.whole r h1
      exact Or.inr (Or.inr (Or.inr ⟨r, h1, (hw.below c).mpr h2⟩))
  obtain ⟨h1, h2⟩ := h.keeping.kept c hk'
  obtain ⟨b, hb⟩ := Option.isSome_iff_exists.mp h2
  have hpin : s.pins.isPinned c = true := (keptGuard le _ (treeRefs_nodup env content) U (asV1_apart hU)).pinned _ _ _ h.keeping.pins hk'
  refine ⟨?_, ?_⟩
  · have hb' : (s.net.node x).store.getBlock c = some b := hb
    have e1 := own_cid (h.net.mono fun _ _ _ h => ⟨h.1, h.2 c h1⟩) b hb'
    have e2 := h.keeping.blocks c h1 b hb
    cases b
    simp_all
  · simp only [PinNet.step, hpin, if_true]

/-- **C91**: so when a recursive pin is answered, everything below its root has been downloaded. -/
theorem C91_downloaded {H : Hashes} {debug : Bool} {env : PinEnv} {content : Cid → Bytes} {U : Cid → Prop} {le : Cid → Cid → Bool} {x : P}
    (hdata : ∀ c d, U c → Authentic H c d → d = content c) (hU : ∀ a b, U a → U b → a.mh = b.mh → a = b)
    (hcl : ∀ a b, U a → LinkTo env content a b → U b) {s s' : PinNet P} {k : KeptPins} (hrun : PinRun H debug env le x (PinOk H U x) s k)
    {id : Nat} {c : Cid} (hst : s.step H debug env le x (.done id) = some (s', some (.pin c true, true))) :
    (s'.net.node x).store.getBlock c = some ⟨c, content c⟩ ∧
      ∀ d, Below env content c d → (s'.net.node x).store.getBlock d = some ⟨d, content d⟩ := by
  have hrun' := PinRun.step (.done id) hrun (by trivial) hst
  have hroot : (k.told (some (.pin c true, true))).root c = true := by simp [KeptPins.told, KeptPins.after, upd]
  exact ⟨(C91_keeps hdata hU hcl hrun' c (Or.inr (Or.inr (Or.inl hroot)))).1,
    fun d hd => (C91_keeps hdata hU hcl hrun' d (Or.inr (Or.inr (Or.inr ⟨c, hroot, hd⟩)))).1⟩

/-- **C91**: a request to pin that is dropped while its walk waits for a block lets go of the pins. Its root and the blocks that had come are
pinned from then on, and nothing else is: all of them are below the root and stored. -/
theorem C91_dropped {H : Hashes} {debug : Bool} {env : PinEnv} {content : Cid → Bytes} {U : Cid → Prop} {le : Cid → Cid → Bool} {x : P}
    (hdata : ∀ c d, U c → Authentic H c d → d = content c) (hU : ∀ a b, U a → U b → a.mh = b.mh → a = b)
    (hcl : ∀ a b, U a → LinkTo env content a b → U b) {s s' : PinNet P} {k : KeptPins} (hrun : PinRun H debug env le x (PinOk H U x) s k)
    {id : Nat} {c : Cid} {r : Bool} {l : Loader PinWalk} {got : List Cid} (hjob : s.jobs id = some ⟨c, r, .walk l got⟩)
    {a : Option (NodeOp × Bool)} (hst : s.step H debug env le x (.drop id) = some (s', a)) :
    a = some (.pin c true, false) ∧ s'.lock = none ∧ s'.jobs id = none ∧
      (∀ d, s'.pins.isPinned d = true ↔ s.pins.isPinned d = true ∨ d = c ∨ d ∈ got) ∧
      (∀ d ∈ got, Below env content c d ∧ (s'.net.node x).store.getBlock d = some ⟨d, content d⟩) ∧
      ((s'.net.node x).store.getBlock c).isSome = true := by
  have h := PinInv.run (oneData_inUse hdata) hU hcl hrun
  obtain ⟨-, -, h3, ls, h4, h5⟩ := h.jobs id _ hjob
  obtain ⟨h6, h7⟩ := h5.came
  have hstore : ∀ w d b, (s.net.node x).store.getBlock d = some b → ((s.net.dropWait x w).node x).store.getBlock d = some b := by
    intro w d b hb
    cases w with
    | none => exact hb
    | some i => exact getBlock_stays (H := H) (debug := debug) (e := .drop x i) hb (notTakenOut_of rfl d) rfl
  obtain ⟨p, w⟩ := l
  cases p with
  | ret o => simp only [PinNet.step, hjob] at hst; cases hst
  | load d kk e =>
    simp only [PinNet.step, hjob, Option.some.injEq, Prod.mk.injEq] at hst
    obtain ⟨rfl, rfl⟩ := hst
    refine ⟨rfl, rfl, by simp [PinNet.setJob], ?_, fun d hd => ⟨came_in h6 (loadsIn_below h4) d hd, hstore _ _ _ (h7 d hd).2⟩, ?_⟩
    · intro d
      cases hp : s.pins.insertPin le c .recursiveIntention with
      | ok q => exact pinnedSoFar_pinned (b := q.1) (g' := q.2) hp got d
      | error e =>
        dsimp only at h6
        unfold pinProg at h6
        rw [hp] at h6
        cases h6
    · obtain ⟨b, hb⟩ := Option.isSome_iff_exists.mp h3
      exact Option.isSome_iff_exists.mpr ⟨b, hstore _ _ _ hb⟩

/-- **C91**: a removal says that it went well exactly if the block was there and is not pinned, and then the block is gone. A block that is
pinned stays, and so do the pins. -/
theorem C91_removes {H : Hashes} {debug : Bool} {env : PinEnv} {le : Cid → Cid → Bool} {x : P} {s s' : PinNet P} {c : Cid}
    {a : Option (NodeOp × Bool)} (hst : s.step H debug env le x (.remove c) = some (s', a)) :
    a = some (.remove c, !s.pins.isPinned c && ((s.net.node x).store.getBlock c).isSome) ∧ s'.pins = s.pins ∧
      (s.pins.isPinned c = false → (s'.net.node x).store.getBlock c = none) ∧ (s.pins.isPinned c = true → s' = s) := by
  simp only [PinNet.step] at hst
  split at hst
  · cases hst
  split at hst
  · rename_i h; cases hst; exact ⟨by rw [h]; rfl, rfl, (fun h1 => by rw [h] at h1; cases h1), fun _ => rfl⟩
  · rename_i h
    have h' : s.pins.isPinned c = false := by simpa using h
    obtain ⟨n, hn, he⟩ := Option.map_eq_some_iff.mp hst
    cases he
    simp only [NetSt.step, Option.some.injEq] at hn
    subst hn
    refine ⟨?_, rfl, fun _ => ?_, (fun h1 => by rw [h'] at h1; cases h1)⟩
    · rw [h']
      simp [MemBlocks.remove, MemBlocks.getBlock]
    · rw [upd_self]
      simp [MemBlocks.remove, MemBlocks.getBlock, AMap.get_erase]

/-- **C91**: the walk of a recursive pin ends at a node that is connected to one that has what is below the root, if all of it can be read, and
leaves the pins as a walk does where everything is there. The conditions are those of `C89_ends`. -/
theorem C91_ends {H : Hashes} {env : PinEnv} {content : Cid → Bytes} {c : Cid} {ls : List (Option Bytes × Cid)} {items : List Item}
    (hw : Whole env content c ls items) (hdata : ∀ b d, Below env content c b → Authentic H b d → d = content b)
    (hvalid : ∀ b, Below env content c b → b.Valid) (le : Cid → Cid → Bool) (g : MemPins)
    {debug : Bool} {x y : P} (hxy : x ≠ y) {s0 s : NetSt P} {k : Nat} {l : Loader PinWalk}
    (hpre : NetRun H debug (fun s e s' => InOrder H e ∧ Short64 s' ∧ ∀ b, Below env content c b → NoAlias x b s e) NetSt.init s0)
    (hhas : ∀ b, Below env content c b → (s0.node y).store.getBlock b = some ⟨b, content b⟩)
    (hnot : ∀ b, Below env content c b → (s0.node y).bits.bs.wanted.get b = none ∧ RepoEv.want b ∉ (s0.node y).chan)
    (hstart : ∀ b, Below env content c b → (s0.node x).bits.bs.wanted.get b = none ∨ (s0.node x).bits.bs.peers.get y = none)
    (hshort : ∀ f ∈ s0.flight, Between x y f → f.bytes.length ≤ maxBufSize)
    (hrun : LoadRun H debug (fun s e s' => InOrder H e ∧ Short64 s' ∧ ∀ b, Below env content c b → NoAlias x b s e ∧ Undisturbed x y b s e s')
      x s0 (pinProg env le g c ls) k s l)
    (hidle : Idle (s.node x) ∧ Idle (s.node y) ∧ ∀ f ∈ s.flight, ¬ Between x y f)
    (hlink : ∃ lg, (s.node x).bits.bs.peers.get y = some lg)
    (hstuck : (l.go x s).2 = l) : l.prog = .ret (some (g.insertRecursive le c ((treeRefs env content c).map some))) := by
  have hin : ∀ {b d}, inUse content (Below env content c) b = some d → Below env content c b := fun h => (inUse_some h).1
  obtain ⟨h1, h2⟩ := pinProg_whole (le := le) (f := inUse content (Below env content c)) hw (fun d hd => inUse_pos ((hw.below d).mp hd)) g
  rw [← h2]
  refine C89_ends (fetch := inUse content (Below env content c)) (oneData_inUse fun b d hb ha => hdata b d hb ha) (fun b d h => hvalid b (hin h)) h1 hxy
    (hpre.mono fun _ _ _ h => ⟨h.1, h.2.1, fun b d hd => h.2.2 b (hin hd)⟩) ?_ (fun b d h => hnot b (hin h)) (fun b d h => hstart b (hin h)) hshort
    (hrun.mono fun _ _ _ h => ⟨h.1, h.2.1, fun b d hd => h.2.2 b (hin hd)⟩) hidle hlink hstuck
  intro b d hd
  obtain ⟨h3, rfl⟩ := inUse_some hd
  exact hhas b h3

/-! ### Examples -/

/-- The documents of `formBlocks`. -/
def pinFormEnv : PinEnv := ⟨netServed.env, netServed.size, 20⟩

def pinFormContent (c : Cid) : Bytes := (Unixfs.storeOf formBlocks c).getD []

def InForm (c : Cid) : Prop := c ∈ formBlocks.map Prod.fst

instance : DecidablePred InForm := fun c => inferInstanceAs (Decidable (c ∈ formBlocks.map Prod.fst))

theorem inForm_some {c : Cid} (h : InForm c) : ∃ d, Unixfs.storeOf formBlocks c = some d ∧ pinFormContent c = d ∧ (c, d) ∈ formBlocks := by
  obtain ⟨⟨c', d⟩, hb, rfl⟩ := List.mem_map.mp h
  have := (storeOf_v0 (tableSha_digest32 _) (H := formHashes) rfl (by decide +kernel) formBlocks_noOther).2.1 _ hb
  exact ⟨d, this, by simp [pinFormContent, this], hb⟩

theorem form_true : ∀ c d, InForm c → Authentic formHashes c d → d = pinFormContent c := by
  intro c d hc ha
  obtain ⟨e, h1, h2, -⟩ := inForm_some hc
  rw [h2]
  exact (storeOf_v0 (tableSha_digest32 _) (H := formHashes) rfl (by decide +kernel) formBlocks_noOther).1 c e d h1 ha

theorem form_apart : ∀ a b, InForm a → InForm b → a.mh = b.mh → a = b := by
  have h : ∀ a ∈ formBlocks.map Prod.fst, ∀ b ∈ formBlocks.map Prod.fst, a.mh = b.mh → a = b := by decide +kernel
  exact fun a b ha hb => h a ha b hb

def linksInB (c : Cid) : Bool :=
  match fullLook pinFormEnv pinFormContent c with
  | .links ls => ls.all (fun l => decide (InForm l.2))
  | _ => false

theorem form_closed : ∀ a b, InForm a → LinkTo pinFormEnv pinFormContent a b → InForm b := by
  have h : ∀ a ∈ formBlocks.map Prod.fst, linksInB a = true := by decide +kernel
  intro a b ha hl
  have h1 := h a ha
  unfold linksInB at h1
  split at h1
  · rename_i ls hls
    obtain ⟨l, hm, rfl⟩ := (fullLook_links hls b).mpr hl
    exact of_decide_eq_true (List.all_eq_true.mp h1 l hm)
  · cases h1

theorem form_below {b : Cid} (h : Below pinFormEnv pinFormContent netTop b) : InForm b := by
  induction h with
  | link h => exact form_closed _ _ (by decide +kernel) h
  | step _ h ih => exact form_closed _ _ ih h

/-- Some order. -/
def netLe (a b : Cid) : Bool := decide (a.digest ≤ b.digest)

def pinOkB (s : PinNet (Fin 3)) : PinEv (Fin 3) → Bool
  | .net e =>
    putsB formHashes e && formBlocks.all (fun b => noAliasB 0 b.1 s.net e) &&
      (match e with
      | .await _ _ => false
      | .drop _ _ => false
      | _ => true)
  | .ask _ c _ => decide (InForm c)
  | .unpin c _ => decide (InForm c)
  | .remove _ => false
  | _ => true

theorem pinOkB_sound {s : PinNet (Fin 3)} {e : PinEv (Fin 3)} (h : pinOkB s e = true) : PinOk formHashes InForm 0 s e := by
  cases e with
  | net e =>
    simp only [pinOkB, Bool.and_eq_true, List.all_eq_true] at h
    refine ⟨putsB_sound h.1.1, ?_, ?_⟩
    · intro c hc
      obtain ⟨d, -, -, hm⟩ := inForm_some hc
      exact noAliasB_sound (h.1.2 _ hm)
    · intro id j i _ _
      constructor
      · rintro rfl; simp at h
      · rintro rfl; simp at h
  | ask id c r => simpa [pinOkB, PinOk] using h
  | unpin c r => simpa [pinOkB, PinOk] using h
  | remove c => simp [pinOkB] at h
  | _ => trivial

def pinRun (ok : PinNet (Fin 3) → PinEv (Fin 3) → Bool) : PinNet (Fin 3) → KeptPins → List (PinEv (Fin 3)) → Option (PinNet (Fin 3) × KeptPins)
  | s, k, [] => some (s, k)
  | s, k, e :: es =>
    match s.step formHashes false pinFormEnv netLe 0 e with
    | none => none
    | some (s', a) => if ok s e then pinRun ok s' (k.told a) es else none

theorem pinRun_sound {ok : PinNet (Fin 3) → PinEv (Fin 3) → Bool} {okP : PinNet (Fin 3) → PinEv (Fin 3) → Prop} (hok : ∀ s e, ok s e = true → okP s e)
    (evs : List (PinEv (Fin 3))) (s s' : PinNet (Fin 3)) (k k' : KeptPins) (h : PinRun formHashes false pinFormEnv netLe 0 okP s k)
    (hr : pinRun ok s k evs = some (s', k')) : PinRun formHashes false pinFormEnv netLe 0 okP s' k' := by
  induction evs generalizing s k with
  | nil => cases hr; exact h
  | cons e es ih =>
    simp only [pinRun] at hr
    split at hr
    · cases hr
    · rename_i t a ht
      split at hr
      · rename_i ho; exact ih _ _ (.step e h (hok _ _ ho) ht) hr
      · cases hr

theorem pinRun_end {ok : PinNet (Fin 3) → PinEv (Fin 3) → Bool} {okP : PinNet (Fin 3) → PinEv (Fin 3) → Prop} (hok : ∀ s e, ok s e = true → okP s e)
    {evs : List (PinEv (Fin 3))} {φ : PinNet (Fin 3) × KeptPins → Bool} (h : (pinRun ok ⟨NetSt.init, [], fun _ => none, none⟩ {} evs).any φ = true) :
    ∃ s k, PinRun formHashes false pinFormEnv netLe 0 okP s k ∧ φ (s, k) = true := by
  cases hr : pinRun ok ⟨NetSt.init, [], fun _ => none, none⟩ {} evs with
  | none => rw [hr] at h; cases h
  | some q => rw [hr] at h; exact ⟨q.1, q.2, pinRun_sound hok evs _ _ _ _ .refl hr, h⟩

def pinRound : List (PinEv (Fin 3)) := fileRound.map (fun e => match e with | none => .go 0 | some e => .net e)

/-- The first node pins what the second has: the root goes over, then three blocks. -/
def pinEvs : List (PinEv (Fin 3)) :=
  formPre.map .net ++ [.ask 0 netTop true] ++ pinRound ++ [.next 0] ++ pinRound ++ pinRound ++ pinRound

def pinnedAnswer (s : PinNet (Fin 3)) : Option (NodeOp × Bool) := (s.step formHashes false pinFormEnv netLe 0 (.done 0)).bind Prod.snd

/-- A run that meets the hypotheses of `C91_downloaded`, and so those of `C91_keeps`: the store of the node was empty, and the pin goes well. -/
theorem C91_met : ∃ (s s' : PinNet (Fin 3)) (k : KeptPins), PinRun formHashes false pinFormEnv netLe 0 (PinOk formHashes InForm 0) s k ∧
    s.step formHashes false pinFormEnv netLe 0 (.done 0) = some (s', some (.pin netTop true, true)) := by
  obtain ⟨s, k, h1, h2⟩ := pinRun_end (okP := PinOk formHashes InForm 0) (fun _ _ => pinOkB_sound)
    (evs := pinEvs) (φ := fun q => decide (pinnedAnswer q.1 = some (.pin netTop true, true))) (by decide +kernel)
  have h3 := of_decide_eq_true h2
  unfold pinnedAnswer at h3
  cases hs : s.step formHashes false pinFormEnv netLe 0 (.done 0) with
  | none => rw [hs] at h3; cases h3
  | some q =>
    obtain ⟨s', a⟩ := q
    rw [hs] at h3
    simp only [Option.bind_some] at h3
    subst h3
    exact ⟨s, s', k, h1, hs⟩

/-- What is below the root. -/
example : treeRefs pinFormEnv pinFormContent netTop = [2, 0, 1].filterMap (fun i => (formBlocks[i]?).map Prod.fst) := by decide +kernel

/-- **C91**: a block that is removed after it has been loaded for a pin and before the pins are locked is pinned and not there
(src/lib.rs:475-478). -/
theorem C91_race : ∃ (s : PinNet (Fin 3)) (k : KeptPins),
    PinRun formHashes false pinFormEnv netLe 0 (fun s e => PinOk formHashes InForm 0 s e ∨ e = .remove netTop) s k ∧
    k.direct netTop = true ∧ s.pins.isPinned netTop = true ∧ (s.net.node 0).store.getBlock netTop = none := by
  obtain ⟨s, k, h1, h2⟩ := pinRun_end (okP := fun s e => PinOk formHashes InForm 0 s e ∨ e = .remove netTop)
    (ok := fun s e => pinOkB s e || (match e with | .remove c => decide (c = netTop) | _ => false)) (fun s e h => by
      rcases Bool.or_eq_true _ _ ▸ h with h | h
      · exact Or.inl (pinOkB_sound h)
      · split at h
        · rw [of_decide_eq_true h]; exact Or.inr rfl
        · cases h)
    (evs := [.net (.put 0 ⟨netTop, pinFormContent netTop⟩), .ask 0 netTop false, .go 0, .remove netTop, .next 0])
    (φ := fun q => q.2.direct netTop && q.1.pins.isPinned netTop && ((q.1.net.node 0).store.getBlock netTop).isNone) (by decide +kernel)
  simp only [Bool.and_eq_true, Option.isNone_iff_eq_none] at h2
  exact ⟨s, k, h1, h2.1.1, h2.1.2, h2.2⟩

def formLinks : List (Option Bytes × Cid) :=
  match fullLook pinFormEnv pinFormContent netTop with
  | .links ls => ls
  | _ => []

def formItems : List Item := ((refs walkOpts (fullLook pinFormEnv pinFormContent) 20 [(netTop, formLinks)]).map Prod.fst).getD []

theorem form_whole : Whole pinFormEnv pinFormContent netTop formLinks formItems := by
  have h : fullLook pinFormEnv pinFormContent netTop = .links formLinks ∧
      refs walkOpts (fullLook pinFormEnv pinFormContent) pinFormEnv.fuel [(netTop, formLinks)] = some (formItems, .done) ∧
      formItems.all isEdge = true := by decide +kernel
  exact ⟨h.1, h.2.1, (allEdges_iff _).mp h.2.2⟩

/-- A run that meets the hypotheses of `C91_ends`. -/
theorem C91_ends_met : ∃ (s0 s : NetSt (Fin 3)) (k : Nat) (l : Loader PinWalk),
    NetRun formHashes false (fun s e s' => InOrder formHashes e ∧ Short64 s' ∧ ∀ b, Below pinFormEnv pinFormContent netTop b → NoAlias 0 b s e) NetSt.init s0 ∧
    (∀ b, Below pinFormEnv pinFormContent netTop b → (s0.node 1).store.getBlock b = some ⟨b, pinFormContent b⟩) ∧
    (∀ b, Below pinFormEnv pinFormContent netTop b → (s0.node 1).bits.bs.wanted.get b = none ∧ RepoEv.want b ∉ (s0.node 1).chan) ∧
    (∀ b, Below pinFormEnv pinFormContent netTop b → (s0.node 0).bits.bs.wanted.get b = none ∨ (s0.node 0).bits.bs.peers.get 1 = none) ∧
    (∀ f ∈ s0.flight, Between 0 1 f → f.bytes.length ≤ maxBufSize) ∧
    LoadRun formHashes false (fun s e s' => InOrder formHashes e ∧ Short64 s' ∧
      ∀ b, Below pinFormEnv pinFormContent netTop b → NoAlias 0 b s e ∧ Undisturbed 0 1 b s e s') 0 s0 (pinProg pinFormEnv netLe [] netTop formLinks) k s l ∧
    (Idle (s.node 0) ∧ Idle (s.node 1) ∧ ∀ f ∈ s.flight, ¬ Between 0 1 f) ∧ (∃ lg, (s.node 0).bits.bs.peers.get 1 = some lg) ∧ (l.go 0 s).2 = l := by
  have hin : ∀ {b}, Below pinFormEnv pinFormContent netTop b → (b, pinFormContent b) ∈ formBlocks := by
    intro b hb
    obtain ⟨d, -, rfl, h⟩ := inForm_some (form_below hb)
    exact h
  have h : ((netRun formHashes false formPreB NetSt.init formPre).any (fun s0 => formStartB s0 &&
      (loadRun formHashes false formPostB 0 s0 ⟨pinProg pinFormEnv netLe [] netTop formLinks, none⟩ (fileRound ++ fileRound ++ fileRound)).any formEndB)) = true := by
    decide +kernel
  obtain ⟨s0, -, h1, h2⟩ := netRun_end (H := formHashes) (debug := false) (ok := formPreB) (s := NetSt.init) (evs := formPre) formPreB_sound h
  simp only [Bool.and_eq_true] at h2
  obtain ⟨s, l, k, h3, h4⟩ := loadRun_end formPostB_sound h2.2
  have h5 := h2.1
  simp only [formStartB, formEndB, Bool.and_eq_true, List.all_eq_true, decide_eq_true_eq, List.isEmpty_iff] at h5 h4
  obtain ⟨⟨⟨⟨g1, g2⟩, g3⟩, g4⟩, g5⟩ := h4
  exact ⟨s0, s, k, l, h1.mono fun _ _ _ h => ⟨h.1, h.2.1, fun b hb => h.2.2 _ (hin hb)⟩, fun b hb => (h5.1 _ (hin hb)).1.1.1,
    fun b hb => ⟨(h5.1 _ (hin hb)).1.1.2, (h5.1 _ (hin hb)).1.2⟩, fun b hb => Or.inl (h5.1 _ (hin hb)).2, (by rw [h5.2]; intro f hf; cases hf),
    h3.mono fun _ _ _ h => ⟨h.1, h.2.1, fun b hb => h.2.2 _ (hin hb)⟩, ⟨idleB_sound g1, idleB_sound g2, (by rw [g3]; intro f hf; cases hf)⟩,
    Option.isSome_iff_exists.mp g4, stuck_ret g5⟩

/-- **C91**: while a recursive pin waits for a block that nobody has, the pins are locked: nothing can be removed or unpinned, whatever it is
(src/repo/mem.rs:222). -/
theorem C91_locked : ∃ (s : PinNet (Fin 3)) (k : KeptPins), PinRun formHashes false pinFormEnv netLe 0 (PinOk formHashes InForm 0) s k ∧
    Idle (s.net.node 0) ∧ (∃ l got, s.jobs 0 = some ⟨netTop, true, .walk l got⟩ ∧ (l.go 0 s.net).2.wait = l.wait) ∧
    s.step formHashes false pinFormEnv netLe 0 (.done 0) = none ∧
    ∀ c r, s.step formHashes false pinFormEnv netLe 0 (.remove c) = none ∧ s.step formHashes false pinFormEnv netLe 0 (.unpin c r) = none := by
  obtain ⟨s, k, h1, h2⟩ := pinRun_end (okP := PinOk formHashes InForm 0) (fun _ _ => pinOkB_sound)
    (evs := [.net (.put 0 ⟨netTop, pinFormContent netTop⟩), .net (.event 0), .ask 0 netTop true, .go 0, .next 0, .go 0, .net (.event 0), .go 0])
    (φ := fun q => idleB (q.1.net.node 0) && q.1.lock.isSome && (q.1.step formHashes false pinFormEnv netLe 0 (.done 0)).isNone &&
      (match q.1.jobs 0 with
      | some ⟨c, true, .walk l _⟩ => decide (c = netTop) && decide (l.wait.isSome) && decide ((l.go 0 q.1.net).2.wait = l.wait)
      | _ => false)) (by decide +kernel)
  simp only [Bool.and_eq_true, Option.isNone_iff_eq_none] at h2
  obtain ⟨⟨⟨g1, g2⟩, g3⟩, g4⟩ := h2
  refine ⟨s, k, h1, idleB_sound g1, ?_, g3, ?_⟩
  · split at g4
    · rename_i c l got hj
      simp only [Bool.and_eq_true, decide_eq_true_eq] at g4
      exact ⟨l, got, by rw [hj, g4.1.1], g4.2⟩
    · cases g4
  · intro c r
    simp [PinNet.step, g2]


def leftEvs : List (PinEv (Fin 3)) :=
  [.net (.put 0 ⟨netTop, pinFormContent netTop⟩)] ++ ((treeRefs pinFormEnv pinFormContent netTop).take 1).map (fun c => .net (.put 0 ⟨c, pinFormContent c⟩)) ++
    [.ask 0 netTop true, .go 0, .next 0, .go 0, .go 0]

def leftB (s : PinNet (Fin 3)) (d : Cid) : Bool :=
  (match s.jobs 0 with
  | some ⟨c, true, .walk _ got⟩ => decide (c = netTop) && decide (got = [d])
  | _ => false) &&
  (match s.step formHashes false pinFormEnv netLe 0 (.drop 0) with
  | some (s', a) => decide (a = some (.pin netTop true, false)) && s'.pins.isPinned netTop && s'.pins.isPinned d && s'.lock.isNone &&
    decide ((s'.step formHashes false pinFormEnv netLe 0 (.remove d)).map Prod.snd = some (some (.remove d, false))) &&
    decide ((s'.step formHashes false pinFormEnv netLe 0 (.unpin netTop true)).map (fun q => (q.2, q.1.pins.isPinned d)) =
      some (some (.unpin netTop true, false), false))
  | none => false)

/-- **C91**: a run that meets the hypotheses of `C91_dropped`, and what is left behind by a pin that was given up: nobody has been told that
anything is pinned, and a block that had come cannot be removed. Unpinning the root takes it back and answers that it failed. -/
theorem C91_left : ∃ (s s' : PinNet (Fin 3)) (k : KeptPins) (l : Loader PinWalk) (d : Cid),
    PinRun formHashes false pinFormEnv netLe 0 (PinOk formHashes InForm 0) s k ∧ s.jobs 0 = some ⟨netTop, true, .walk l [d]⟩ ∧
    s.step formHashes false pinFormEnv netLe 0 (.drop 0) = some (s', some (.pin netTop true, false)) ∧
    (∀ c, InForm c → k.direct c = false ∧ k.root c = false ∧ k.tried c = false) ∧ s'.pins.isPinned netTop = true ∧ s'.pins.isPinned d = true ∧
    (∃ s2, s'.step formHashes false pinFormEnv netLe 0 (.remove d) = some (s2, some (.remove d, false))) ∧
    ∃ s2, s'.step formHashes false pinFormEnv netLe 0 (.unpin netTop true) = some (s2, some (.unpin netTop true, false)) ∧ s2.pins.isPinned d = false := by
  obtain ⟨s, k, h1, h2⟩ := pinRun_end (okP := PinOk formHashes InForm 0) (fun _ _ => pinOkB_sound) (evs := leftEvs)
    (φ := fun q => (formBlocks.map Prod.fst).all (fun c => !q.2.direct c && !q.2.root c && !q.2.tried c) &&
      (treeRefs pinFormEnv pinFormContent netTop).head?.any (leftB q.1)) (by decide +kernel)
  simp only [Bool.and_eq_true, List.all_eq_true, Bool.not_eq_true', Option.any_eq_true] at h2
  obtain ⟨h2, d, -, h3⟩ := h2
  simp only [leftB, Bool.and_eq_true] at h3
  obtain ⟨h3, h4⟩ := h3
  split at h3
  · rename_i c l got hj
    simp only [Bool.and_eq_true, decide_eq_true_eq] at h3
    obtain ⟨rfl, rfl⟩ := h3
    split at h4
    · rename_i s' a hst
      simp only [Bool.and_eq_true, decide_eq_true_eq] at h4
      obtain ⟨⟨⟨⟨⟨rfl, g1⟩, g2⟩, -⟩, g3⟩, g4⟩ := h4
      obtain ⟨⟨s2, a2⟩, e1, e2⟩ := Option.map_eq_some_iff.mp g3
      obtain ⟨⟨s3, a3⟩, e3, e4⟩ := Option.map_eq_some_iff.mp g4
      simp only [Prod.mk.injEq] at e2 e4
      obtain ⟨e4, e5⟩ := e4
      subst e2 e4
      exact ⟨s, s', k, l, d, h1, hj, hst, fun c hc => ⟨(h2 c hc).1.1, (h2 c hc).1.2, (h2 c hc).2⟩, g1, g2, ⟨s2, e1⟩, s3, e3, e5⟩
    · cases h4
  · cases h3

end Verif.Props
