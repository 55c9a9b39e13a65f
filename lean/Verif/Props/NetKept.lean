import Verif.Props.NetWalk

/-!
# C90: what was read over the network is there afterwards
-/

namespace Verif.Props

open Verif Verif.Repo Verif.Repo.Subs Verif.Bitswap Verif.Net Verif.Unixfs Verif.Ipfs Verif.Ipld Verif.Http
open Verif.Bitswap.Bitswap

variable {P : Type} [DecidableEq P] {α β : Type}

/-! ### Specification -/

/-- Nobody removes the block at this node. -/
def NotTakenOut (x : P) (c : Cid) : NetEv P → Prop
  | .remove y d => y = x → d.mh ≠ c.mh
  | _ => True

/-- What is in the store of a node. -/
def localBlocks (n : Peer P) (c : Cid) : Option Bytes := (n.store.getBlock c).map Repo.Block.data

/-- The blocks that a program loads, as long as they are there. -/
def loads (fetch : Cid → Option Bytes) : Prog α → List Cid
  | .ret _ => []
  | .load c k _ =>
    match fetch c with
    | some d => c :: loads fetch (k ⟨c, d⟩)
    | none => []

/-- No blocks but these. -/
def onlyThese (cs : List Cid) (fetch : Cid → Option Bytes) (c : Cid) : Option Bytes := if c ∈ cs then fetch c else none

/-! ### Helpers: the way of a program -/

/-- The program came to this point with these blocks. -/
inductive CameTo (fetch : Cid → Option Bytes) : List Cid → Prog α → Prog α → Prop
  | here (p : Prog α) : CameTo fetch [] p p
  | on {cs : List Cid} {c : Cid} {k : Repo.Block → Prog α} {e q : Prog α} {d : Bytes} : fetch c = some d → CameTo fetch cs (k ⟨c, d⟩) q →
      CameTo fetch (c :: cs) (.load c k e) q

theorem CameTo.snoc {fetch : Cid → Option Bytes} {cs : List Cid} {p : Prog α} {c : Cid} {k : Repo.Block → Prog α} {e : Prog α} {d : Bytes}
    {q : Prog α} (hq : q = .load c k e) (h : CameTo fetch cs p q) (hd : fetch c = some d) : CameTo fetch (cs ++ [c]) p (k ⟨c, d⟩) := by
  induction h with
  | here p => subst hq; exact .on hd (.here _)
  | on h1 _ ih => exact .on h1 (ih hq)

theorem CameTo.same {fetch f : Cid → Option Bytes} {cs : List Cid} {p q : Prog α} (h : CameTo fetch cs p q) (hf : ∀ c ∈ cs, f c = fetch c) :
    p.eval f = q.eval f ∧ (BlocksThere f q → BlocksThere f p) := by
  induction h with
  | here p => exact ⟨rfl, id⟩
  | @on cs c k e q d h1 _ ih =>
    obtain ⟨g1, g2⟩ := ih (fun c hc => hf c (List.mem_cons_of_mem _ hc))
    have hc : f c = some d := by rw [hf c List.mem_cons_self, h1]
    exact ⟨by simp only [Prog.eval, hc]; exact g1, fun h => blocksThere_load hc (g2 h)⟩

theorem CameTo.loads {fetch : Cid → Option Bytes} {cs : List Cid} {p q : Prog α} (h : CameTo fetch cs p q) :
    loads fetch p = cs ++ loads fetch q := by
  induction h with
  | here p => rfl
  | on h1 _ ih => simp only [Props.loads, h1, ih, List.cons_append]

theorem loads_came {fetch : Cid → Option Bytes} {p : Prog α} (h : BlocksThere fetch p) : ∃ a, CameTo fetch (loads fetch p) p (.ret a) := by
  induction p with
  | ret a => exact ⟨a, .here _⟩
  | load c k e ih1 ih2 =>
    obtain ⟨n, hn⟩ := h
    obtain ⟨d, m, hd, hm, -⟩ := needs_load hn
    obtain ⟨a, ha⟩ := ih1 _ ⟨m, hm⟩
    refine ⟨a, ?_⟩
    simp only [loads, hd]
    exact .on hd ha

/-- The blocks a program loads are all it needs. -/
theorem loads_enough {fetch f : Cid → Option Bytes} {p : Prog α} (h : BlocksThere fetch p) (hf : ∀ c ∈ loads fetch p, f c = fetch c) :
    p.eval f = p.eval fetch ∧ BlocksThere f p := by
  obtain ⟨a, ha⟩ := loads_came h
  have h1 := ha.same hf
  exact ⟨by rw [h1.1, (ha.same (fun _ _ => rfl)).1]; rfl, h1.2 (blocksThere_ret a)⟩

theorem loads_there {fetch : Cid → Option Bytes} {p : Prog α} {c : Cid} (h : c ∈ loads fetch p) : ∃ d, fetch c = some d := by
  induction p with
  | ret a => cases h
  | load c' k e ih1 ih2 =>
    simp only [loads] at h
    cases hd : fetch c' with
    | none => rw [hd] at h; cases h
    | some d =>
      rw [hd] at h
      rcases List.mem_cons.mp h with rfl | h
      · exact ⟨d, hd⟩
      · exact ih1 _ h

/-! ### Helpers: the subscription of the program and the store -/

theorem kept_poll {reg reg' : Reg Cid Repo.Block} {c : Cid} {i j : Nat} {out : Out Repo.Block} (hij : i ≠ j)
    (hp : reg.poll j = some (reg', out)) : AMap.get reg'.subs (c, i) = AMap.get reg.subs (c, i) := by
  unfold Reg.poll at hp
  split at hp
  · rename_i k cl hk
    have hne : (c, i) ≠ (k, j) := by intro h; cases h; exact hij rfl
    split at hp
    · cases hp; rfl
    · cases hp; dsimp only; rw [AMap.get_set_ne _ _ hne]
    · cases hp; dsimp only [Reg.setFut]; rw [AMap.get_erase_ne _ hne]
    · cases hp; dsimp only [Reg.setFut]; rw [AMap.get_erase_ne _ hne]
  · cases hp

theorem kept_lock {reg reg' : Reg Cid Repo.Block} {c : Cid} {i j : Nat} (hij : i ≠ j)
    (hp : reg.dropLocked j = some reg') : AMap.get reg'.subs (c, i) = AMap.get reg.subs (c, i) := by
  unfold Reg.dropLocked at hp
  split at hp
  · rename_i k cl hk
    have hne : (c, i) ≠ (k, j) := by intro h; cases h; exact hij rfl
    split at hp
    · cases hp; rfl
    · split at hp
      · cases hp; dsimp only [Reg.setFut]; rw [AMap.get_erase_ne _ hne]
      · cases hp; rfl
  · cases hp

theorem kept_notify {reg reg' : Reg Cid Repo.Block} {c : Cid} {i j : Nat}
    (hp : reg.dropNotify j = some reg') : AMap.get reg'.subs (c, i) = AMap.get reg.subs (c, i) := by
  unfold Reg.dropNotify at hp
  split at hp
  · cases hp; rfl
  · cases hp

omit [DecidableEq P] in
theorem kept_drop {n : Peer P} {c : Cid} {i j : Nat} (hij : i ≠ j) : AMap.get (n.drop j).reg.subs (c, i) = AMap.get n.reg.subs (c, i) := by
  obtain ⟨-, -, -, g⟩ := drop_shape n j
  rcases g with ⟨g, -⟩ | ⟨reg, hl, ⟨g, -⟩ | ⟨g, -⟩⟩
  · rw [g]
  · rw [g, kept_lock hij hl]
  · rw [kept_notify g, kept_lock hij hl]

omit [DecidableEq P] in
theorem kept_get {H : Hashes} {n : Peer P} (hn : TrueInv H n) {c d : Cid} {i : Nat} (h : HeldBy n.reg c i) :
    AMap.get (n.get d).2.reg.subs (c, i) = AMap.get n.reg.subs (c, i) := by
  unfold Peer.get
  split
  · rfl
  · obtain ⟨reg', g1, g2, g3, g4, g5⟩ := insert_true hn.owner hn.shut d
    dsimp only
    rw [g1]
    have hi : i ≠ n.reg.nextId := by
      rintro rfl
      have := h.1
      rw [hn.owner.fresh _ (Nat.le_refl _)] at this; cases this
    rw [g4, AMap.get_set_ne _ _ (by intro h; cases h; exact hi rfl)]

/-- A subscription that is ready is for a block that is stored. -/
def ReadyStored (n : Peer P) (c : Cid) (i : Nat) : Prop := ∀ b, AMap.get n.reg.subs (c, i) = some (.ready b) → n.store.getBlock c = some b

theorem getBlock_stays {H : Hashes} {debug : Bool} {s s' : NetSt P} {e : NetEv P} {x : P} {c : Cid} {b : Repo.Block}
    (h : (s.node x).store.getBlock c = some b) (he : NotTakenOut x c e) (hst : s.step H debug e = some s') :
    (s'.node x).store.getBlock c = some b := by
  rcases net_step hst with ⟨h1, h2, h3⟩ | ⟨z, lab, a, n', h1, h2, h3, h4, h5⟩
  · rw [h2]; exact h
  · by_cases hz : z = x
    · subst hz
      rw [h3]
      rcases move_repo h2 with ⟨g, -⟩ | ⟨b', -, hnone, g, -, -⟩ | ⟨d, hl, g, -⟩ | ⟨g, -⟩
      · rw [g]; exact h
      · rw [g, MemBlocks.getBlock, AMap.get_set]
        split
        · rename_i hc
          rw [MemBlocks.getBlock, hc, hnone] at h; cases h
        · exact h
      · rw [g]
        simp only [MemBlocks.remove, MemBlocks.getBlock, AMap.get_erase]
        split
        · rename_i hc
          exfalso
          subst hl
          cases e with
          | remove y d' => cases h1; exact he rfl hc.symm
          | deliver k => simp only [evLab, Option.map_eq_some_iff] at h1; obtain ⟨f, -, h1⟩ := h1; cases h1
          | _ => cases h1
        · exact h
      · rw [g]; exact h
    · rw [h4 x (Ne.symm hz)]; exact h

theorem readyStored_net {H : Hashes} {debug : Bool} {s s' : NetSt P} {e : NetEv P} {x : P} {c : Cid} {i : Nat} (hn : TrueInv H (s.node x))
    (h : HeldBy (s.node x).reg c i) (hr : ReadyStored (s.node x) c i) (he : e ≠ .await x i ∧ e ≠ .drop x i) (hnr : NotTakenOut x c e)
    (hst : s.step H debug e = some s') : ReadyStored (s'.node x) c i := by
  intro b hb
  have hold : ∀ b, AMap.get (s.node x).reg.subs (c, i) = some (.ready b) → (s'.node x).store.getBlock c = some b :=
    fun b hb => getBlock_stays (hr b hb) hnr hst
  rcases net_step hst with ⟨h1, h2, h3⟩ | ⟨z, lab, a, n', h1, h2, h3, h4, h5⟩
  · rw [h2] at hb; exact hold b hb
  · by_cases hz : z = x
    · subst hz
      rw [h3] at hb hold ⊢
      have hlab : lab ≠ .await i ∧ lab ≠ .drop i := by
        constructor
        · rintro rfl
          cases e with
          | await y j => cases h1; exact he.1 rfl
          | deliver k => simp only [evLab, Option.map_eq_some_iff] at h1; obtain ⟨f, -, h1⟩ := h1; cases h1
          | _ => cases h1
        · rintro rfl
          cases e with
          | drop y j => cases h1; exact he.2 rfl
          | deliver k => simp only [evLab, Option.map_eq_some_iff] at h1; obtain ⟨f, -, h1⟩ := h1; cases h1
          | _ => cases h1
      rcases move_repo h2 with ⟨-, g⟩ | ⟨b', -, -, gs, g, hp⟩ | ⟨d, -, -, g⟩ | ⟨-, ⟨d, rfl, g⟩ | ⟨j, rfl, g⟩ | ⟨j, rfl, g⟩⟩
      · rw [g] at hb; exact hold b hb
      · rw [g] at hb
        unfold Reg.finish at hp hb
        split at hb
        · rename_i hk
          rw [if_pos hk] at hp
          dsimp only at hp hb
          split at hb
          · exact hold b hb
          · dsimp only at hb
            rw [get_wakeAll] at hb
            cases hsub : AMap.get (s.node z).reg.subs (c, i) with
            | none => rw [hsub] at hb; cases hb
            | some sub =>
              rw [hsub] at hb
              cases sub with
              | pending w m =>
                dsimp only at hb
                split at hb
                · rename_i hc
                  cases hb
                  rw [gs, MemBlocks.getBlock, AMap.get_set]
                  rw [if_pos (by first | rw [hc] | rw [← hc])]
                  rfl
                · cases hb
              | ready r => exact hold b (by rw [hsub]; exact hb)
              | cancelled => cases hb
        · exact hold b hb
      · rw [g] at hb; exact hold b hb
      · rw [g, kept_get hn h] at hb; exact hold b hb
      · rcases await_reg (s.node z) j with g' | ⟨reg', out, hp, g'⟩
        · rw [g, g'] at hb; exact hold b hb
        · rw [g, g', kept_poll (fun hij => hlab.1 (by rw [hij])) hp] at hb
          exact hold b hb
      · rw [g, kept_drop (fun hij => hlab.2 (by rw [hij]))] at hb; exact hold b hb
    · rw [h4 x (Ne.symm hz)] at hb hold ⊢; exact hold b hb

/-! ### Helpers: the program under way -/

/-- What the program has loaded is stored, and so is what its future has. -/
structure LoadKept (fetch : Cid → Option Bytes) (p : Prog α) (x : P) (s : NetSt P) (l : Loader α) : Prop where
  came : ∃ cs, CameTo fetch cs p l.prog ∧ ∀ c ∈ cs, ∃ d, fetch c = some d ∧ (s.node x).store.getBlock c = some ⟨c, d⟩
  ready : ∀ i c k e, l.wait = some i → l.prog = .load c k e → ReadyStored (s.node x) c i

omit [DecidableEq P] in
theorem loadKept_take {fetch : Cid → Option Bytes} {p : Prog α} {x : P} {s s' : NetSt P} {l : Loader α} {H : Hashes} (hone : OneData H fetch)
    {c : Cid} {k : Repo.Block → Prog α} {e : Prog α} {b : Repo.Block} {d : Bytes} (hp : l.prog = .load c k e) (hd : fetch c = some d) (hb : b.cid = c)
    (ha : Authentic H c b.data) (hst : (s.node x).store.getBlock c = some b) (hs : (s'.node x).store = (s.node x).store) (hi : LoadKept fetch p x s l) :
    LoadKept fetch p x s' ⟨k b, none⟩ := by
  have hbd : b = ⟨c, d⟩ := by
    have := hone c d b.data hd ha
    cases b
    simp_all
  subst hbd
  obtain ⟨cs, h1, h2⟩ := hi.came
  refine ⟨⟨cs ++ [c], h1.snoc hp hd, ?_⟩, ?_⟩
  · intro c' hc'
    rw [hs]
    rcases List.mem_append.mp hc' with h | h
    · exact h2 c' h
    · rw [List.mem_singleton.mp h]; exact ⟨d, hd, hst⟩
  · intro i c k e h; cases h

theorem LoadKept.go {fetch : Cid → Option Bytes} {whole : α} {bound n : Nat} {p : Prog α} {x : P} {s : NetSt P} {l : Loader α} {H : Hashes}
    (hone : OneData H fetch) (hn : TrueInv H (s.node x))
    (hown : ∀ c d, fetch c = some d → ∀ b, (s.node x).store.getBlock c = some b → b.cid = c) (hl : LoadInv fetch whole bound x n s l)
    (hi : LoadKept fetch p x s l) : LoadKept fetch p x (l.go x s).1 (l.go x s).2 := by
  unfold Loader.go
  cases hp : l.prog with
  | ret a => exact hi
  | load c k e =>
    obtain ⟨m, h1, -⟩ := hl.left
    rw [hp] at h1
    obtain ⟨d, -, hd, -⟩ := needs_load h1
    dsimp only
    cases hw : l.wait with
    | some i =>
      obtain ⟨c', k', e', hc, hh⟩ := hl.held i hw
      rw [hp] at hc; cases hc
      dsimp only
      unfold Loader.poll
      obtain ⟨g1, sub, g2, g3⟩ := hh
      cases sub with
      | ready r =>
        obtain ⟨reg', hq⟩ : ∃ reg', (s.node x).reg.poll i = some (reg', .done r) := by
          unfold Reg.poll
          rw [g1]; dsimp only; rw [g2]
          exact ⟨_, rfl⟩
        rw [hq]
        dsimp only
        obtain ⟨t1, t2⟩ := hn.ready _ _ _ g2
        rw [t1] at t2
        refine loadKept_take hone hp hd t1 t2 (hi.ready i c k e hw hp r g2) ?_ hi
        rw [upd_self, (drop_shape _ i).1]
      | pending w m =>
        have hq : (s.node x).reg.poll i = some ({ (s.node x).reg with subs := AMap.set (s.node x).reg.subs (c, i) (.pending true m) }, .pending) := by
          unfold Reg.poll
          rw [g1]; dsimp only; rw [g2]
        rw [hq]
        dsimp only
        refine ⟨?_, ?_⟩
        · rw [upd_self]; exact hi.came
        · intro j c' k' e' hj hc'
          rw [hw] at hj; cases hj
          rw [hp] at hc'; cases hc'
          intro b hb
          rw [upd_self] at hb
          dsimp only at hb
          rw [AMap.get_set, if_pos rfl] at hb
          cases hb
      | cancelled => exact absurd rfl g3
    | none =>
      dsimp only
      unfold Loader.ask
      have hs : ((s.node x).get c).2.store = (s.node x).store := by
        unfold Peer.get; split <;> rfl
      rcases hg : (s.node x).get c with ⟨_ | b, n'⟩
      · rw [hg] at hs
        dsimp only
        refine ⟨?_, ?_⟩
        · rw [upd_self, hs]; exact hi.came
        · intro j c' k' e' hj hc'
          cases hj
          rw [hp] at hc'; cases hc'
          intro b hb
          rw [upd_self] at hb
          have hg2 : n' = ((s.node x).get c).2 := by rw [hg]
          rw [hg2] at hb
          unfold Peer.get at hg hb
          split at hg
          · cases hg
          · rename_i hnone
            rw [hnone] at hb
            obtain ⟨reg', t1, t2, t3, t4, t5⟩ := insert_true hn.owner hn.shut c
            dsimp only at hb
            rw [t1, t4, AMap.get_set, if_pos rfl] at hb
            cases hb
      · obtain ⟨g0, g1, g2⟩ := get_answer hn (by rw [hg] : ((s.node x).get c).1 = some b)
        rw [hg] at hs
        exact loadKept_take hone hp hd (hown c d hd b g0) g2 g0 (by rw [upd_self]; exact hs) hi

theorem kept_inv {H : Hashes} {debug : Bool} {ok : NetSt P → NetEv P → NetSt P → Prop} {x : P} {s0 s : NetSt P} {k : Nat} {l : Loader α}
    {fetch : Cid → Option Bytes} {p : Prog α} {n : Nat} (hone : OneData H fetch)
    (hpre : NetRun H debug (fun s e _ => PutsTrue H e ∧ ∀ c d, fetch c = some d → NoAlias x c s e) NetSt.init s0)
    (hok : ∀ s e s', ok s e s' → PutsTrue H e ∧ ∀ c d, fetch c = some d → NoAlias x c s e ∧ NotTakenOut x c e)
    (hneeds : needs fetch p = some n) (hrun : LoadRun H debug ok x s0 p k s l) : LoadKept fetch p x s l := by
  have hok' : ∀ s e s', ok s e s' → PutsTrue H e ∧ ∀ c d, fetch c = some d → NoAlias x c s e :=
    fun s e s' h => ⟨(hok s e s' h).1, fun c d hd => ((hok s e s' h).2 c d hd).1⟩
  have hgo : ∀ {k : Nat} {s : NetSt P} {l : Loader α}, LoadRun H debug ok x s0 p k s l → LoadKept fetch p x s l →
      LoadKept fetch p x (l.go x s).1 (l.go x s).2 := by
    intro k s l hr hi
    obtain ⟨h1, h2⟩ := load_inv hone hpre hok' hneeds hr
    exact hi.go hone (true_net (h1.mono fun _ _ _ h => h.1) x)
      (fun c d hd b hb => own_cid (h1.mono fun _ _ _ h => ⟨h.1, h.2 c d hd⟩) b hb) h2
  induction hrun with
  | refl => exact ⟨⟨[], .here _, fun c hc => by cases hc⟩, fun i c k e h => by cases h⟩
  | @other k s s' l e hr hoth ho hst ih =>
    obtain ⟨h1, h2⟩ := load_inv hone hpre hok' hneeds hr
    obtain ⟨cs, g1, g2⟩ := ih.came
    refine ⟨⟨cs, g1, ?_⟩, ?_⟩
    · intro c hc
      obtain ⟨d, hd, hb⟩ := g2 c hc
      exact ⟨d, hd, getBlock_stays hb ((hok _ _ _ ho).2 c d hd).2 hst⟩
    · intro i c k' e' hw hp
      obtain ⟨c', k'', e'', hc, hh⟩ := h2.held i hw
      rw [hp] at hc; cases hc
      obtain ⟨m, hm, -⟩ := h2.left
      rw [hp] at hm
      obtain ⟨d, -, hd, -⟩ := needs_load hm
      exact readyStored_net (true_net (h1.mono fun _ _ _ h => h.1) x) hh (ih.ready i c k' e' hw hp) (hoth i hw)
        ((hok _ _ _ ho).2 c d hd).2 hst
  | further hr _ ih => exact hgo hr ih
  | again hr he ih =>
    have := hgo hr ih
    rw [he] at this
    exact this

/-- What a program does is what can happen between nodes. -/
theorem load_net {H : Hashes} {fetch : Cid → Option Bytes} (hone : OneData H fetch) (hvalid : ∀ c d, fetch c = some d → c.Valid)
    {p : Prog α} (hall : BlocksThere fetch p) {debug : Bool} {x z : P} {s0 s : NetSt P} {k : Nat} {l : Loader α}
    (hpre : NetRun H debug (fun s e _ => PutsTrue H e ∧ ∀ c d, fetch c = some d → NoAlias x c s e) NetSt.init s0) (hs0 : Short64 s0)
    (hrun : LoadRun H debug (fun s e s' => InOrder H e ∧ Short64 s' ∧ ∀ c d, fetch c = some d → NoAlias x c s e ∧ NoAlias z c s e) x s0 p k s l) :
    NetRun H debug (fun s e s' => InOrder H e ∧ Short64 s' ∧ ∀ c d, fetch c = some d → NoAlias z c s e) s0 s := by
  obtain ⟨n, hneeds⟩ := hall
  have hput : ∀ e : NetEv P, InOrder H e → PutsTrue H e := by
    intro e he; cases e <;> first | trivial | exact he.2
  have hgo : ∀ {k : Nat} {s : NetSt P} {l : Loader α},
      LoadRun H debug (fun s e s' => InOrder H e ∧ Short64 s' ∧ ∀ c d, fetch c = some d → NoAlias x c s e ∧ NoAlias z c s e) x s0 p k s l →
      NetRun H debug (fun s e s' => InOrder H e ∧ Short64 s' ∧ ∀ c d, fetch c = some d → NoAlias z c s e) s0 s →
      NetRun H debug (fun s e s' => InOrder H e ∧ Short64 s' ∧ ∀ c d, fetch c = some d → NoAlias z c s e) s0 (l.go x s).1 := by
    intro k s l hr hnet
    obtain ⟨-, hi⟩ := load_inv hone hpre (fun _ _ _ h => ⟨hput _ h.1, fun c d hd => (h.2.2 c d hd).1⟩) hneeds hr
    have h1 : Short64 s := by
      cases hnet with
      | refl => exact hs0
      | step e _ ho _ => exact ho.2.1
    refine NetRun.trans hnet (load_events x s l _ ?_ ?_)
    · intro c k e hp
      obtain ⟨m, h1', -⟩ := hi.left
      rw [hp] at h1'
      obtain ⟨d, -, hd, -⟩ := needs_load h1'
      exact ⟨hvalid c d hd, h1, fun _ _ _ => trivial⟩
    · intro c k e hp i s1 n e' _ hf he
      have h1' : Short64 (s1.upd x n) := by
        intro f hm; exact h1 f (by rw [← hf]; exact hm)
      rcases he with rfl | rfl <;> exact ⟨trivial, h1', fun _ _ _ => trivial⟩
  induction hrun with
  | refl => exact .refl s0
  | other e _ _ ho hst ih => exact .step e ih ⟨ho.1, ho.2.1, fun c d hd => (ho.2.2 c d hd).2⟩ hst
  | further hr _ ih => exact hgo hr ih
  | again hr _ ih => exact hgo hr ih

/-! ### The theorems -/

/-- **C90**: when a program has loaded its blocks over the network, all of them are in the store of the node, as long as nobody removes them there.
So the node can run the program again with what it has itself, and the result is the same. -/
theorem C90_kept {H : Hashes} {fetch : Cid → Option Bytes} (hone : OneData H fetch) {p : Prog α} (hall : BlocksThere fetch p)
    {debug : Bool} {x : P} {s0 s : NetSt P} {k : Nat} {l : Loader α} {a : α}
    (hpre : NetRun H debug (fun s e _ => PutsTrue H e ∧ ∀ c d, fetch c = some d → NoAlias x c s e) NetSt.init s0)
    (hrun : LoadRun H debug (fun s e _ => PutsTrue H e ∧ ∀ c d, fetch c = some d → NoAlias x c s e ∧ NotTakenOut x c e) x s0 p k s l)
    (hend : l.prog = .ret a) :
    (∀ c ∈ loads fetch p, ∃ d, fetch c = some d ∧ (s.node x).store.getBlock c = some ⟨c, d⟩) ∧
      p.eval (localBlocks (s.node x)) = a ∧ BlocksThere (localBlocks (s.node x)) p := by
  obtain ⟨n, hn⟩ := hall
  have hk := kept_inv hone hpre (fun _ _ _ h => h) hn hrun
  obtain ⟨cs, h1, h2⟩ := hk.came
  have h3 : loads fetch p = cs := by rw [h1.loads, hend]; simp [loads]
  have h4 := h1.same (f := localBlocks (s.node x)) (by
    intro c hc
    obtain ⟨d, hd, hb⟩ := h2 c hc
    simp [localBlocks, hb, hd])
  rw [hend] at h4
  exact ⟨by rw [h3]; exact h2, h4.1, h4.2 (blocksThere_ret a)⟩

/-- **C90**: so what one node has loaded, a third node can load from it: `z`, connected to `x` alone, ends with the same result. -/
theorem C90_passed_on {H : Hashes} {fetch : Cid → Option Bytes} (hone : OneData H fetch) (hvalid : ∀ c d, fetch c = some d → c.Valid)
    {p : Prog α} (hall : BlocksThere fetch p) {debug : Bool} {x z : P} (hzx : z ≠ x) {s0 s1 s2 : NetSt P} {k k' : Nat} {l l' : Loader α} {a : α}
    (hpre : NetRun H debug (fun s e s' => InOrder H e ∧ Short64 s' ∧ ∀ c d, fetch c = some d → NoAlias x c s e ∧ NoAlias z c s e) NetSt.init s0)
    (hrun : LoadRun H debug (fun s e s' => InOrder H e ∧ Short64 s' ∧
      ∀ c d, fetch c = some d → NoAlias x c s e ∧ NoAlias z c s e ∧ NotTakenOut x c e) x s0 p k s1 l)
    (hend : l.prog = .ret a)
    (hnot : ∀ c d, fetch c = some d → (s1.node x).bits.bs.wanted.get c = none ∧ RepoEv.want c ∉ (s1.node x).chan)
    (hstart : ∀ c d, fetch c = some d → (s1.node z).bits.bs.wanted.get c = none ∨ (s1.node z).bits.bs.peers.get x = none)
    (hshort : ∀ f ∈ s1.flight, Between z x f → f.bytes.length ≤ maxBufSize)
    (hrun' : LoadRun H debug (fun s e s' => InOrder H e ∧ Short64 s' ∧ ∀ c d, fetch c = some d → NoAlias z c s e ∧ Undisturbed z x c s e s')
      z s1 p k' s2 l')
    (hidle : Idle (s2.node z) ∧ Idle (s2.node x) ∧ ∀ f ∈ s2.flight, ¬ Between z x f)
    (hlink : ∃ lg, (s2.node z).bits.bs.peers.get x = some lg)
    (hstuck : (l'.go z s2).2 = l') : l'.prog = .ret a := by
  have hput : ∀ e : NetEv P, InOrder H e → PutsTrue H e := by
    intro e he; cases e <;> first | trivial | exact he.2
  obtain ⟨h1, -, -⟩ := C90_kept hone hall (hpre.mono fun _ _ _ h => ⟨hput _ h.1, fun c d hd => (h.2.2 c d hd).1⟩)
    (hrun.mono fun _ _ _ h => ⟨hput _ h.1, fun c d hd => ⟨(h.2.2 c d hd).1, (h.2.2 c d hd).2.2⟩⟩) hend
  have ha : a = p.eval fetch := by
    obtain ⟨b, hb⟩ := C89_same (P := P) hone hall
    exact (hb debug x s0 s1 k l (hpre.mono fun _ _ _ h => ⟨hput _ h.1, fun c d hd => (h.2.2 c d hd).1⟩)
      (hrun.mono fun _ _ _ h => ⟨hput _ h.1, fun c d hd => (h.2.2 c d hd).1⟩)).2 a hend
  have honly : ∀ {c d}, onlyThese (loads fetch p) fetch c = some d → c ∈ loads fetch p ∧ fetch c = some d := by
    intro c d h
    unfold onlyThese at h
    split at h
    · rename_i hc; exact ⟨hc, h⟩
    · cases h
  obtain ⟨h2, h3⟩ := loads_enough (f := onlyThese (loads fetch p) fetch) hall (fun c hc => by rw [onlyThese, if_pos hc])
  have hnet : NetRun H debug (fun s e s' => InOrder H e ∧ Short64 s' ∧ ∀ c d, fetch c = some d → NoAlias z c s e) NetSt.init s1 := by
    refine NetRun.trans (hpre.mono fun _ _ _ h => ⟨h.1, h.2.1, fun c d hd => (h.2.2 c d hd).2⟩) ?_
    refine load_net hone hvalid hall (hpre.mono fun _ _ _ h => ⟨hput _ h.1, fun c d hd => (h.2.2 c d hd).1⟩) ?_
      (hrun.mono fun _ _ _ h => ⟨h.1, h.2.1, fun c d hd => ⟨(h.2.2 c d hd).1, (h.2.2 c d hd).2.1⟩⟩)
    cases hpre with
    | refl => intro f hf; cases hf
    | step e _ ho _ => exact ho.2.1
  rw [ha, ← h2]
  refine C89_ends (fetch := onlyThese (loads fetch p) fetch) (fun c d d' h => hone c d d' (honly h).2) (fun c d h => hvalid c d (honly h).2) h3 hzx
    (hnet.mono fun _ _ _ h => ⟨h.1, h.2.1, fun c d hd => h.2.2 c d (honly hd).2⟩) ?_ (fun c d h => hnot c d (honly h).2) (fun c d h => hstart c d (honly h).2)
    hshort (hrun'.mono fun _ _ _ h => ⟨h.1, h.2.1, fun c d hd => h.2.2 c d (honly hd).2⟩) hidle hlink hstuck
  intro c d hd
  obtain ⟨d', h4, h5⟩ := h1 c (honly hd).1
  rw [(honly hd).2] at h4; cases h4
  exact h5

/-- **C90**: a file that was added over HTTP at some node and asked for at `x`: when the request has been answered, `x` answers it from its own
store, whoever is connected, until somebody removes blocks. -/
theorem C90_cat {sha : Bytes → Bytes} (hsha : Digest32 sha) {H : Hashes} (hH : H mhSha256 = some sha) {put : Unixfs.Block → Bool} {args : AddArgs}
    (hw : args.wrap = true) {parts : List FormPart} {broken : Bool} {ev : List AddEvent}
    (hfit : ∀ p ∈ parts, Fits args.chunk args.bf p.chunks.flatten)
    (hs : ∀ p ∈ parts, ∀ raw, p.filename = some raw → raw.length < 2 ^ 30)
    (htot : FormTotals sha args parts) (h : addStream sha put args parts broken = (ev, .ok ())) (hno : NoOther sha (putsOf ev))
    (q : QueryEnv) (hl : ∀ s, utf8Ok s = true → q.lossy s = s) (sv : Served)
    (esc : UInt8 → Bool) (h37 : esc 37 = true) (h38 : esc 38 = true) (h43 : esc 43 = true) :
    ∃ top total, (linesOf ev).getLast? = some (.added [] top total) ∧
      ∀ p ∈ parts, p.contentType = some octetStream → ∀ raw path, p.filename = some raw → addPath raw = .ok path →
        path ≠ [] → ∀ range : Option (Nat × Nat), (∀ r, range = some r → r.1 + r.2 < 2 ^ 64) →
        ∃ fuel0 chunks, chunks.flatten = asked range p.chunks.flatten ∧ ∀ fuel, fuel0 ≤ fuel →
          ∀ (debug : Bool) (x : P) (s0 s : NetSt P) (k : Nat) (l : Loader (Reply CatEnd)) (a : Reply CatEnd),
            NetRun H debug (fun s e _ => PutsTrue H e ∧ ∀ b ∈ putsOf ev, NoAlias x b.1 s e) NetSt.init s0 →
            LoadRun H debug (fun s e _ => PutsTrue H e ∧ ∀ b ∈ putsOf ev, NoAlias x b.1 s e ∧ NotTakenOut x b.1 e) x s0
              (catRequestProg q { sv with fuel := fuel } (catUrl esc (ipfsText top path) range)) k s l →
            l.prog = .ret a →
            a = .stream chunks .done ∧
              catRequest q { sv with fuel := fuel, fetch := localBlocks (s.node x) } (catUrl esc (ipfsText top path) range) = .stream chunks .done := by
  have hv0 := added_v0 hsha hfit hs htot h
  obtain ⟨h1, h2, -⟩ := storeOf_v0 hsha hH hv0 hno
  obtain ⟨top, total, h3, h4⟩ := C66_added hsha hw hfit hs htot h q hl { sv with fetch := storeOf (putsOf ev) } h2 esc h37 h38 h43
  refine ⟨top, total, h3, ?_⟩
  intro p hp hct raw path hraw hpath hne range hrange
  obtain ⟨fuel0, chunks, h5, h6⟩ := h4 p hp hct raw path hraw hpath hne range hrange
  refine ⟨fuel0, chunks, h5, ?_⟩
  intro fuel hfuel debug x s0 s k l a hpre hrun hend
  have he := h6 fuel hfuel
  have hall := (C89_needed _ fuel).2.2.1 q { sv with fuel := fuel } _ _ he
  have hpre' := hpre.mono (ok' := fun s e _ => PutsTrue H e ∧ ∀ c d, storeOf (putsOf ev) c = some d → NoAlias x c s e)
    fun _ _ _ h => ⟨h.1, fun c d hd => h.2 _ (storeOf_some hd)⟩
  have hk := C90_kept h1 hall hpre' (hrun.mono fun _ _ _ h => ⟨h.1, fun c d hd => h.2 _ (storeOf_some hd)⟩) hend
  obtain ⟨b, hb⟩ := C89_same (P := P) h1 hall
  have ha := (hb debug x s0 s k l hpre' (hrun.mono fun _ _ _ h => ⟨h.1, fun c d hd => (h.2 _ (storeOf_some hd)).1⟩)).2 a hend
  rw [(C89_programs _ fuel).2.2.2.2.1 q { sv with fuel := fuel }, he] at ha
  refine ⟨ha, ?_⟩
  rw [← ha, ← hk.2.1]
  exact ((C89_programs _ fuel).2.2.2.2.1 q { sv with fuel := fuel } _).symm

/-! ### Examples -/

def notTakenOutB (x : Fin 3) (c : Cid) : NetEv (Fin 3) → Bool
  | .remove y d => decide (y = x → d.mh ≠ c.mh)
  | _ => true

theorem notTakenOutB_sound {x : Fin 3} {c : Cid} {e : NetEv (Fin 3)} (h : notTakenOutB x c e = true) : NotTakenOut x c e := by
  cases e with
  | remove y d =>
    simp only [notTakenOutB, decide_eq_true_eq] at h
    exact h
  | _ => trivial

def handPreB (s : NetSt (Fin 3)) (e : NetEv (Fin 3)) (s' : NetSt (Fin 3)) : Bool :=
  inOrderB formHashes e && fitsB s' && formBlocks.all (fun b => noAliasB 0 b.1 s e && noAliasB 2 b.1 s e)

def handFirstB (s : NetSt (Fin 3)) (e : NetEv (Fin 3)) (s' : NetSt (Fin 3)) : Bool :=
  inOrderB formHashes e && fitsB s' && formBlocks.all (fun b => noAliasB 0 b.1 s e && noAliasB 2 b.1 s e && notTakenOutB 0 b.1 e)

def handThenB (s : NetSt (Fin 3)) (e : NetEv (Fin 3)) (s' : NetSt (Fin 3)) : Bool :=
  inOrderB formHashes e && fitsB s' && formBlocks.all (fun b => noAliasB 2 b.1 s e && calmB 2 0 b.1 s e s')

/-- The first node gets the blocks from the second, which removes them and goes away; then the third comes. -/
def handFirst : List (Option (NetEv (Fin 3))) :=
  formRun ++ formBlocks.map (fun b => some (.remove 1 b.1)) ++
    [some (.event 1), some (.event 1), some (.event 1), some (.event 1), some (.closed 0 1), some (.closed 1 0), some (.established 2 0), some (.established 0 2),
      some (.swarm 0 [2]), some (.swarm 2 [0]), some (.deliver 0), some (.deliver 0)]

/-- One block goes from the first node to the third. -/
def handRound : List (Option (NetEv (Fin 3))) :=
  [none, some (.event 2), none, some (.swarm 2 [0]), some (.deliver 0), some (.swarm 0 [2]), some (.look 0 0), some (.swarm 0 [2]), some (.deliver 0),
    some (.swarm 2 [0]), some (.save 2 0), some (.event 2), some (.swarm 2 [0]), some (.deliver 0), some (.swarm 0 [2]), some (.swarm 0 [2]), none]

def handProg : Prog (Reply CatEnd) := catRequestProg exQueryEnv netServed (catUrl exEsc (ipfsText netTop "a b".toUTF8.toList) (some (1, 2)))

theorem handPreB_sound (s : NetSt (Fin 3)) (e : NetEv (Fin 3)) (s' : NetSt (Fin 3)) (h : handPreB s e s' = true) :
    InOrder formHashes e ∧ Short64 s' ∧ ∀ c d, storeOf formBlocks c = some d → NoAlias 0 c s e ∧ NoAlias 2 c s e := by
  simp only [handPreB, Bool.and_eq_true, List.all_eq_true] at h
  exact ⟨inOrderB_sound h.1.1, fitsB_sound h.1.2,
    fun c d hd => ⟨noAliasB_sound (h.2 _ (storeOf_some hd)).1, noAliasB_sound (h.2 _ (storeOf_some hd)).2⟩⟩

theorem handFirstB_sound (s : NetSt (Fin 3)) (e : NetEv (Fin 3)) (s' : NetSt (Fin 3)) (h : handFirstB s e s' = true) :
    InOrder formHashes e ∧ Short64 s' ∧ ∀ c d, storeOf formBlocks c = some d → NoAlias 0 c s e ∧ NoAlias 2 c s e ∧ NotTakenOut 0 c e := by
  simp only [handFirstB, Bool.and_eq_true, List.all_eq_true] at h
  exact ⟨inOrderB_sound h.1.1, fitsB_sound h.1.2, fun c d hd =>
    ⟨noAliasB_sound (h.2 _ (storeOf_some hd)).1.1, noAliasB_sound (h.2 _ (storeOf_some hd)).1.2, notTakenOutB_sound (h.2 _ (storeOf_some hd)).2⟩⟩

theorem handThenB_sound (s : NetSt (Fin 3)) (e : NetEv (Fin 3)) (s' : NetSt (Fin 3)) (h : handThenB s e s' = true) :
    InOrder formHashes e ∧ Short64 s' ∧ ∀ c d, storeOf formBlocks c = some d → NoAlias 2 c s e ∧ Undisturbed 2 0 c s e s' := by
  simp only [handThenB, Bool.and_eq_true, List.all_eq_true] at h
  exact ⟨inOrderB_sound h.1.1, fitsB_sound h.1.2,
    fun c d hd => ⟨noAliasB_sound (h.2 _ (storeOf_some hd)).1, calmB_sound (h.2 _ (storeOf_some hd)).2⟩⟩

def handMidB (q : NetSt (Fin 3) × Loader (Reply CatEnd)) : Bool :=
  retB q.2 && formBlocks.all (fun b => decide ((q.1.node 0).bits.bs.wanted.get b.1 = none) && decide (RepoEv.want b.1 ∉ (q.1.node 0).chan) &&
    decide ((q.1.node 2).bits.bs.wanted.get b.1 = none) && ((q.1.node 1).store.getBlock b.1).isNone) && q.1.flight.isEmpty

def handEndB (q : NetSt (Fin 3) × Loader (Reply CatEnd)) : Bool :=
  idleB (q.1.node 2) && idleB (q.1.node 0) && q.1.flight.isEmpty && ((q.1.node 2).bits.bs.peers.get 0).isSome && retB q.2

theorem loadRun_end {H : Hashes} {debug : Bool} {ok : NetSt (Fin 3) → NetEv (Fin 3) → NetSt (Fin 3) → Bool}
    {okP : NetSt (Fin 3) → NetEv (Fin 3) → NetSt (Fin 3) → Prop} {x : Fin 3} {s0 : NetSt (Fin 3)} {p : Prog α} {evs : List (Option (NetEv (Fin 3)))}
    (hok : ∀ s e s', ok s e s' = true → okP s e s') {φ : NetSt (Fin 3) × Loader α → Bool} (h : (loadRun H debug ok x s0 ⟨p, none⟩ evs).any φ = true) :
    ∃ s l k, LoadRun H debug okP x s0 p k s l ∧ φ (s, l) = true := by
  cases hr : loadRun H debug ok x s0 ⟨p, none⟩ evs with
  | none => rw [hr] at h; cases h
  | some q =>
    rw [hr] at h
    obtain ⟨k, hk⟩ := loadRun_sound hok evs 0 s0 q.1 ⟨p, none⟩ q.2 .refl hr
    exact ⟨q.1, q.2, k, hk, h⟩

theorem ret_of {l : Loader α} (h : retB l = true) : ∃ a, l.prog = .ret a := by
  unfold retB at h
  split at h
  · rename_i a ha; exact ⟨a, ha⟩
  · cases h

/-- Runs that meet the hypotheses of `C90_kept` and `C90_passed_on`: the first node gets a range of the file from the second, which then removes its
blocks and goes away, and the third gets it from the first. -/
theorem C90_met : ∃ (s0 s1 s2 : NetSt (Fin 3)) (k k' : Nat) (l l' : Loader (Reply CatEnd)) (a : Reply CatEnd),
    NetRun formHashes false (fun s e s' => InOrder formHashes e ∧ Short64 s' ∧
      ∀ c d, storeOf formBlocks c = some d → NoAlias 0 c s e ∧ NoAlias 2 c s e) NetSt.init s0 ∧
    LoadRun formHashes false (fun s e s' => InOrder formHashes e ∧ Short64 s' ∧
      ∀ c d, storeOf formBlocks c = some d → NoAlias 0 c s e ∧ NoAlias 2 c s e ∧ NotTakenOut 0 c e) 0 s0 handProg k s1 l ∧
    l.prog = .ret a ∧
    (∀ b ∈ formBlocks, (s1.node 1).store.getBlock b.1 = none) ∧
    (∀ c d, storeOf formBlocks c = some d → (s1.node 0).bits.bs.wanted.get c = none ∧ RepoEv.want c ∉ (s1.node 0).chan) ∧
    (∀ c d, storeOf formBlocks c = some d → (s1.node 2).bits.bs.wanted.get c = none ∨ (s1.node 2).bits.bs.peers.get 0 = none) ∧
    (∀ f ∈ s1.flight, Between 2 0 f → f.bytes.length ≤ maxBufSize) ∧
    LoadRun formHashes false (fun s e s' => InOrder formHashes e ∧ Short64 s' ∧
      ∀ c d, storeOf formBlocks c = some d → NoAlias 2 c s e ∧ Undisturbed 2 0 c s e s') 2 s1 handProg k' s2 l' ∧
    (Idle (s2.node 2) ∧ Idle (s2.node 0) ∧ ∀ f ∈ s2.flight, ¬ Between 2 0 f) ∧
    (∃ lg, (s2.node 2).bits.bs.peers.get 0 = some lg) ∧ (l'.go 2 s2).2 = l' := by
  have h : ((netRun formHashes false handPreB NetSt.init formPre).any (fun s0 => (loadRun formHashes false handFirstB 0 s0 ⟨handProg, none⟩ handFirst).any
      (fun q => handMidB q && (loadRun formHashes false handThenB 2 q.1 ⟨handProg, none⟩ (handRound ++ handRound ++ handRound ++ handRound)).any handEndB))) =
      true := by decide +kernel
  obtain ⟨s0, -, h1, h2⟩ := netRun_end (H := formHashes) (debug := false) (ok := handPreB) (s := NetSt.init) (evs := formPre) handPreB_sound h
  obtain ⟨s1, l, k, h3, h4⟩ := loadRun_end handFirstB_sound h2
  simp only [Bool.and_eq_true] at h4
  obtain ⟨s2, l', k', h5, h6⟩ := loadRun_end handThenB_sound h4.2
  have h7 := h4.1
  simp only [handMidB, Bool.and_eq_true, List.all_eq_true, decide_eq_true_eq, List.isEmpty_iff, Option.isNone_iff_eq_none] at h7
  obtain ⟨a, ha⟩ := ret_of h7.1.1
  simp only [handEndB, Bool.and_eq_true, List.isEmpty_iff] at h6
  obtain ⟨⟨⟨⟨g1, g2⟩, g3⟩, g4⟩, g5⟩ := h6
  exact ⟨s0, s1, s2, k, k', l, l', a, h1, h3, ha, fun b hb => (h7.1.2 b hb).2,
    fun c d hd => ⟨(h7.1.2 _ (storeOf_some hd)).1.1.1, (h7.1.2 _ (storeOf_some hd)).1.1.2⟩,
    fun c d hd => Or.inl (h7.1.2 _ (storeOf_some hd)).1.2, (by rw [h7.2]; intro f hf; cases hf), h5,
    ⟨idleB_sound g1, idleB_sound g2, (by rw [g3]; intro f hf; cases hf)⟩, Option.isSome_iff_exists.mp g4, stuck_ret g5⟩

/-- The blocks of the request. -/
example : loads (storeOf formBlocks) handProg = [3, 2, 0, 1].filterMap (fun i => (formBlocks[i]?).map Prod.fst) := by decide +kernel

/-- What `C90_cat` says about that form. -/
example := C90_cat (P := Fin 3) (tableSha_digest32 netTable) (H := formHashes) rfl (put := fun _ => true) (args := netArgs) rfl netForm_fits
  (by decide +kernel) netForm_totals netAdded_eq formBlocks_noOther exQueryEnv (fun _ _ => rfl) netServed exEsc rfl rfl rfl

end Verif.Props
