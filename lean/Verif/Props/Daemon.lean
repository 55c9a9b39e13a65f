import Verif.Http.Daemon
import Verif.Props.Lock
import Verif.Props.Cat
import Verif.Props.HttpConfigLoad

/-!
# C93: the file `api` tells where the daemon serves

Specification: a process `Serves` at an address from the moment the file was written until it ends by itself; `readApi` is how a client reads
the file. `Early` is a process that lets go of the repository before it has made the file empty, `Cut` one that is killed while the file
tells its address, or whose disk fails.
-/

namespace Verif.Props

open Verif Verif.Http Verif.Repo

/-! ### The text -/

/-- The pieces between separators. -/
def piecesOf (sep : UInt8) : Bytes → List Bytes
  | [] => [[]]
  | c :: s => if c = sep then [] :: piecesOf sep s else ((piecesOf sep s).head?.getD [] |> (c :: ·)) :: (piecesOf sep s).tail

/-- A number below a bound. -/
def readBelow (n : Nat) (s : Bytes) : Option Nat := (parseU64 s).bind (fun x => if x < n then some x else none)

/-- How a client reads the file: `/ip4/`, four numbers with points between them, `/tcp/`, and a number. -/
def readApi (t : Bytes) : Option Sock :=
  match piecesOf 47 t with
  | [[], i, ip, p, port] =>
    if i = "ip4".toUTF8.toList ∧ p = "tcp".toUTF8.toList then
      match (piecesOf 46 ip).map (readBelow 256), readBelow 65536 port with
      | [some a, some b, some c, some d], some port => some ((UInt8.ofNat a, UInt8.ofNat b, UInt8.ofNat c, UInt8.ofNat d), port)
      | _, _ => none
    else none
  | _ => none

theorem sepPieces_single {sep : UInt8} : ∀ {s : Bytes}, (∀ c ∈ s, c ≠ sep) → piecesOf sep s = [s]
  | [], _ => rfl
  | c :: s, h => by
    rw [piecesOf, if_neg (h c (by simp)), sepPieces_single (fun x hx => h x (by simp [hx]))]
    rfl

theorem sepPieces_append {sep : UInt8} : ∀ {s : Bytes} (t : Bytes), (∀ c ∈ s, c ≠ sep) → piecesOf sep (s ++ sep :: t) = s :: piecesOf sep t
  | [], t, _ => by simp [piecesOf]
  | c :: s, t, h => by
    rw [List.cons_append, piecesOf, if_neg (h c (by simp)), sepPieces_append t (fun x hx => h x (by simp [hx]))]
    rfl

theorem decimal_ne (n : Nat) (x : UInt8) (hx : x = 46 ∨ x = 47) : ∀ c ∈ decimal n, c ≠ x := by
  intro c hc e
  subst e
  have := decimal_isDigits n _ hc
  rcases hx with rfl | rfl <;> exact absurd this.1 (by decide)

theorem readBelow_decimal {n b : Nat} (h : n < b) (hb : b ≤ 2 ^ 64) : readBelow b (decimal n) = some n := by
  rw [readBelow, parseU64_decimal n (by omega)]
  simp [h]

/-- **C93**: a client that reads the text gets the address. -/
theorem C93_text (s : Sock) (h : s.2 < 65536) : readApi (apiText s) = some s := by
  obtain ⟨⟨a, b, c, d⟩, p⟩ := s
  have e : apiText ((a, b, c, d), p) = [] ++ 47 :: ("ip4".toUTF8.toList ++ 47 :: ((decimal a.toNat ++ 46 :: (decimal b.toNat ++ 46 ::
      (decimal c.toNat ++ 46 :: decimal d.toNat))) ++ 47 :: ("tcp".toUTF8.toList ++ 47 :: decimal p))) := by
    have e1 : "/ip4/".toUTF8.toList = 47 :: ("ip4".toUTF8.toList ++ [47]) := by decide +kernel
    have e2 : "/tcp/".toUTF8.toList = 47 :: ("tcp".toUTF8.toList ++ [47]) := by decide +kernel
    rw [apiText, e1, e2]
    simp only [List.append_assoc, List.cons_append, List.nil_append]
  have hip : ∀ c' ∈ decimal a.toNat ++ 46 :: (decimal b.toNat ++ 46 :: (decimal c.toNat ++ 46 :: decimal d.toNat)), c' ≠ 47 := by
    intro c' hc
    simp only [List.mem_append, List.mem_cons] at hc
    rcases hc with hc | rfl | hc | rfl | hc | rfl | hc
    · exact decimal_ne _ 47 (Or.inr rfl) _ hc
    · decide
    · exact decimal_ne _ 47 (Or.inr rfl) _ hc
    · decide
    · exact decimal_ne _ 47 (Or.inr rfl) _ hc
    · decide
    · exact decimal_ne _ 47 (Or.inr rfl) _ hc
  have h46 : ∀ n, ∀ c ∈ decimal n, c ≠ 46 := fun n => decimal_ne n 46 (Or.inl rfl)
  have hp : piecesOf 47 (apiText ((a, b, c, d), p)) = [[], "ip4".toUTF8.toList, decimal a.toNat ++ 46 :: (decimal b.toNat ++ 46 ::
      (decimal c.toNat ++ 46 :: decimal d.toNat)), "tcp".toUTF8.toList, decimal p] := by
    rw [e, sepPieces_append _ (by simp), sepPieces_append _ (by decide +kernel), sepPieces_append _ hip, sepPieces_append _ (by decide +kernel),
      sepPieces_single (decimal_ne p 47 (Or.inr rfl))]
  have h8 : ∀ x : UInt8, readBelow 256 (decimal x.toNat) = some x.toNat := fun x =>
    readBelow_decimal (by simpa using x.toNat_lt) (by decide)
  simp only [readApi, hp, and_self, if_true]
  rw [sepPieces_append _ (h46 _), sepPieces_append _ (h46 _), sepPieces_append _ (h46 _), sepPieces_single (h46 _)]
  simp only [List.map_cons, List.map_nil, h8, readBelow_decimal h (by decide : 65536 ≤ 2 ^ 64)]
  simp

example : readApi "/ip4/127.0.0.1/tcp/4004".toUTF8.toList = some ((127, 0, 0, 1), 4004) := by decide +kernel

theorem apiText_ne (s : Sock) : apiText s ≠ [] := by
  intro h
  have := congrArg List.length h
  have e1 : "/ip4/".toUTF8.toList.length = 5 := by decide +kernel
  simp only [apiText, List.length_append, e1, List.length_nil] at this
  omega

/-! ### Who serves -/

/-- From the lock to the end of the server. -/
def _root_.Verif.Http.DStage.holds : DStage → Bool
  | .loaded _ => false
  | .closed .. => false
  | _ => true

/-- The process accepts connections there. -/
def ListensAt (w : DaemonWorld) (n : Nat) (a : Sock) : Prop :=
  w.proc n = some (.bound a) ∨ w.proc n = some (.opened a) ∨ ∃ b, w.proc n = some (.serves a b)

/-- The process has written the file and has not come to its end. -/
def ToldAt (w : DaemonWorld) (n : Nat) (a : Sock) : Prop :=
  w.proc n = some (.serves a true) ∨ w.proc n = some (.asked a true) ∨ w.proc n = some (.closed a true)

/-- The last handle is gone while the process is there. -/
def Early {R : Type} (w : DaemonWorld) (e : DaemonEv R) : Prop := ∃ n, e = .drop n ∧ (w.lock.node n).handles ≤ 1

/-- A process is killed when the file tells its address or is being written, the file cannot be made empty, or be written to its end. -/
def Cut {R : Type} (w : DaemonWorld) (e : DaemonEv R) : Prop :=
  (∃ n a, e = .kill n ∧ ToldAt w n a) ∨ (∃ n, e = .finish n false) ∨ ∃ n a k, e = .write n k ∧ w.proc n = some (.opened a) ∧
    0 < k ∧ k < (apiText a).length

/-- No such step on the way. -/
def Without {R Kp : Type} (env : ConfigEnv R Kp) (bad : DaemonWorld → DaemonEv R → Prop) : DaemonWorld → List (DaemonEv R) → Prop
  | _, [] => True
  | w, e :: es => ¬ bad w e ∧ ∀ w', w.step env e = some w' → Without env bad w' es

/-! ### The invariant -/

/-- What goes together in one process. -/
def DFits (x : LockNode) (api : Option Bytes) : Option DStage → Prop
  | none => x.handles = 0 ∧ x.jobs = 0
  | some s => (s.holds = true → x.ready = true ∧ x.handles ≠ 0) ∧ (s.keeps = true → x.handles ≠ 0) ∧ (∀ a, s = .opened a → api = some []) ∧
    ∀ a, s = .serves a true ∨ s = .asked a true → api = some (apiText a) ∨ api = some []

/-- The invariant. -/
structure DInv (w : DaemonWorld) : Prop where
  lk : LockInv w.lock
  dir : w.config.isSome = true → w.lock.dir = true
  fits : ∀ n, DFits (w.lock.node n) w.api (w.proc n)

theorem DFits.empty {x : LockNode} {api : Option Bytes} {s : Option DStage} (h : DFits x api s) : DFits x (some []) s := by
  cases s with
  | none => exact h
  | some s => exact ⟨h.1, h.2.1, fun _ _ => rfl, fun _ _ => Or.inr rfl⟩

/-- The process that has the repository. -/
theorem DInv.uses {w : DaemonWorld} (h : DInv w) {n : Nat} {s : DStage} (hs : w.proc n = some s) (hh : s.holds = true) :
    LockUses w.lock n := by
  have := h.fits n
  rw [hs] at this
  exact this.1 hh

theorem LockInv.unique {w : LockWorld} (hi : LockInv w) {a b : Nat} (ha : LockUses w a) (hb : LockUses w b) : a = b := by
  have h1 := (hi.own a).2 ⟨hi.rdy a ha.1, ha.2⟩
  have h2 := (hi.own b).2 ⟨hi.rdy b hb.1, hb.2⟩
  exact Option.some.inj (h1.symm.trans h2)

theorem DInv.unique {w : DaemonWorld} (h : DInv w) {n m : Nat} {s t : DStage} (hs : w.proc n = some s) (hh : s.holds = true)
    (ht : w.proc m = some t) (hh' : t.holds = true) : n = m :=
  h.lk.unique (h.uses hs hh) (h.uses ht hh')

theorem initRepo_node (w : LockWorld) (n k : Nat) (ok : Bool) (hk : k ≠ n) : (w.initRepo n ok).2.node k = w.node k := by
  simp only [LockWorld.initRepo, LockWorld.tryExclusive]
  by_cases hd : w.dir = true
  · simp only [hd, not_true, if_false]
    cases w.owner with
    | some k => rfl
    | none => cases ok <;> simp [LockWorld.upd, hk]
  · simp [hd]

theorem initRepo_ready {w : LockWorld} {n : Nat} {ok : Bool} (h : (w.initRepo n ok).1 = .ok) : ((w.initRepo n ok).2.node n).ready = true := by
  simp only [LockWorld.initRepo, LockWorld.tryExclusive] at h ⊢
  by_cases hd : w.dir = true
  · simp only [hd, not_true, if_false] at h ⊢
    cases ho : w.owner with
    | some k => simp [ho] at h
    | none =>
      cases ok with
      | true => simp [LockWorld.upd]
      | false => simp [ho] at h
  · simp [hd] at h

theorem close_node (w : LockWorld) (n k j : Nat) : (w.close n j).node k = if k = n then ⟨0, false, false, j⟩ else w.node k := rfl

/-- A process ends, maybe after it changed the lock. -/
theorem DInv.gone' {w : DaemonWorld} (h : DInv w) {l : LockWorld} (n : Nat) (hl : LockInv l) (hd : l.dir = w.lock.dir)
    (hne : ∀ k, k ≠ n → l.node k = w.lock.node k) : DInv ({ w with lock := l }.gone n) := by
  refine ⟨lockInv_close hl n 0, fun hc => hd.trans (h.dir hc), fun k => ?_⟩
  by_cases hk : k = n
  · subst hk
    simp [DaemonWorld.gone, close_node, DFits]
  · have := h.fits k
    simpa [DaemonWorld.gone, close_node, hk, hne k hk] using this

theorem DInv.gone {w : DaemonWorld} (h : DInv w) (n : Nat) : DInv (w.gone n) :=
  h.gone' (l := w.lock) n h.lk rfl (fun _ _ => rfl)

/-- A process goes on and nothing else changes. -/
theorem DInv.goto {w : DaemonWorld} (h : DInv w) {n : Nat} {s : DStage} (hs : DFits (w.lock.node n) w.api (some s)) : DInv (w.goto n s) := by
  refine ⟨h.lk, h.dir, fun k => ?_⟩
  by_cases hk : k = n
  · subst hk; simpa [DaemonWorld.goto] using hs
  · have := h.fits k
    simpa [DaemonWorld.goto, hk] using this

/-- A process goes on with another state of the lock. -/
theorem DInv.change {w : DaemonWorld} (h : DInv w) {l : LockWorld} {n : Nat} {s : DStage} (hl : LockInv l) (hd : l.dir = w.lock.dir)
    (hne : ∀ k, k ≠ n → l.node k = w.lock.node k) (hn : DFits (l.node n) w.api (some s)) : DInv ({ w with lock := l }.goto n s) := by
  refine ⟨hl, fun hc => hd.trans (h.dir hc), fun k => ?_⟩
  by_cases hk : k = n
  · subst hk; simpa [DaemonWorld.goto] using hn
  · have := h.fits k
    simpa [DaemonWorld.goto, hk, hne k hk] using this

/-- The lock of one process changes. -/
theorem DInv.relock {w : DaemonWorld} (h : DInv w) {l : LockWorld} (n : Nat) (hl : LockInv l) (hd : l.dir = w.lock.dir)
    (hne : ∀ k, k ≠ n → l.node k = w.lock.node k) (hn : DFits (l.node n) w.api (w.proc n)) : DInv { w with lock := l } := by
  refine ⟨hl, fun hc => by rw [hd]; exact h.dir hc, fun k => ?_⟩
  by_cases hk : k = n
  · subst hk; exact hn
  · have := h.fits k
    simpa [hne k hk] using this

theorem DInv.empty {w : DaemonWorld} (h : DInv w) : DInv { w with api := some [] } :=
  ⟨h.lk, h.dir, fun k => (h.fits k).empty⟩

/-- A step of a handle or a blocking task: the handles that are left. -/
theorem lock_handles {w l : LockWorld} {n : Nat} {e : LockEv} (he : e = .share n ∨ e = .drop n ∨ e = .job n ∨ e = .jobDone n)
    (h : w.step e = some l) : (∀ k, k ≠ n → l.node k = w.node k) ∧ l.dir = w.dir ∧
      ((e = .drop n → 2 ≤ (w.node n).handles) → (l.node n).ready = (w.node n).ready ∧ ((w.node n).handles ≠ 0 → (l.node n).handles ≠ 0)) := by
  rcases he with rfl | rfl | rfl | rfl
  · simp only [LockWorld.step] at h
    split_ifs at h
    cases h
    exact ⟨fun k hk => by simp [LockWorld.upd, hk], rfl, fun _ => by simp [LockWorld.upd]⟩
  · simp only [LockWorld.step] at h
    split at h
    · cases h
    · next hh => cases h; exact ⟨fun k hk => by simp [close_node, hk], rfl, fun h2 => absurd (h2 rfl) (by omega)⟩
    · next hh => cases h; exact ⟨fun k hk => by simp [LockWorld.upd, hk], rfl, fun _ => by simp [LockWorld.upd]⟩
  · simp only [LockWorld.step] at h
    split_ifs at h
    cases h
    exact ⟨fun k hk => by simp [LockWorld.upd, hk], rfl, fun _ => by simp [LockWorld.upd]⟩
  · simp only [LockWorld.step] at h
    split at h
    · cases h
    · cases h
      exact ⟨fun k hk => by simp [LockWorld.upd, hk], rfl, fun _ => by simp [LockWorld.upd]⟩

theorem DInv.onLock {w w' : DaemonWorld} (h : DInv w) (n : Nat) {e : LockEv} (he : e = .share n ∨ e = .drop n ∨ e = .job n ∨ e = .jobDone n)
    (hd : e = .drop n → ∀ s, w.proc n = some s → s.keeps = true → 2 ≤ (w.lock.node n).handles) (hp : (w.proc n).isSome = true)
    (hs : w.onLock e = some w') : DInv w' := by
  obtain ⟨l, hl, rfl⟩ := Option.map_eq_some_iff.mp hs
  obtain ⟨h1, h2, h3⟩ := lock_handles he hl
  refine h.relock n (lockInv_step _ _ _ h.lk hl) h2 h1 ?_
  obtain ⟨s, hps⟩ := Option.isSome_iff_exists.mp hp
  have hf := h.fits n
  rw [hps] at hf ⊢
  by_cases hk : s.keeps = true
  · obtain ⟨h4, h5⟩ := h3 (fun hh => hd hh s hps hk)
    exact ⟨fun hh => ⟨h4.trans (hf.1 hh).1, h5 (hf.1 hh).2⟩, fun hh => h5 (hf.2.1 hh), hf.2.2⟩
  · cases s <;> simp [DStage.keeps] at hk
    exact ⟨by simp [DStage.holds], by simp [DStage.keeps], by simp, by simp⟩

theorem DInv.step {R Kp : Type} {env : ConfigEnv R Kp} {w w' : DaemonWorld} {e : DaemonEv R} (h : DInv w) (hs : w.step env e = some w') :
    DInv w' := by
  cases e with
  | init gen disk bits profiles =>
    simp only [DaemonWorld.step, Option.some.injEq] at hs
    subst hs
    generalize (mainInit env gen disk w.config bits profiles).1 = f
    refine ⟨?_, ?_, fun k => ?_⟩
    · dsimp only
      split
      · exact ⟨h.lk.own, h.lk.rdy⟩
      · exact h.lk
    · intro hc
      dsimp only at hc ⊢
      rw [if_pos hc]
    · have := h.fits k
      dsimp only
      split <;> exact this
  | run n =>
    simp only [DaemonWorld.step] at hs
    split at hs
    · next hp =>
      obtain ⟨l, hl, rfl⟩ := Option.map_eq_some_iff.mp hs
      have hli := lockInv_step _ _ _ h.lk hl
      simp only [LockWorld.step] at hl
      split_ifs at hl with hh
      cases hl
      exact h.change hli rfl (fun k hk => by simp [LockWorld.upd, hk]) (by simp [DFits, LockWorld.upd, DStage.holds])
    · cases hs; exact h
    · cases hs
  | start n ok =>
    simp only [DaemonWorld.step] at hs
    split at hs
    · next s hp =>
      have hf := h.fits n
      rw [hp] at hf
      have hh := hf.2.1 rfl
      have hli := lockInv_initRepo h.lk n ok hh
      have h1 := handles_initRepo w.lock n n ok
      split at hs
      · next l hl =>
        cases hs
        have hr := initRepo_ready (w := w.lock) (n := n) (ok := ok) (by rw [hl])
        rw [hl] at hli h1 hr
        refine h.change hli h1.2 (fun k hk => ?_) ⟨fun _ => ⟨hr, by rw [h1.1]; exact hh⟩, fun _ => by rw [h1.1]; exact hh, by simp, by simp⟩
        have := initRepo_node w.lock n k ok hk
        rwa [hl] at this
      · next l _ hl =>
        cases hs
        rw [hl] at hli h1
        refine h.gone' n hli h1.2 (fun k hk => ?_)
        have := initRepo_node w.lock n k ok hk
        rwa [hl] at this
    · cases hs
  | bind n port =>
    simp only [DaemonWorld.step] at hs
    split at hs
    · next s hp =>
      split_ifs at hs with hc
      cases hs
      have := h.fits n
      rw [hp] at this
      exact h.goto ⟨fun _ => this.1 rfl, fun _ => (this.1 rfl).2, by simp, by simp⟩
    · cases hs
  | create n ok =>
    simp only [DaemonWorld.step] at hs
    split at hs
    · next a hp =>
      have := h.fits n
      rw [hp] at this
      split_ifs at hs with hc
      · cases hs
        exact h.empty.goto ⟨fun _ => this.1 rfl, fun _ => (this.1 rfl).2, fun _ _ => rfl, by simp⟩
      · cases hs
        exact h.goto ⟨fun _ => this.1 rfl, fun _ => (this.1 rfl).2, by simp, by simp⟩
    · cases hs
  | write n k =>
    simp only [DaemonWorld.step] at hs
    split at hs
    · next a hp =>
      cases hs
      have hf := h.fits n
      rw [hp] at hf
      refine ⟨h.lk, h.dir, fun m => ?_⟩
      by_cases hm : m = n
      · subst hm
        simp only [DaemonWorld.goto, if_true]
        refine ⟨fun _ => hf.1 rfl, fun _ => (hf.1 rfl).2, by simp, fun a' ha => ?_⟩
        simp only [DStage.serves.injEq, reduceCtorEq, or_false, decide_eq_true_eq] at ha
        obtain ⟨rfl, hk⟩ := ha
        left
        rw [hf.2.2.1 a rfl]
        simp [List.take_of_length_le hk]
      · have hfm := h.fits m
        simp only [DaemonWorld.goto, if_neg hm]
        cases hpm : w.proc m with
        | none => rw [hpm] at hfm; exact hfm
        | some t =>
          rw [hpm] at hfm
          refine ⟨hfm.1, hfm.2.1, ?_, ?_⟩
          · rintro a' rfl
            exact absurd (h.unique hpm rfl hp rfl) hm
          · rintro a' (rfl | rfl)
            · exact absurd (h.unique hpm rfl hp rfl) hm
            · exact absurd (h.unique hpm rfl hp rfl) hm
    · cases hs
  | shutdown n =>
    simp only [DaemonWorld.step] at hs
    split at hs
    · next a b hp =>
      cases hs
      have := h.fits n
      rw [hp] at this
      exact h.goto ⟨fun _ => this.1 rfl, fun _ => (this.1 rfl).2, by simp, fun a' ha => this.2.2.2 a' (by simpa using ha)⟩
    · cases hs
  | close n =>
    simp only [DaemonWorld.step] at hs
    split at hs
    · next a b hp =>
      cases hs
      exact h.goto ⟨by simp [DStage.holds], by simp [DStage.keeps], by simp, by simp⟩
    · cases hs
  | finish n ok =>
    simp only [DaemonWorld.step] at hs
    split at hs
    · next a b hp =>
      cases hs
      split
      · exact h.empty.gone n
      · exact h.gone n
    · cases hs
  | kill n =>
    simp only [DaemonWorld.step] at hs
    split_ifs at hs
    cases hs
    exact h.gone n
  | share n =>
    simp only [DaemonWorld.step] at hs
    split_ifs at hs with hp
    exact h.onLock n (Or.inl rfl) (fun hh => absurd hh (by simp)) hp hs
  | drop n =>
    simp only [DaemonWorld.step] at hs
    split at hs
    · next s hp =>
      split_ifs at hs with hk
      exact h.onLock n (Or.inr (Or.inl rfl)) (fun _ s' hs' hk' => by
        rw [hp] at hs'; cases hs'
        exact Decidable.byContradiction fun hn => hk ⟨hk', by omega⟩) (by simp [hp]) hs
    · cases hs
  | job n =>
    simp only [DaemonWorld.step] at hs
    split_ifs at hs with hp
    exact h.onLock n (Or.inr (Or.inr (Or.inl rfl))) (fun hh => absurd hh (by simp)) hp hs
  | jobDone n =>
    simp only [DaemonWorld.step] at hs
    split_ifs at hs with hp
    exact h.onLock n (Or.inr (Or.inr (Or.inr rfl))) (fun hh => absurd hh (by simp)) hp hs

theorem dInv_init (dir : Bool) : DInv (DaemonWorld.init dir) :=
  ⟨lockInv_init dir, by simp [DaemonWorld.init], fun _ => ⟨rfl, rfl⟩⟩

/-- An invariant that holds as long as no bad step is made. -/
theorem daemon_run {R Kp : Type} {env : ConfigEnv R Kp} {bad : DaemonWorld → DaemonEv R → Prop} {P : DaemonWorld → Prop}
    (hP : ∀ w w' e, P w → ¬ bad w e → w.step env e = some w' → P w') :
    ∀ (es : List (DaemonEv R)) (w w' : DaemonWorld), P w → Without env bad w es → w.run env es = some w' → P w' := by
  intro es
  induction es with
  | nil => intro w w' h _ hr; simp only [DaemonWorld.run, Option.some.injEq] at hr; exact hr ▸ h
  | cons e es ih =>
    intro w w' h hw hr
    simp only [DaemonWorld.run] at hr
    cases hs : w.step env e with
    | none => rw [hs] at hr; cases hr
    | some w1 => rw [hs] at hr; exact ih w1 w' (hP w w1 e h hw.1 hs) (hw.2 w1 hs) hr

theorem without_never {R Kp : Type} (env : ConfigEnv R Kp) : ∀ (es : List (DaemonEv R)) (w : DaemonWorld), Without env (fun _ _ => False) w es := by
  intro es
  induction es with
  | nil => intro w; trivial
  | cons e es ih => intro w; exact ⟨id, fun w' _ => ih w'⟩

theorem dInv_run {R Kp : Type} {env : ConfigEnv R Kp} (dir : Bool) (es : List (DaemonEv R)) (w : DaemonWorld)
    (h : (DaemonWorld.init dir).run env es = some w) : DInv w :=
  daemon_run (bad := fun _ _ => False) (fun _ _ _ hw _ hs => hw.step hs) es _ w (dInv_init dir) (without_never env es _) h

/-! ### As long as nobody lets go too early -/

/-- The lock was taken. -/
def _root_.Verif.Http.DStage.past : DStage → Bool
  | .loaded _ => false
  | _ => true

/-- The invariant. -/
structure SInv (w : DaemonWorld) : Prop where
  base : DInv w
  uses : ∀ n s, w.proc n = some s → s.past = true → LockUses w.lock n
  told : ∀ n a, ToldAt w n a → w.api = some (apiText a)

theorem ToldAt.past {w : DaemonWorld} {n : Nat} {a : Sock} (h : ToldAt w n a) : ∃ s, w.proc n = some s ∧ s.past = true := by
  rcases h with h | h | h <;> exact ⟨_, h, rfl⟩

theorem ToldAt.of_eq {w w' : DaemonWorld} {n : Nat} {a : Sock} (h : ToldAt w n a) (he : w'.proc n = w.proc n) : ToldAt w' n a := by
  unfold ToldAt
  rw [he]
  exact h

/-- One process changes. -/
theorem SInv.mk' {w w' : DaemonWorld} (h : SInv w) (hb : DInv w') (n : Nat) (hp : ∀ k, k ≠ n → w'.proc k = w.proc k)
    (hl : ∀ k, k ≠ n → w'.lock.node k = w.lock.node k) (hn : ∀ s, w'.proc n = some s → s.past = true → LockUses w'.lock n)
    (ha : w'.api = w.api ∨ ∃ s, w.proc n = some s ∧ s.past = true) (ht : ∀ a, ToldAt w' n a → w'.api = some (apiText a)) : SInv w' := by
  refine ⟨hb, fun k s hs hk => ?_, fun k a hk => ?_⟩
  · by_cases hkn : k = n
    · subst hkn; exact hn s hs hk
    · rw [hp k hkn] at hs
      have := h.uses k s hs hk
      unfold LockUses at this ⊢
      rwa [hl k hkn]
  · by_cases hkn : k = n
    · subst hkn; exact ht a hk
    · have hk' : ToldAt w k a := hk.of_eq (hp k hkn).symm
      rcases ha with ha | ⟨s, hs, hps⟩
      · rw [ha]; exact h.told k a hk'
      · obtain ⟨t, ht1, ht2⟩ := hk'.past
        exact absurd (h.base.lk.unique (h.uses _ _ ht1 ht2) (h.uses _ _ hs hps)) hkn

theorem not_told {w : DaemonWorld} {n : Nat} {o : Option DStage} (h : w.proc n = o)
    (ho : ∀ a, o ≠ some (.serves a true) ∧ o ≠ some (.asked a true) ∧ o ≠ some (.closed a true)) (a : Sock) : ¬ ToldAt w n a := by
  rintro (h1 | h1 | h1)
  · exact (ho a).1 (h ▸ h1)
  · exact (ho a).2.1 (h ▸ h1)
  · exact (ho a).2.2 (h ▸ h1)

theorem goto_self (w : DaemonWorld) (n : Nat) (s : DStage) : (w.goto n s).proc n = some s := by simp [DaemonWorld.goto]

theorem goto_ne (w : DaemonWorld) {n k : Nat} (s : DStage) (h : k ≠ n) : (w.goto n s).proc k = w.proc k := by simp [DaemonWorld.goto, h]

theorem gone_self (w : DaemonWorld) (n : Nat) : (w.gone n).proc n = none := by simp [DaemonWorld.gone]

theorem gone_ne (w : DaemonWorld) {n k : Nat} (h : k ≠ n) : (w.gone n).proc k = w.proc k := by simp [DaemonWorld.gone, h]

theorem gone_node (w : DaemonWorld) {n k : Nat} (h : k ≠ n) : (w.gone n).lock.node k = w.lock.node k := by
  simp [DaemonWorld.gone, close_node, h]

theorem SInv.gone {w w1 : DaemonWorld} (h : SInv w) (n : Nat) (hb : DInv (w1.gone n)) (hp : w1.proc = w.proc)
    (hl : ∀ k, k ≠ n → w1.lock.node k = w.lock.node k) (ha : w1.api = w.api ∨ ∃ s, w.proc n = some s ∧ s.past = true) : SInv (w1.gone n) := by
  refine h.mk' hb n (fun k hk => by rw [gone_ne _ hk, hp]) (fun k hk => by rw [gone_node _ hk, hl k hk]) ?_ ha ?_
  · intro s hs; rw [gone_self] at hs; cases hs
  · intro a ha; exact absurd ha (not_told (gone_self w1 n) (by simp) a)

theorem SInv.onLock {w w' : DaemonWorld} (h : SInv w) (hb : DInv w') (n : Nat) {e : LockEv}
    (he : e = .share n ∨ e = .drop n ∨ e = .job n ∨ e = .jobDone n) (hd : e = .drop n → 2 ≤ (w.lock.node n).handles)
    (hs : w.onLock e = some w') : SInv w' := by
  obtain ⟨l, hl, rfl⟩ := Option.map_eq_some_iff.mp hs
  obtain ⟨h1, h2, h3⟩ := lock_handles he hl
  obtain ⟨h4, h5⟩ := h3 hd
  refine h.mk' hb n (fun _ _ => rfl) h1 (fun s hs hp => ?_) (Or.inl rfl) (fun a ha => h.told n a ha)
  obtain ⟨h6, h7⟩ := h.uses n s hs hp
  exact ⟨h4.trans h6, h5 h7⟩

theorem SInv.step {R Kp : Type} {env : ConfigEnv R Kp} {w w' : DaemonWorld} {e : DaemonEv R} (h : SInv w) (hne : ¬ Early w e)
    (hs : w.step env e = some w') : SInv w' := by
  have hb := h.base.step hs
  cases e with
  | init gen disk bits profiles =>
    simp only [DaemonWorld.step, Option.some.injEq] at hs
    subst hs
    refine ⟨hb, fun n s hn hp => ?_, h.told⟩
    have := h.uses n s hn hp
    dsimp only
    split <;> exact this
  | run n =>
    simp only [DaemonWorld.step] at hs
    split at hs
    · next hp =>
      obtain ⟨l, hl, rfl⟩ := Option.map_eq_some_iff.mp hs
      simp only [LockWorld.step] at hl
      split_ifs at hl with hh
      cases hl
      refine h.mk' hb n (fun k hk => by rw [goto_ne _ _ hk]) (fun k hk => by simp [DaemonWorld.goto, LockWorld.upd, hk]) ?_ (Or.inl rfl) ?_
      · intro s hs hp'; rw [goto_self] at hs; cases hs; cases hp'
      · intro a ha; exact absurd ha (not_told (goto_self _ _ _) (by simp) a)
    · cases hs; exact h
    · cases hs
  | start n ok =>
    simp only [DaemonWorld.step] at hs
    split at hs
    · next s hp =>
      split at hs
      · next l hl =>
        cases hs
        have hno := fun k hk => initRepo_node w.lock n k ok hk
        rw [hl] at hno
        refine h.mk' hb n (fun k hk => by rw [goto_ne _ _ hk]) hno ?_ (Or.inl rfl) ?_
        · intro s' hs' _
          rw [goto_self] at hs'
          have := hb.fits n
          rw [goto_self] at this
          exact this.1 rfl
        · intro a ha; exact absurd ha (not_told (goto_self _ _ _) (by simp) a)
      · next l _ hl =>
        cases hs
        have hno := fun k hk => initRepo_node w.lock n k ok hk
        rw [hl] at hno
        exact h.gone n hb rfl hno (Or.inl rfl)
    · cases hs
  | bind n port =>
    simp only [DaemonWorld.step] at hs
    split at hs
    · next s hp =>
      split_ifs at hs with hc
      cases hs
      refine h.mk' hb n (fun k hk => by rw [goto_ne _ _ hk]) (fun _ _ => rfl) (fun _ _ _ => h.uses n _ hp rfl) (Or.inl rfl) ?_
      intro a ha; exact absurd ha (not_told (goto_self _ _ _) (by simp) a)
    · cases hs
  | create n ok =>
    simp only [DaemonWorld.step] at hs
    split at hs
    · next a hp =>
      split_ifs at hs with hc
      · cases hs
        refine h.mk' hb n (fun k hk => by rw [goto_ne _ _ hk]) (fun _ _ => rfl) (fun _ _ _ => h.uses n _ hp rfl) (Or.inr ⟨_, hp, rfl⟩) ?_
        intro a ha; exact absurd ha (not_told (goto_self _ _ _) (by simp) a)
      · cases hs
        refine h.mk' hb n (fun k hk => by rw [goto_ne _ _ hk]) (fun _ _ => rfl) (fun _ _ _ => h.uses n _ hp rfl) (Or.inl rfl) ?_
        intro a ha; exact absurd ha (not_told (goto_self _ _ _) (by simp) a)
    · cases hs
  | write n k =>
    simp only [DaemonWorld.step] at hs
    split at hs
    · next a hp =>
      cases hs
      refine h.mk' hb n (fun k hk => by rw [goto_ne _ _ hk]) (fun _ _ => rfl) (fun _ _ _ => h.uses n _ hp rfl) (Or.inr ⟨_, hp, rfl⟩) ?_
      intro a' ha
      have hf := h.base.fits n
      rw [hp] at hf
      have hapi := hf.2.2.1 a rfl
      have hst : some (DStage.serves a (decide ((apiText a).length ≤ k))) = some (.serves a' true) := by
        rcases ha with ha | ha | ha
        · rwa [goto_self] at ha
        · rw [goto_self] at ha; cases ha
        · rw [goto_self] at ha; cases ha
      simp only [Option.some.injEq, DStage.serves.injEq, decide_eq_true_eq] at hst
      obtain ⟨rfl, hk⟩ := hst
      simp [DaemonWorld.goto, hapi, List.take_of_length_le hk]
    · cases hs
  | shutdown n =>
    simp only [DaemonWorld.step] at hs
    split at hs
    · next a b hp =>
      cases hs
      refine h.mk' hb n (fun k hk => by rw [goto_ne _ _ hk]) (fun _ _ => rfl) (fun _ _ _ => h.uses n _ hp rfl) (Or.inl rfl) ?_
      intro a' ha
      refine h.told n a' (Or.inl ?_)
      rcases ha with ha | ha | ha
      · rw [goto_self] at ha; cases ha
      · rw [goto_self] at ha; cases ha; exact hp
      · rw [goto_self] at ha; cases ha
    · cases hs
  | close n =>
    simp only [DaemonWorld.step] at hs
    split at hs
    · next a b hp =>
      cases hs
      refine h.mk' hb n (fun k hk => by rw [goto_ne _ _ hk]) (fun _ _ => rfl) (fun _ _ _ => h.uses n _ hp rfl) (Or.inl rfl) ?_
      intro a' ha
      refine h.told n a' (Or.inr (Or.inl ?_))
      rcases ha with ha | ha | ha
      · rw [goto_self] at ha; cases ha
      · rw [goto_self] at ha; cases ha
      · rw [goto_self] at ha; cases ha; exact hp
    · cases hs
  | finish n ok =>
    simp only [DaemonWorld.step] at hs
    split at hs
    · next a b hp =>
      cases hs
      exact h.gone n hb rfl (fun _ _ => rfl) (Or.inr ⟨_, hp, rfl⟩)
    · cases hs
  | kill n =>
    simp only [DaemonWorld.step] at hs
    split_ifs at hs
    cases hs
    exact h.gone n hb rfl (fun _ _ => rfl) (Or.inl rfl)
  | share n =>
    simp only [DaemonWorld.step] at hs
    split_ifs at hs with hp
    exact h.onLock hb n (Or.inl rfl) (fun hh => absurd hh (by simp)) hs
  | drop n =>
    simp only [DaemonWorld.step] at hs
    split at hs
    · split_ifs at hs with hk
      exact h.onLock hb n (Or.inr (Or.inl rfl))
        (fun _ => Decidable.byContradiction fun hn => hne ⟨n, rfl, by omega⟩) hs
    · cases hs
  | job n =>
    simp only [DaemonWorld.step] at hs
    split_ifs at hs with hp
    exact h.onLock hb n (Or.inr (Or.inr (Or.inl rfl))) (fun hh => absurd hh (by simp)) hs
  | jobDone n =>
    simp only [DaemonWorld.step] at hs
    split_ifs at hs with hp
    exact h.onLock hb n (Or.inr (Or.inr (Or.inr rfl))) (fun hh => absurd hh (by simp)) hs

theorem sInv_init (dir : Bool) : SInv (DaemonWorld.init dir) :=
  ⟨dInv_init dir, by simp [DaemonWorld.init], fun n a h => absurd h (not_told (o := none) rfl (by simp) a)⟩

/-! ### As long as nothing is cut off -/

/-- The file is not there, is empty, or tells where somebody serves. -/
def Explained (w : DaemonWorld) : Prop := w.api = none ∨ w.api = some [] ∨ ∃ n a, ToldAt w n a ∧ w.api = some (apiText a)

theorem Explained.keep {w w' : DaemonWorld} (h : Explained w) (ha : w'.api = w.api) (hk : ∀ n a, ToldAt w n a → ToldAt w' n a) : Explained w' := by
  rcases h with h | h | ⟨n, a, h1, h2⟩
  · exact Or.inl (ha.trans h)
  · exact Or.inr (Or.inl (ha.trans h))
  · exact Or.inr (Or.inr ⟨n, a, hk n a h1, ha.trans h2⟩)

/-- One process changes that had not told anything. -/
theorem Explained.other {w w' : DaemonWorld} (h : Explained w) (ha : w'.api = w.api) (n : Nat) (hn : ∀ a, ¬ ToldAt w n a)
    (hp : ∀ k, k ≠ n → w'.proc k = w.proc k) : Explained w' :=
  h.keep ha (fun k a hk => hk.of_eq (hp k (fun e => hn a (e ▸ hk))))

theorem Explained.step {R Kp : Type} {env : ConfigEnv R Kp} {w w' : DaemonWorld} {e : DaemonEv R} (hd : DInv w) (h : Explained w)
    (hne : ¬ Cut w e) (hs : w.step env e = some w') : Explained w' := by
  cases e with
  | init gen disk bits profiles =>
    simp only [DaemonWorld.step, Option.some.injEq] at hs
    subst hs
    exact h
  | run n =>
    simp only [DaemonWorld.step] at hs
    split at hs
    · next hp _ =>
      obtain ⟨l, hl, rfl⟩ := Option.map_eq_some_iff.mp hs
      exact h.other rfl n (not_told hp (by simp)) (fun k hk => by rw [goto_ne _ _ hk])
    · cases hs; exact h
    · cases hs
  | start n ok =>
    simp only [DaemonWorld.step] at hs
    split at hs
    · next s hp =>
      split at hs
      · cases hs
        exact h.other rfl n (not_told hp (by simp)) (fun k hk => by rw [goto_ne _ _ hk])
      · cases hs
        exact h.other rfl n (not_told hp (by simp)) (fun k hk => by rw [gone_ne _ hk])
    · cases hs
  | bind n port =>
    simp only [DaemonWorld.step] at hs
    split at hs
    · next s hp =>
      split_ifs at hs with hc
      cases hs
      exact h.other rfl n (not_told hp (by simp)) (fun k hk => by rw [goto_ne _ _ hk])
    · cases hs
  | create n ok =>
    simp only [DaemonWorld.step] at hs
    split at hs
    · next a hp =>
      split_ifs at hs with hc
      · cases hs
        exact Or.inr (Or.inl rfl)
      · cases hs
        exact h.other rfl n (not_told hp (by simp)) (fun k hk => by rw [goto_ne _ _ hk])
    · cases hs
  | write n k =>
    simp only [DaemonWorld.step] at hs
    split at hs
    · next a hp =>
      cases hs
      have hf := hd.fits n
      rw [hp] at hf
      have hapi := hf.2.2.1 a rfl
      by_cases hk : (apiText a).length ≤ k
      · right; right
        refine ⟨n, a, Or.inl ?_, ?_⟩
        · rw [goto_self]; simp [hk]
        · simp [DaemonWorld.goto, hapi, List.take_of_length_le hk]
      · have h0 : k = 0 := by
          refine Decidable.byContradiction fun h0 => hne (Or.inr (Or.inr ⟨n, a, k, rfl, hp, by omega, by omega⟩))
        subst h0
        right; left
        simp [DaemonWorld.goto, hapi]
    · cases hs
  | shutdown n =>
    simp only [DaemonWorld.step] at hs
    split at hs
    · next a b hp =>
      cases hs
      refine h.keep rfl (fun k a' hk => ?_)
      by_cases hkn : k = n
      · subst hkn
        rcases hk with hk | hk | hk
        · rw [hp] at hk; cases hk; exact Or.inr (Or.inl (goto_self _ _ _))
        · rw [hp] at hk; cases hk
        · rw [hp] at hk; cases hk
      · exact hk.of_eq (goto_ne _ _ hkn)
    · cases hs
  | close n =>
    simp only [DaemonWorld.step] at hs
    split at hs
    · next a b hp =>
      cases hs
      refine h.keep rfl (fun k a' hk => ?_)
      by_cases hkn : k = n
      · subst hkn
        rcases hk with hk | hk | hk
        · rw [hp] at hk; cases hk
        · rw [hp] at hk; cases hk; exact Or.inr (Or.inr (goto_self _ _ _))
        · rw [hp] at hk; cases hk
      · exact hk.of_eq (goto_ne _ _ hkn)
    · cases hs
  | finish n ok =>
    simp only [DaemonWorld.step] at hs
    split at hs
    · next a b hp =>
      cases hs
      have hok : ok = true := by
        cases ok with
        | true => rfl
        | false => exact absurd (Or.inr (Or.inl ⟨n, rfl⟩)) hne
      subst hok
      cases b with
      | true => exact Or.inr (Or.inl rfl)
      | false => exact h.other rfl n (not_told hp (by simp)) (fun k hk => by rw [gone_ne _ hk])
    · cases hs
  | kill n =>
    simp only [DaemonWorld.step] at hs
    split_ifs at hs
    cases hs
    exact h.other rfl n (fun a ha => hne (Or.inl ⟨n, a, rfl, ha⟩)) (fun k hk => by rw [gone_ne _ hk])
  | share n =>
    simp only [DaemonWorld.step] at hs
    split_ifs at hs with hp
    obtain ⟨l, hl, rfl⟩ := Option.map_eq_some_iff.mp hs
    exact h
  | drop n =>
    simp only [DaemonWorld.step] at hs
    split at hs
    · split_ifs at hs with hk
      obtain ⟨l, hl, rfl⟩ := Option.map_eq_some_iff.mp hs
      exact h
    · cases hs
  | job n =>
    simp only [DaemonWorld.step] at hs
    split_ifs at hs with hp
    obtain ⟨l, hl, rfl⟩ := Option.map_eq_some_iff.mp hs
    exact h
  | jobDone n =>
    simp only [DaemonWorld.step] at hs
    split_ifs at hs with hp
    obtain ⟨l, hl, rfl⟩ := Option.map_eq_some_iff.mp hs
    exact h

/-! ### The property -/

/-- **C93**: whatever is started, stopped and killed in whatever order, at most one process is between taking the repository and the end of
its server; so at most one serves. -/
theorem C93_one {R Kp : Type} (env : ConfigEnv R Kp) (dir : Bool) (es : List (DaemonEv R)) (w : DaemonWorld)
    (h : (DaemonWorld.init dir).run env es = some w) (n m : Nat) (s t : DStage) (hs : w.proc n = some s) (hh : s.holds = true)
    (ht : w.proc m = some t) (hh' : t.holds = true) : n = m :=
  (dInv_run dir es w h).unique hs hh ht hh'

/-- **C93**: a daemon that is started when another has the repository ends, and changes nothing. -/
theorem C93_second {R Kp : Type} (env : ConfigEnv R Kp) (dir : Bool) (es : List (DaemonEv R)) (w w' : DaemonWorld)
    (h : (DaemonWorld.init dir).run env es = some w) (n m : Nat) (t : DStage) (ok : Bool) (ht : w.proc m = some t) (hh : t.holds = true)
    (hs : w.step env (.start n ok) = some w') :
    w'.proc n = none ∧ (∀ k, k ≠ n → w'.proc k = w.proc k) ∧ w'.api = w.api ∧ w'.config = w.config := by
  have hd := dInv_run dir es w h
  have hu := hd.uses ht hh
  have ho := (hd.lk.own m).2 ⟨hd.lk.rdy m hu.1, hu.2⟩
  simp only [DaemonWorld.step] at hs
  split at hs
  · split at hs
    · next l hl =>
      exfalso
      simp only [LockWorld.initRepo, LockWorld.tryExclusive, ho] at hl
      by_cases hd' : w.lock.dir = true <;> simp [hd'] at hl
    · cases hs
      exact ⟨gone_self _ _, fun k hk => gone_ne _ hk, rfl, rfl⟩
  · cases hs

/-- **C93**: as long as a daemon that wrote the file serves, the file tells its address or nothing; never another one. -/
theorem C93_told {R Kp : Type} (env : ConfigEnv R Kp) (dir : Bool) (es : List (DaemonEv R)) (w : DaemonWorld)
    (h : (DaemonWorld.init dir).run env es = some w) (n : Nat) (a : Sock)
    (hs : w.proc n = some (.serves a true) ∨ w.proc n = some (.asked a true)) : w.api = some (apiText a) ∨ w.api = some [] := by
  have hf := (dInv_run dir es w h).fits n
  rcases hs with hs | hs
  · rw [hs] at hf; exact hf.2.2.2 a (Or.inl rfl)
  · rw [hs] at hf; exact hf.2.2.2 a (Or.inr rfl)

/-- **C93**, if no process lets go of the repository before it has made the file empty: the file tells the address of the daemon that wrote
it, from the moment it was written to the end of that daemon. -/
theorem C93_exact_partial {R Kp : Type} (env : ConfigEnv R Kp) (dir : Bool) (es : List (DaemonEv R)) (w : DaemonWorld)
    (h : (DaemonWorld.init dir).run env es = some w) (hn : Without env Early (DaemonWorld.init dir) es) (n : Nat) (a : Sock)
    (hs : ToldAt w n a) : w.api = some (apiText a) :=
  (daemon_run (P := SInv) (fun _ _ _ hw hb hs => hw.step hb hs) es _ w (sInv_init dir) hn h).told n a hs

/-- **C93**, if no process is killed while the file tells its address and the disk does not fail: the file is not there, is empty, or tells the
address of a daemon that wrote it and has not ended; if there is no process, it tells nothing. -/
theorem C93_ended_partial {R Kp : Type} (env : ConfigEnv R Kp) (dir : Bool) (es : List (DaemonEv R)) (w : DaemonWorld)
    (h : (DaemonWorld.init dir).run env es = some w) (hn : Without env Cut (DaemonWorld.init dir) es) :
    (w.api = none ∨ w.api = some [] ∨ ∃ n a, ToldAt w n a ∧ w.api = some (apiText a)) ∧
    ((∀ n, w.proc n = none) → w.api = none ∨ w.api = some []) := by
  have he := (daemon_run (P := fun w => DInv w ∧ Explained w) (fun _ _ _ hw hb hs => ⟨hw.1.step hs, hw.2.step hw.1 hb hs⟩) es _ w
    ⟨dInv_init dir, Or.inl rfl⟩ hn h).2
  refine ⟨he, fun hno => ?_⟩
  rcases he with h1 | h1 | ⟨n, a, h1, _⟩
  · exact Or.inl h1
  · exact Or.inr h1
  · exact absurd h1 (not_told (hno n) (by simp) a)

theorem daemon_run_append {R Kp : Type} (env : ConfigEnv R Kp) : ∀ (es fs : List (DaemonEv R)) (w : DaemonWorld),
    w.run env (es ++ fs) = (w.run env es).bind (fun w' => w'.run env fs) := by
  intro es
  induction es with
  | nil => intro fs w; rfl
  | cons e es ih =>
    intro fs w
    simp only [List.cons_append, DaemonWorld.run]
    cases w.step env e with
    | none => rfl
    | some w1 => exact ih fs w1

/-- Somebody listened there. -/
def Heard {R Kp : Type} (env : ConfigEnv R Kp) (w0 : DaemonWorld) (es : List (DaemonEv R)) (a : Sock) : Prop :=
  ∃ es1 w1 n, es1 <+: es ∧ w0.run env es1 = some w1 ∧ ListensAt w1 n a

/-- The last event. -/
theorem opened_before {R Kp : Type} {env : ConfigEnv R Kp} {w w' : DaemonWorld} {e : DaemonEv R} (hd : DInv w) (hs : w.step env e = some w') :
    w'.api = w.api ∨ w'.api = some [] ∨ ∃ n a k, w.proc n = some (.opened a) ∧ w'.api = some ((apiText a).take k) := by
  cases e with
  | init gen disk bits profiles =>
    simp only [DaemonWorld.step, Option.some.injEq] at hs
    subst hs
    exact Or.inl rfl
  | run n =>
    simp only [DaemonWorld.step] at hs
    split at hs
    · obtain ⟨l, hl, rfl⟩ := Option.map_eq_some_iff.mp hs
      exact Or.inl rfl
    · cases hs; exact Or.inl rfl
    · cases hs
  | start n ok =>
    simp only [DaemonWorld.step] at hs
    split at hs
    · split at hs <;> cases hs <;> exact Or.inl rfl
    · cases hs
  | bind n port =>
    simp only [DaemonWorld.step] at hs
    split at hs
    · split_ifs at hs with hc
      cases hs
      exact Or.inl rfl
    · cases hs
  | create n ok =>
    simp only [DaemonWorld.step] at hs
    split at hs
    · split_ifs at hs with hc <;> cases hs
      · exact Or.inr (Or.inl rfl)
      · exact Or.inl rfl
    · cases hs
  | write n k =>
    simp only [DaemonWorld.step] at hs
    split at hs
    · next a hp =>
      cases hs
      have hf := hd.fits n
      rw [hp] at hf
      exact Or.inr (Or.inr ⟨n, a, k, hp, by simp [DaemonWorld.goto, hf.2.2.1 a rfl]⟩)
    · cases hs
  | shutdown n =>
    simp only [DaemonWorld.step] at hs
    split at hs <;> cases hs
    exact Or.inl rfl
  | close n =>
    simp only [DaemonWorld.step] at hs
    split at hs <;> cases hs
    exact Or.inl rfl
  | finish n ok =>
    simp only [DaemonWorld.step] at hs
    split at hs <;> cases hs
    simp only [DaemonWorld.gone]
    split
    · exact Or.inr (Or.inl rfl)
    · exact Or.inl rfl
  | kill n =>
    simp only [DaemonWorld.step] at hs
    split_ifs at hs
    cases hs
    exact Or.inl rfl
  | share n =>
    simp only [DaemonWorld.step] at hs
    split_ifs at hs with hp
    obtain ⟨l, hl, rfl⟩ := Option.map_eq_some_iff.mp hs
    exact Or.inl rfl
  | drop n =>
    simp only [DaemonWorld.step] at hs
    split at hs
    · split_ifs at hs with hk
      obtain ⟨l, hl, rfl⟩ := Option.map_eq_some_iff.mp hs
      exact Or.inl rfl
    · cases hs
  | job n =>
    simp only [DaemonWorld.step] at hs
    split_ifs at hs with hp
    obtain ⟨l, hl, rfl⟩ := Option.map_eq_some_iff.mp hs
    exact Or.inl rfl
  | jobDone n =>
    simp only [DaemonWorld.step] at hs
    split_ifs at hs with hp
    obtain ⟨l, hl, rfl⟩ := Option.map_eq_some_iff.mp hs
    exact Or.inl rfl

/-- **C93**: in every history, what the file tells is an address at which a daemon listened, or a beginning of its text. -/
theorem C93_never {R Kp : Type} (env : ConfigEnv R Kp) (dir : Bool) (es : List (DaemonEv R)) (w : DaemonWorld)
    (h : (DaemonWorld.init dir).run env es = some w) (t : Bytes) (ht : w.api = some t) :
    t = [] ∨ ∃ a, t <+: apiText a ∧ Heard env (DaemonWorld.init dir) es a := by
  induction es using snocInd generalizing w t with
  | nil =>
    simp only [DaemonWorld.run, Option.some.injEq] at h
    subst h
    cases ht
  | snoc es e ih =>
    have hr := h
    rw [daemon_run_append] at h
    obtain ⟨w1, h1, h2⟩ := Option.bind_eq_some_iff.mp h
    simp only [DaemonWorld.run] at h2
    obtain ⟨w2, h3, h4⟩ := Option.bind_eq_some_iff.mp h2
    cases h4
    rcases opened_before (dInv_run dir es w1 h1) h3 with h5 | h5 | ⟨n, a, k, h5, h6⟩
    · rw [h5] at ht
      rcases ih w1 h1 t ht with h6 | ⟨a, h6, es1, w3, m, h7, h8⟩
      · exact Or.inl h6
      · exact Or.inr ⟨a, h6, es1, w3, m, h7.trans (List.prefix_append _ _), h8⟩
    · rw [h5] at ht; cases ht; exact Or.inl rfl
    · rw [h6] at ht; cases ht
      exact Or.inr ⟨a, List.take_prefix _ _, es, w1, n, List.prefix_append _ _, h1, Or.inr (Or.inl h5)⟩

/-! ### Coming up -/

/-- What a daemon does until it serves. -/
def upEvs {R : Type} (n port k : Nat) : List (DaemonEv R) := [.run n, .start n true, .bind n port, .create n true, .write n k]

theorem daemon_up {R Kp : Type} {env : ConfigEnv R Kp} {w : DaemonWorld} (h : DInv w) {n : Nat} (hn : w.proc n = none)
    (ho : w.lock.owner = none) {kp : Kp} {swarm : List Ipfs.Maddr} {ip : UInt8 × UInt8 × UInt8 × UInt8} {port : Nat}
    (hc : mainDaemon env w.config = .serves kp swarm ip port) {p k : Nat} (hp : port = 0 ∨ port = p) (hk : (apiText (ip, p)).length ≤ k) :
    ∃ w', w.run env (upEvs n p k) = some w' ∧ w'.proc n = some (.serves (ip, p) true) ∧ w'.api = some (apiText (ip, p)) ∧
      w'.config = w.config ∧ (∀ m, m ≠ n → w'.proc m = w.proc m) ∧ w'.lock.node n = ⟨1, true, true, 0⟩ ∧ w'.lock.owner = some n := by
  have hf := h.fits n
  rw [hn] at hf
  have hd : w.lock.dir = true := by
    refine h.dir ?_
    cases hw : w.config with
    | some f => rfl
    | none => rw [hw] at hc; cases hc
  have h1 : w.step env (.run n) = some ({ w with lock := w.lock.upd n ⟨1, false, false, 0⟩ }.goto n (.loaded (ip, port))) := by
    simp only [DaemonWorld.step, hn, hc]
    simp [LockWorld.step, hf.1, hf.2]
  have h2 : (w.lock.upd n ⟨1, false, false, 0⟩).initRepo n true =
      (.ok, { (w.lock.upd n ⟨1, true, true, 0⟩) with owner := some n }) := by
    simp only [LockWorld.initRepo, LockWorld.tryExclusive, LockWorld.upd, hd, ho]
    simp only [not_true, if_false, if_true, Prod.mk.injEq, true_and, LockWorld.mk.injEq]
    funext m
    by_cases hm : m = n <;> simp [hm]
  refine ⟨{ ({ w with lock := { (w.lock.upd n ⟨1, true, true, 0⟩) with owner := some n } } : DaemonWorld).goto n (.serves (ip, p) true) with
      api := some (apiText (ip, p)) }, ?_, ?_⟩
  · simp only [upEvs, DaemonWorld.run, h1, Option.bind_some]
    simp only [DaemonWorld.step, DaemonWorld.goto, h2, if_true, Option.bind_some, hp, decide_eq_true hk, Option.map_some,
      List.take_of_length_le hk, List.drop_nil, List.append_nil, Option.some.injEq, DaemonWorld.mk.injEq, true_and]
    funext m
    by_cases hm : m = n <;> simp [hm]
  · refine ⟨by simp [DaemonWorld.goto], rfl, rfl, fun m hm => by simp [DaemonWorld.goto, hm], ?_, rfl⟩
    simp [DaemonWorld.goto, LockWorld.upd]

/-- Nobody has the repository if there is no process. -/
theorem DInv.free {w : DaemonWorld} (h : DInv w) (hno : ∀ n, w.proc n = none) : w.lock.owner = none := by
  cases ho : w.lock.owner with
  | none => rfl
  | some n =>
    have h1 := (h.lk.own n).1 ho
    have hf := h.fits n
    rw [hno n] at hf
    exact absurd hf.1 h1.2

/-- **C93**: after every history, crashes included, when no process is left a daemon can be started again with any configuration that
loads, and if nothing fails the file tells where it serves: at the address of the configuration, with any port if that is zero. -/
theorem C93_up {R Kp : Type} (env : ConfigEnv R Kp) (dir : Bool) (es : List (DaemonEv R)) (w : DaemonWorld)
    (h : (DaemonWorld.init dir).run env es = some w) (hno : ∀ n, w.proc n = none) (kp : Kp) (swarm : List Ipfs.Maddr)
    (ip : UInt8 × UInt8 × UInt8 × UInt8) (port : Nat) (hc : mainDaemon env w.config = .serves kp swarm ip port) (n p : Nat)
    (hp : port = 0 ∨ port = p) : ∃ w', w.run env (upEvs n p (apiText (ip, p)).length) = some w' ∧ ListensAt w' n (ip, p) ∧
      w'.api = some (apiText (ip, p)) := by
  have hd := dInv_run dir es w h
  obtain ⟨w', h1, h2, h3, _⟩ := daemon_up hd (hno n) (hd.free hno) hc hp (Nat.le_refl _)
  exact ⟨w', h1, Or.inr (Or.inr ⟨true, h2⟩), h3⟩

/-- **C93**: from an empty directory: `init` that reports success, then a daemon, and the file tells where it serves, at the local host with
the port of the profile. -/
theorem C93_init {R Kp : Type} (env : ConfigEnv R Kp) (hl : LawfulKeys env) (dir : Bool) (gen : Option R) (disk : Disk) (bits : Nat)
    (profiles : List Profile) (hi : (mainInit env gen disk none bits profiles).2 = .exit 0) (n p : Nat)
    (hp : profiles ≠ [.test] → p = 4004) : ∃ w', (DaemonWorld.init dir).run env (.init gen disk bits profiles ::
      upEvs n p (apiText ((127, 0, 0, 1), p)).length) = some w' ∧ ListensAt w' n ((127, 0, 0, 1), p) ∧
      w'.api = some (apiText ((127, 0, 0, 1), p)) := by
  obtain ⟨f, hf⟩ : ∃ f, mainInit env gen disk none bits profiles = (f, .exit 0) := ⟨_, Prod.ext rfl hi⟩
  obtain ⟨-, k, kp, der, port, -, -, h3, h4⟩ := C77_start env hl gen disk none f bits profiles hf
  have hs : ∃ w1, (DaemonWorld.init dir).run env [.init gen disk bits profiles] = some w1 ∧ w1.config = f ∧ ∀ n, w1.proc n = none := by
    refine ⟨_, rfl, ?_, fun _ => rfl⟩
    simp [DaemonWorld.init, hf]
  obtain ⟨w1, h5, h6, h7⟩ := hs
  obtain ⟨w', h8, h9⟩ := C93_up env dir [.init gen disk bits profiles] w1 h5 h7 kp [[.ip4 127 0 0 1, .tcp 0]] (127, 0, 0, 1) port
    (by rw [h6]; exact h4) n p (by
      by_cases ht : profiles = [.test]
      · left; simpa [ht] using h3
      · right; rw [hp ht]; simpa [ht] using h3)
  refine ⟨w', ?_, h9⟩
  rw [← List.singleton_append, daemon_run_append, h5]
  exact h8

/-! ### What the code does not keep -/

/-- The property as it should be: whenever a daemon serves that could write the file, the file tells its address, and when there is no
process it tells none. -/
def ApiTells {R Kp : Type} (env : ConfigEnv R Kp) : Prop :=
  ∀ dir es w, (DaemonWorld.init dir).run env es = some w →
    (∀ n a, w.proc n = some (.serves a true) → w.api = some (apiText a)) ∧ ((∀ n, w.proc n = none) → w.api = none ∨ w.api = some [])

/-- **C93** fails: after every history, a daemon that is killed while it serves leaves a file that tells its address, and nobody is there. -/
theorem C93_killed {R Kp : Type} (env : ConfigEnv R Kp) (dir : Bool) (es : List (DaemonEv R)) (w : DaemonWorld)
    (h : (DaemonWorld.init dir).run env es = some w) (hno : ∀ n, w.proc n = none) (kp : Kp) (swarm : List Ipfs.Maddr)
    (ip : UInt8 × UInt8 × UInt8 × UInt8) (port : Nat) (hc : mainDaemon env w.config = .serves kp swarm ip port) (n p : Nat)
    (hp : port = 0 ∨ port = p) : ∃ w', w.run env (upEvs n p (apiText (ip, p)).length ++ [.kill n]) = some w' ∧ (∀ m, w'.proc m = none) ∧
      w'.api = some (apiText (ip, p)) := by
  have hd := dInv_run dir es w h
  obtain ⟨w1, h1, h2, h3, h4, h5, _⟩ := daemon_up hd (hno n) (hd.free hno) hc hp (Nat.le_refl _)
  refine ⟨w1.gone n, ?_, fun m => ?_, h3⟩
  · rw [daemon_run_append, h1]
    simp [DaemonWorld.run, DaemonWorld.step, h2]
  · by_cases hm : m = n
    · rw [hm, gone_self]
    · rw [gone_ne _ hm, h5 m hm, hno m]

/-- **C93** fails: a daemon that was asked to end has let go of the repository when it makes the file empty; another one that was started in
between serves, and the file does not tell where. -/
theorem C93_race {R Kp : Type} (env : ConfigEnv R Kp) (dir : Bool) (es : List (DaemonEv R)) (w : DaemonWorld)
    (h : (DaemonWorld.init dir).run env es = some w) (hno : ∀ n, w.proc n = none) (kp : Kp) (swarm : List Ipfs.Maddr)
    (ip : UInt8 × UInt8 × UInt8 × UInt8) (port : Nat) (hc : mainDaemon env w.config = .serves kp swarm ip port) (n m p q : Nat) (hnm : n ≠ m)
    (hp : port = 0 ∨ port = p) (hq : port = 0 ∨ port = q) :
    ∃ w', w.run env (upEvs n p (apiText (ip, p)).length ++ [.shutdown n, .close n, .drop n] ++ upEvs m q (apiText (ip, q)).length ++
        [.finish n true]) = some w' ∧ w'.proc m = some (.serves (ip, q) true) ∧ w'.api = some [] := by
  have hd := dInv_run dir es w h
  obtain ⟨w1, h1, h2, h3, h4, h5, h6, h7⟩ := daemon_up hd (hno n) (hd.free hno) hc hp (Nat.le_refl _)
  have h8 : ∃ w2, w1.run env [.shutdown n, .close n, .drop n] = some w2 ∧ w2.proc n = some (.closed (ip, p) true) ∧
      w2.proc m = none ∧ w2.lock.owner = none ∧ w2.config = w.config := by
    refine ⟨{ ((w1.goto n (.asked (ip, p) true)).goto n (.closed (ip, p) true)) with lock := w1.lock.close n 0 }, ?_, ?_, ?_, ?_, h4⟩
    · simp [DaemonWorld.run, DaemonWorld.step, h2, DaemonWorld.goto, DStage.keeps, DaemonWorld.onLock, LockWorld.step, h6]
    · simp [DaemonWorld.goto]
    · simp [DaemonWorld.goto, Ne.symm hnm, h5 m (Ne.symm hnm), hno m]
    · simp [LockWorld.close, h7]
  obtain ⟨w2, h9, h10, h11, h12, h13⟩ := h8
  have hd2 : DInv w2 := by
    refine dInv_run (env := env) dir (es ++ (upEvs n p (apiText (ip, p)).length ++ [.shutdown n, .close n, .drop n])) w2 ?_
    rw [daemon_run_append, h, Option.bind_some, daemon_run_append, h1]
    exact h9
  obtain ⟨w3, g1, g2, g3, g4, g5, _⟩ := daemon_up hd2 h11 h12 (by rw [h13]; exact hc) hq (Nat.le_refl _)
  have g6 : w3.proc n = some (.closed (ip, p) true) := by rw [g5 n hnm, h10]
  refine ⟨{ w3 with api := some [] }.gone n, ?_, ?_, rfl⟩
  · rw [daemon_run_append, daemon_run_append, daemon_run_append, h1, Option.bind_some, h9, Option.bind_some, g1]
    simp [DaemonWorld.run, DaemonWorld.step, g6]
  · rw [gone_ne _ (Ne.symm hnm)]
    exact g2

theorem without_append {R Kp : Type} {env : ConfigEnv R Kp} {bad : DaemonWorld → DaemonEv R → Prop} : ∀ {es fs : List (DaemonEv R)} {w : DaemonWorld},
    Without env bad w es → (∀ w', w.run env es = some w' → Without env bad w' fs) → Without env bad w (es ++ fs) := by
  intro es
  induction es with
  | nil => intro fs w _ h; exact h w rfl
  | cons e es ih =>
    intro fs w h1 h2
    refine ⟨h1.1, fun w' hw => ih (h1.2 w' hw) (fun w'' hw' => h2 w'' ?_)⟩
    simp only [DaemonWorld.run, hw, Option.bind_some]
    exact hw'

theorem without_all {R Kp : Type} {env : ConfigEnv R Kp} {bad : DaemonWorld → DaemonEv R → Prop} : ∀ {es : List (DaemonEv R)} {w : DaemonWorld},
    (∀ e ∈ es, ∀ w, ¬ bad w e) → Without env bad w es := by
  intro es
  induction es with
  | nil => intro w _; trivial
  | cons e es ih => intro w h; exact ⟨h e (by simp) w, fun w' _ => ih (fun e' he => h e' (by simp [he]))⟩

/-- The example: a repository that `init` made. -/
theorem exDaemon : ∃ w1 kp swarm, (DaemonWorld.init false).run exConfEnv [.init (some 7) .fine 2048 []] = some w1 ∧ (∀ n, w1.proc n = none) ∧
    mainDaemon exConfEnv w1.config = .serves kp swarm (127, 0, 0, 1) 4004 := by
  have hi : (mainInit exConfEnv (some 7) .fine none 2048 []).2 = .exit 0 := by
    rw [(C77_init_code exConfEnv (some 7) .fine 2048 []).2.1]
    exact ⟨_, (C77_init ..).mpr ⟨rfl, rfl, by decide, by decide, by decide, 7, 7, [7], rfl, exConf_made 7, rfl⟩⟩
  obtain ⟨f, hf⟩ : ∃ f, mainInit exConfEnv (some 7) .fine none 2048 [] = (f, .exit 0) := ⟨_, Prod.ext rfl hi⟩
  obtain ⟨-, k, kp, der, port, -, -, h3, h4⟩ := C77_start exConfEnv exConf_lawful (some 7) .fine none f 2048 [] hf
  refine ⟨_, kp, [[.ip4 127 0 0 1, .tcp 0]], rfl, fun _ => rfl, ?_⟩
  have : port = 4004 := by simpa using h3
  subst this
  simpa [DaemonWorld.init, hf] using h4

/-- A history with one daemon that comes up, serves, and ends by itself meets what C93_exact_partial and C93_ended_partial ask for. -/
theorem C93_met : ∃ es w w', (DaemonWorld.init false).run exConfEnv es = some w ∧ ToldAt w 1 ((127, 0, 0, 1), 4004) ∧
    w.run exConfEnv [.shutdown 1, .close 1, .finish 1 true] = some w' ∧ (∀ n, w'.proc n = none) ∧
    Without exConfEnv (fun w e => Early w e ∨ Cut w e) (DaemonWorld.init false) (es ++ [.shutdown 1, .close 1, .finish 1 true]) := by
  obtain ⟨w1, kp, swarm, h1, h2, h3⟩ := exDaemon
  have hd := dInv_run false _ w1 h1
  obtain ⟨w, h4, h5, h6, h7, h8, h9, h10⟩ := daemon_up hd (h2 1) (hd.free h2) h3 (p := 4004) (Or.inr rfl) (Nat.le_refl _)
  have hrun : (DaemonWorld.init false).run exConfEnv ([.init (some 7) .fine 2048 []] ++ upEvs 1 4004 (apiText ((127, 0, 0, 1), 4004)).length) = some w := by
    rw [daemon_run_append, h1]; exact h4
  refine ⟨_, w, { ((w.goto 1 (.asked ((127, 0, 0, 1), 4004) true)).goto 1 (.closed ((127, 0, 0, 1), 4004) true)) with api := some [] }.gone 1,
    hrun, Or.inl h5, ?_, ?_, ?_⟩
  · simp [DaemonWorld.run, DaemonWorld.step, h5, DaemonWorld.goto]
  · intro n
    by_cases hn : n = 1
    · rw [hn, gone_self]
    · rw [gone_ne _ hn]
      simp [DaemonWorld.goto, hn, h8 n hn, h2 n]
  · refine without_append ?_ (fun _ _ => without_all ?_)
    · have e : ([.init (some 7) .fine 2048 []] ++ upEvs 1 4004 (apiText ((127, 0, 0, 1), 4004)).length : List (DaemonEv UInt8)) =
          [.init (some 7) .fine 2048 [], .run 1, .start 1 true, .bind 1 4004, .create 1 true] ++
            [.write 1 (apiText ((127, 0, 0, 1), 4004)).length] := rfl
      rw [e] at hrun ⊢
      refine without_append (without_all ?_) (fun w2 hw2 => ⟨?_, fun _ _ => trivial⟩)
      · intro e he w hb
        rcases hb with ⟨n, hb, _⟩ | ⟨n, a, hb, _⟩ | ⟨n, hb⟩ | ⟨n, a, k, hb, _⟩ <;> subst hb <;> simp at he
      · rintro (⟨n, hb, _⟩ | ⟨n, a, hb, _⟩ | ⟨n, hb⟩ | ⟨n, a, k, hb, h11, _, h12⟩)
        · cases hb
        · cases hb
        · cases hb
        · cases hb
          rw [daemon_run_append, hw2] at hrun
          simp only [Option.bind_some, DaemonWorld.run, DaemonWorld.step, h11, Option.some.injEq] at hrun
          rw [← hrun, goto_self] at h5
          simp only [Option.some.injEq, DStage.serves.injEq, decide_eq_true_eq] at h5
          omega
    · intro e he w hb
      rcases hb with ⟨n, hb, _⟩ | ⟨n, a, hb, _⟩ | ⟨n, hb⟩ | ⟨n, a, k, hb, _⟩ <;> subst hb <;> simp at he

/-- **C93** as it should be is false. -/
theorem C93_full_false : ¬ ApiTells exConfEnv := by
  intro h
  obtain ⟨w1, kp, swarm, h5, h7, h4⟩ := exDaemon
  obtain ⟨w', h8, h9, h10⟩ := C93_killed exConfEnv false _ w1 h5 h7 kp _ _ 4004 h4 1 4004 (Or.inr rfl)
  rcases (h false ([.init (some 7) .fine 2048 []] ++ (upEvs 1 4004 _ ++ [.kill 1])) w' (by rw [daemon_run_append, h5]; exact h8)).2 h9 with h11 | h11
  · rw [h10] at h11; cases h11
  · rw [h10] at h11; exact apiText_ne _ (Option.some.inj h11)

end Verif.Props
