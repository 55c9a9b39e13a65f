import Verif.Http.PubsubSub
import Verif.Props.Pubsub

/-!
# The responses of `pubsub/sub` (C62)

Whoever asks for a topic gets the messages of the topic which the node handles, in order and without gaps: those
that are sent on the channel shared by all who ask for the topic (`C62_segment`), which has nothing else
(`C62_output`), and lacks nothing while the task that feeds it is at work (`C62_complete`, `C62_starts`). The mutex
is always given back (`C62_lock`) and a response never just ends (`C62_ends`). The code panics in two races
(`C62_refused`, `C62_shovel_refused`), in the second of which the topic is deaf for good (`C62_deaf`,
`C62_race_deaf`, `C62_race_refused`).
-/

namespace Verif.Props

open Verif Verif.Net Verif.Http

/-! ## Specification -/

/-- What reached the node from the network. -/
def subArrivals : List SubOp → List FloodEv
  | [] => []
  | .node (.arrive e) :: ops => e :: subArrivals ops
  | _ :: ops => subArrivals ops

/-- A state some history leads to. -/
def HubReach (h : SubHub) : Prop := ∃ ops, h = SubHub.init.run ops

/-- The shovel is at work for the topic, and no other holds a stream of it that it will drop. -/
structure Healthy (h : SubHub) (k : Nat) (s : Shovel) : Prop where
  shovel : h.shovels[k]? = some s
  reading : s.pc = .reading
  registered : AMap.get h.ps.streams s.topic = some s.stream
  noNotice : s.topic ∉ h.ps.drops
  noOther : ∀ (a : Nat) (x : Shovel), h.shovels[a]? = some x → x.topic = s.topic → x.pc ≠ .leaving ∧ x.pc ≠ .failing

/-- What was sent or is to be sent and the request has not got yet. -/
def awaiting (h : SubHub) (s : Shovel) (pos : Nat) : List PubMsg :=
  (h.sent s.chan).drop pos ++
    match h.ps.made[s.stream]? with
    | some st => st.inbox
    | none => []

/-! ## Helper lemmas -/

def SubPc.holds : SubPc → Bool
  | .asking => true
  | .answered _ => true
  | _ => false

def ShovelPc.holds : ShovelPc → Bool
  | .asking => true
  | .answered _ => true
  | _ => false

/-- The shovel is responsible for the entry of its topic. -/
def ShovelPc.engaged : ShovelPc → Bool
  | .reading => true
  | .wanting _ => true
  | .asking => true
  | .answered _ => true
  | _ => false

def ShovelPc.failed : ShovelPc → Bool
  | .failing => true
  | .panicked => true
  | _ => false

theorem getElem?_set_of {α : Type _} {l : List α} {i : Nat} {x : α} (h : l[i]? = some x) (a : α) (j : Nat) :
    (l.set i a)[j]? = if i = j then some a else l[j]? := by
  rw [List.getElem?_set]
  have := (List.getElem?_eq_some_iff.1 h).1
  simp [this]

theorem getElem?_snoc {α : Type _} (l : List α) (a : α) (j : Nat) :
    (l ++ [a])[j]? = if j = l.length then some a else l[j]? := by
  rw [List.getElem?_append]
  split
  · next h => rw [if_neg (by omega)]
  · next h =>
    split
    · next h' => subst h'; simp
    · next h' =>
      rw [List.getElem?_eq_none (by simp; omega), List.getElem?_eq_none (by omega)]

/-- How table, mutex, requests and shovels fit together. -/
structure HubShape (h : SubHub) : Prop where
  freeReq : h.locked = false → ∀ (i : Nat) (r : SubReq), h.reqs[i]? = some r → SubPc.holds r.pc = false
  freeShovel : h.locked = false → ∀ (k : Nat) (s : Shovel), h.shovels[k]? = some s → ShovelPc.holds s.pc = false
  oneReq : ∀ (i j : Nat) (r r' : SubReq), h.reqs[i]? = some r → h.reqs[j]? = some r' → SubPc.holds r.pc = true →
    SubPc.holds r'.pc = true → i = j
  oneShovel : ∀ (i j : Nat) (s s' : Shovel), h.shovels[i]? = some s → h.shovels[j]? = some s' → ShovelPc.holds s.pc = true →
    ShovelPc.holds s'.pc = true → i = j
  notBoth : ∀ (i k : Nat) (r : SubReq) (s : Shovel), h.reqs[i]? = some r → h.shovels[k]? = some s → SubPc.holds r.pc = true →
    ShovelPc.holds s.pc = true → False
  vacant : ∀ (i : Nat) (r : SubReq), h.reqs[i]? = some r → SubPc.holds r.pc = true → AMap.get h.table r.topic = none
  chanLt : ∀ (k : Nat) (s : Shovel), h.shovels[k]? = some s → s.chan < h.chans.length
  chanInj : ∀ (i j : Nat) (s s' : Shovel), h.shovels[i]? = some s → h.shovels[j]? = some s' → s.chan = s'.chan → i = j
  engaged : ∀ (k : Nat) (s : Shovel), h.shovels[k]? = some s → ShovelPc.engaged s.pc = true → AMap.get h.table s.topic = some s.chan
  entry : ∀ t c, AMap.get h.table t = some c → ∃ (k : Nat) (s : Shovel), h.shovels[k]? = some s ∧ s.topic = t ∧ s.chan = c ∧
    (ShovelPc.engaged s.pc = true ∨ ShovelPc.failed s.pc = true)
  hearing : ∀ (i : Nat) (r : SubReq) (c pos : Nat), h.reqs[i]? = some r → r.pc = .streaming c pos →
    AMap.get h.table r.topic = some c ∧ pos ≤ (h.sent c).length
  notClosed : ∀ (i : Nat) (r : SubReq), h.reqs[i]? = some r → r.pc ≠ .closed
  reachable : ∀ (k : Nat) (s : Shovel), h.shovels[k]? = some s → s.pc ≠ .unreachable

theorem HubShape.init : HubShape SubHub.init := by
  constructor <;> simp [SubHub.init, AMap.get]

theorem HubShape.ps {h : SubHub} (hs : HubShape h) (ps : PubSt) : HubShape { h with ps := ps } :=
  ⟨hs.freeReq, hs.freeShovel, hs.oneReq, hs.oneShovel, hs.notBoth, hs.vacant, hs.chanLt, hs.chanInj, hs.engaged,
    hs.entry, hs.hearing, hs.notClosed, hs.reachable⟩

theorem heard_false {h : SubHub} {c : Nat} (hc : h.heard c = false) {i : Nat} {r : SubReq} (hi : h.reqs[i]? = some r)
    (pos : Nat) : r.pc ≠ .streaming c pos := by
  intro hp
  have := List.mem_of_getElem? hi
  simp only [SubHub.heard, List.any_eq_false] at hc
  have := hc r this
  simp [SubReq.hears, hp] at this

theorem heard_true {h : SubHub} {c i : Nat} {r : SubReq} {pos : Nat} (hi : h.reqs[i]? = some r)
    (hp : r.pc = .streaming c pos) : h.heard c = true := by
  simp only [SubHub.heard, List.any_eq_true]
  exact ⟨r, List.mem_of_getElem? hi, by simp [SubReq.hears, hp]⟩

theorem holds_back {a b : Bool} (h : a = true → b = true) (hb : b = false) : a = false := by
  cases a with
  | true => rw [h rfl] at hb; cases hb
  | false => rfl

/-- A request changes, with nothing new held. -/
theorem HubShape.setReq {h : SubHub} (hs : HubShape h) {i : Nat} {r r' : SubReq} (hi : h.reqs[i]? = some r)
    (ht : r'.topic = r.topic) (hh : SubPc.holds r'.pc = true → SubPc.holds r.pc = true)
    (hr : ∀ c pos, r'.pc = .streaming c pos → AMap.get h.table r.topic = some c ∧ pos ≤ (h.sent c).length)
    (hc : r'.pc ≠ .closed) : HubShape (h.setReq i r') := by
  have hg := getElem?_set_of hi r'
  have old : ∀ (j : Nat) (x : SubReq), (h.reqs.set i r')[j]? = some x → SubPc.holds x.pc = true →
      ∃ y : SubReq, h.reqs[j]? = some y ∧ SubPc.holds y.pc = true ∧ y.topic = x.topic := by
    intro j x hj hx
    rw [hg] at hj
    split at hj
    · next e => cases hj; subst e; exact ⟨r, hi, hh hx, ht.symm⟩
    · exact ⟨x, hj, hx, rfl⟩
  refine ⟨?_, hs.freeShovel, ?_, hs.oneShovel, ?_, ?_, hs.chanLt, hs.chanInj, hs.engaged, hs.entry, ?_, ?_, hs.reachable⟩
  · intro hl j x hj
    cases hb : SubPc.holds x.pc with
    | false => rfl
    | true =>
      obtain ⟨y, hy, hyh, -⟩ := old j x hj hb
      rw [hs.freeReq hl j y hy] at hyh; cases hyh
  · intro a b x y ha hb hx hy
    obtain ⟨x', h1, h2, -⟩ := old a x ha hx
    obtain ⟨y', h3, h4, -⟩ := old b y hb hy
    exact hs.oneReq a b x' y' h1 h3 h2 h4
  · intro a k x s ha hk hx hy
    obtain ⟨x', h1, h2, -⟩ := old a x ha hx
    exact hs.notBoth a k x' s h1 hk h2 hy
  · intro a x ha hx
    obtain ⟨x', h1, h2, h3⟩ := old a x ha hx
    rw [← h3]; exact hs.vacant a x' h1 h2
  · intro a x c pos ha hx
    simp only [SubHub.setReq, hg] at ha
    split at ha
    · cases ha; rw [ht]; exact hr c pos hx
    · exact hs.hearing a x c pos ha hx
  · intro a x ha
    simp only [SubHub.setReq, hg] at ha
    split at ha
    · cases ha; exact hc
    · exact hs.notClosed a x ha

/-- A shovel changes, with nothing new held. -/
theorem HubShape.setShovel {h : SubHub} (hs : HubShape h) {k : Nat} {s s' : Shovel} (hi : h.shovels[k]? = some s)
    (ht : s'.topic = s.topic) (hc : s'.chan = s.chan) (hh : ShovelPc.holds s'.pc = true → ShovelPc.holds s.pc = true)
    (he : ShovelPc.engaged s'.pc = true → ShovelPc.engaged s.pc = true)
    (hn : ShovelPc.engaged s.pc = true ∨ ShovelPc.failed s.pc = true → ShovelPc.engaged s'.pc = true ∨ ShovelPc.failed s'.pc = true)
    (hu : s'.pc ≠ .unreachable) : HubShape (h.setShovel k s') := by
  have hg := getElem?_set_of hi s'
  have old : ∀ (j : Nat) (x : Shovel), (h.shovels.set k s')[j]? = some x →
      ∃ y : Shovel, h.shovels[j]? = some y ∧ (ShovelPc.holds x.pc = true → ShovelPc.holds y.pc = true) ∧ y.topic = x.topic ∧
        y.chan = x.chan ∧ (ShovelPc.engaged x.pc = true → ShovelPc.engaged y.pc = true) := by
    intro j x hj
    rw [hg] at hj
    split at hj
    · next e => cases hj; subst e; exact ⟨s, hi, hh, ht.symm, hc.symm, he⟩
    · exact ⟨x, hj, id, rfl, rfl, id⟩
  refine ⟨hs.freeReq, ?_, hs.oneReq, ?_, ?_, hs.vacant, ?_, ?_, ?_, ?_, hs.hearing, hs.notClosed, ?_⟩
  · intro hl j x hj
    obtain ⟨y, hy, hyh, -⟩ := old j x hj
    exact holds_back hyh (hs.freeShovel hl j y hy)
  · intro a b x y ha hb hx hy
    obtain ⟨x', h1, h2, -⟩ := old a x ha
    obtain ⟨y', h3, h4, -⟩ := old b y hb
    exact hs.oneShovel a b x' y' h1 h3 (h2 hx) (h4 hy)
  · intro a b x y ha hb hx hy
    obtain ⟨y', h1, h2, -⟩ := old b y hb
    exact hs.notBoth a b x y' ha h1 hx (h2 hy)
  · intro a x ha
    obtain ⟨x', h1, -, -, h2, -⟩ := old a x ha
    rw [← h2]; exact hs.chanLt a x' h1
  · intro a b x y ha hb hx
    obtain ⟨x', h1, -, -, h2, -⟩ := old a x ha
    obtain ⟨y', h3, -, -, h4, -⟩ := old b y hb
    exact hs.chanInj a b x' y' h1 h3 (by rw [h2, h4, hx])
  · intro a x ha hx
    obtain ⟨x', h1, -, h2, h3, h4⟩ := old a x ha
    rw [← h2, ← h3]; exact hs.engaged a x' h1 (h4 hx)
  · intro t c htc
    obtain ⟨j, y, h1, h2, h3, h4⟩ := hs.entry t c htc
    by_cases hjk : k = j
    · subst hjk
      rw [hi] at h1; cases h1
      exact ⟨k, s', by simp [SubHub.setShovel, hg], ht.trans h2, hc.trans h3, hn h4⟩
    · exact ⟨j, y, by simp [SubHub.setShovel, hg, hjk, h1], h2, h3, h4⟩
  · intro a x ha
    simp only [SubHub.setShovel, hg] at ha
    split at ha
    · cases ha; exact hu
    · exact hs.reachable a x ha

/-- The mutex is released by a request that held it. -/
theorem HubShape.releaseReq {h : SubHub} (hs : HubShape h) {i : Nat} {r r' : SubReq} (hi : h.reqs[i]? = some r)
    (hr : SubPc.holds r.pc = true) (hr' : SubPc.holds r'.pc = false) (ht : r'.topic = r.topic)
    (hp : ∀ c pos, r'.pc ≠ .streaming c pos) (hc : r'.pc ≠ .closed) :
    HubShape { h.setReq i r' with locked := false } := by
  have hg := getElem?_set_of hi r'
  have h1 := hs.setReq (r' := r') hi ht (fun hx => by rw [hr'] at hx; cases hx) (fun c pos hx => absurd hx (hp c pos)) hc
  refine ⟨fun _ j x hj => ?_, fun _ k s hk => ?_, h1.oneReq, h1.oneShovel, h1.notBoth, h1.vacant, h1.chanLt, h1.chanInj,
    h1.engaged, h1.entry, h1.hearing, h1.notClosed, h1.reachable⟩
  · simp only [SubHub.setReq, hg] at hj
    split at hj
    · cases hj; exact hr'
    · next hne =>
      cases hb : SubPc.holds x.pc with
      | false => rfl
      | true => exact absurd (hs.oneReq i j r x hi hj hr hb) hne
  · cases hb : ShovelPc.holds s.pc with
    | false => rfl
    | true => exact (hs.notBoth i k r s hi hk hr hb).elim

/-- The mutex is released by a shovel that held it. -/
theorem HubShape.releaseShovel {h : SubHub} (hs : HubShape h) {k : Nat} {s s' : Shovel} (hi : h.shovels[k]? = some s)
    (hr : ShovelPc.holds s.pc = true) (hr' : ShovelPc.holds s'.pc = false) (ht : s'.topic = s.topic) (hc : s'.chan = s.chan)
    (hp : s'.pc = .reading ∨ s'.pc = .failing) :
    HubShape { h.setShovel k s' with locked := false } := by
  have hg := getElem?_set_of hi s'
  have hen : ShovelPc.engaged s.pc = true := by
    cases hpc : s.pc <;> simp [hpc, ShovelPc.holds, ShovelPc.engaged] at hr ⊢
  have h1 := hs.setShovel (s' := s') hi ht hc (fun hx => by rw [hr'] at hx; cases hx) (fun _ => hen)
    (fun _ => by rcases hp with hp | hp <;> simp [hp, ShovelPc.engaged, ShovelPc.failed]) (by rcases hp with hp | hp <;> simp [hp])
  refine ⟨fun _ j x hj => ?_, fun _ j x hj => ?_, h1.oneReq, h1.oneShovel, h1.notBoth, h1.vacant, h1.chanLt, h1.chanInj,
    h1.engaged, h1.entry, h1.hearing, h1.notClosed, h1.reachable⟩
  · cases hb : SubPc.holds x.pc with
    | false => rfl
    | true => exact (hs.notBoth j k x s hj hi hb hr).elim
  · simp only [SubHub.setShovel, hg] at hj
    split at hj
    · cases hj; exact hr'
    · next hne =>
      cases hb : ShovelPc.holds x.pc with
      | false => rfl
      | true => exact absurd (hs.oneShovel k j s x hi hj hr hb) hne

theorem open_of_table {h : SubHub} {t : Topic} {c : Nat} (hg : AMap.get h.table t = some c) : h.open c = true := by
  simp only [SubHub.open, Bool.or_eq_true, List.any_eq_true]
  exact .inl ⟨_, AMap.mem_of_get hg, by simp⟩

theorem HubShape.goReq {h : SubHub} (hs : HubShape h) {i : Nat} {r : SubReq} (hi : h.reqs[i]? = some r) :
    HubShape (h.goReq i r) := by
  have hg := getElem?_set_of hi
  unfold SubHub.goReq
  cases hpc : r.pc with
  | waiting =>
    simp only
    cases hl : h.locked with
    | true => exact hs
    | false =>
      simp only [Bool.false_eq_true, if_false]
      cases ht : AMap.get h.table r.topic with
      | some c =>
        exact hs.setReq hi rfl (fun hx => by simp [SubPc.holds] at hx)
          (fun c' pos hx => by cases hx; exact ⟨ht, Nat.le_refl _⟩) (by simp)
      | none =>
        refine ⟨fun hx => (by cases hx), fun hx => (by cases hx), ?_, ?_, ?_, ?_, hs.chanLt, hs.chanInj, hs.engaged, hs.entry, ?_, ?_, hs.reachable⟩
        · intro a b x y ha hb hx hy
          simp only [SubHub.setReq, hg] at ha hb
          split at ha
          · split at hb
            · omega
            · rw [hs.freeReq hl b y hb] at hy; cases hy
          · rw [hs.freeReq hl a x ha] at hx; cases hx
        · intro a b x y ha hb hx hy
          rw [hs.freeShovel hl a x ha] at hx; cases hx
        · intro a b x y ha hb hx hy
          rw [hs.freeShovel hl b y hb] at hy; cases hy
        · intro a x ha hx
          simp only [SubHub.setReq, hg] at ha
          split at ha
          · cases ha; exact ht
          · rw [hs.freeReq hl a x ha] at hx; cases hx
        · intro a x c pos ha hx
          simp only [SubHub.setReq, hg] at ha
          split at ha
          · cases ha; cases hx
          · exact hs.hearing a x c pos ha hx
        · intro a x ha
          simp only [SubHub.setReq, hg] at ha
          split at ha
          · cases ha; simp
          · exact hs.notClosed a x ha
  | asking => exact hs
  | answered o =>
    have hh : SubPc.holds r.pc = true := by simp [hpc, SubPc.holds]
    cases o with
    | none => exact hs.releaseReq hi hh rfl rfl (by simp) (by simp)
    | some j =>
      have hv := hs.vacant i r hi hh
      have hsl : ∀ (k : Nat) (x : Shovel), (h.shovels ++ [⟨r.topic, j, h.chans.length, .reading⟩])[k]? = some x →
          (k = h.shovels.length ∧ x = ⟨r.topic, j, h.chans.length, .reading⟩) ∨ h.shovels[k]? = some x := by
        intro k x hk
        rw [getElem?_snoc] at hk
        split at hk
        · next e => cases hk; exact .inl ⟨e, rfl⟩
        · exact .inr hk
      have hrq : ∀ (a : Nat) (x : SubReq), (h.reqs.set i { r with pc := .streaming h.chans.length 0 })[a]? = some x →
          (a = i ∧ x = { r with pc := .streaming h.chans.length 0 }) ∨ (a ≠ i ∧ h.reqs[a]? = some x ∧ SubPc.holds x.pc = false) := by
        intro a x ha
        rw [hg] at ha
        split at ha
        · next e => cases ha; exact .inl ⟨e.symm, rfl⟩
        · next e =>
          refine .inr ⟨fun hx => e hx.symm, ha, ?_⟩
          cases hb : SubPc.holds x.pc with
          | false => rfl
          | true => exact absurd (hs.oneReq i a r x hi ha hh hb) e
      have hnh : ∀ (k : Nat) (x : Shovel), (h.shovels ++ [⟨r.topic, j, h.chans.length, .reading⟩])[k]? = some x →
          ShovelPc.holds x.pc = false := by
        intro k x hk
        rcases hsl k x hk with ⟨-, rfl⟩ | hk
        · rfl
        · cases hb : ShovelPc.holds x.pc with
          | false => rfl
          | true => exact (hs.notBoth i k r x hi hk hh hb).elim
      have hne : ∀ (k : Nat) (x : Shovel), h.shovels[k]? = some x → ShovelPc.engaged x.pc = true → x.topic ≠ r.topic := by
        intro k x hk hx he
        have := hs.engaged k x hk hx
        rw [he, hv] at this; cases this
      refine ⟨fun _ a x ha => ?_, fun _ k x hk => hnh k x hk, ?_, ?_, ?_, ?_, ?_, ?_, ?_, ?_, ?_, ?_, ?_⟩
      · rcases hrq a x ha with ⟨-, rfl⟩ | ⟨-, -, h2⟩
        · rfl
        · exact h2
      · intro a b x y ha hb hx hy
        rcases hrq a x ha with ⟨-, rfl⟩ | ⟨-, -, h2⟩
        · cases hx
        · rw [h2] at hx; cases hx
      · intro a b x y ha hb hx hy
        rw [hnh a x ha] at hx; cases hx
      · intro a b x y ha hb hx hy
        rw [hnh b y hb] at hy; cases hy
      · intro a x ha hx
        rcases hrq a x ha with ⟨-, rfl⟩ | ⟨-, -, h2⟩
        · cases hx
        · rw [h2] at hx; cases hx
      · intro k x hk
        simp only [List.length_append, List.length_cons, List.length_nil]
        rcases hsl k x hk with ⟨-, rfl⟩ | hk
        · simp
        · have := hs.chanLt k x hk; omega
      · intro a b x y ha hb hx
        rcases hsl a x ha with ⟨ea, rfl⟩ | ha
        · rcases hsl b y hb with ⟨eb, rfl⟩ | hb
          · omega
          · have := hs.chanLt b y hb; simp only at hx; omega
        · rcases hsl b y hb with ⟨eb, rfl⟩ | hb
          · have := hs.chanLt a x ha; simp only at hx; omega
          · exact hs.chanInj a b x y ha hb hx
      · intro k x hk hx
        rcases hsl k x hk with ⟨-, rfl⟩ | hk
        · exact AMap.get_set_eq _ _ _
        · simp only [AMap.get_set_ne _ _ (hne k x hk hx)]; exact hs.engaged k x hk hx
      · intro t c htc
        simp only [AMap.get_set] at htc
        split at htc
        · next e =>
          cases htc
          exact ⟨h.shovels.length, ⟨r.topic, j, h.chans.length, .reading⟩, by simp, e.symm, rfl, .inl rfl⟩
        · obtain ⟨k, x, h1, h2⟩ := hs.entry t c htc
          refine ⟨k, x, ?_, h2⟩
          simp only
          rw [List.getElem?_append_left (List.getElem?_eq_some_iff.1 h1).1]; exact h1
      · intro a x c pos ha hx
        rcases hrq a x ha with ⟨-, rfl⟩ | ⟨-, ha, -⟩
        · cases hx
          exact ⟨AMap.get_set_eq _ _ _, Nat.zero_le _⟩
        · obtain ⟨h1, h2⟩ := hs.hearing a x c pos ha hx
          have hne' : x.topic ≠ r.topic := fun e => by rw [e, hv] at h1; cases h1
          refine ⟨by simp only [AMap.get_set_ne _ _ hne']; exact h1, ?_⟩
          obtain ⟨k, s, h3, -, h4, -⟩ := hs.entry _ _ h1
          have := hs.chanLt k s h3
          simp only [SubHub.sent]
          rw [List.getElem?_append_left (by omega)]
          exact h2
      · intro a x ha
        rcases hrq a x ha with ⟨-, rfl⟩ | ⟨-, ha, -⟩
        · simp
        · exact hs.notClosed a x ha
      · intro k x hk
        rcases hsl k x hk with ⟨-, rfl⟩ | hk
        · simp
        · exact hs.reachable k x hk
  | streaming c pos =>
    obtain ⟨h1, h2⟩ := hs.hearing i r c pos hi hpc
    simp only [SubHub.recv]
    split
    · exact hs.setReq hi rfl (fun hx => by cases hx) (fun c pos hx => by cases hx) (by simp)
    · cases hm : (h.sent c)[pos]? with
      | some m =>
        refine hs.setReq hi rfl (fun hx => by cases hx) (fun c' pos' hx => ?_) (by simp)
        cases hx
        exact ⟨h1, (List.getElem?_eq_some_iff.1 hm).1⟩
      | none => simp only [open_of_table h1, if_true]; exact hs
  | _ => exact hs

theorem HubShape.answerReq {h : SubHub} (hs : HubShape h) {i : Nat} {r : SubReq} (hi : h.reqs[i]? = some r) :
    HubShape (h.answerReq i r) := by
  unfold SubHub.answerReq
  cases hpc : r.pc with
  | asking =>
    exact (hs.setReq (r' := { r with pc := .answered (pubAsk h.ps r.topic).2 }) hi rfl (fun _ => by simp [hpc, SubPc.holds]) (fun c pos hx => by cases hx) (by simp)).ps _
  | goneAsking =>
    simp only
    split <;> exact (hs.setReq (r' := { r with pc := .gone }) hi rfl (fun hx => by cases hx) (fun c pos hx => by cases hx) (by simp)).ps _
  | _ => exact hs

theorem HubShape.hangUp {h : SubHub} (hs : HubShape h) {i : Nat} {r : SubReq} (hi : h.reqs[i]? = some r) :
    HubShape (h.hangUp i r) := by
  unfold SubHub.hangUp
  cases hpc : r.pc with
  | asking => exact hs.releaseReq hi (by simp [hpc, SubPc.holds]) rfl rfl (by simp) (by simp)
  | answered o =>
    cases o with
    | none => exact hs.releaseReq hi (by simp [hpc, SubPc.holds]) rfl rfl (by simp) (by simp)
    | some j => exact (hs.releaseReq (r' := { r with pc := .gone }) hi (by simp [hpc, SubPc.holds]) rfl rfl (by simp) (by simp)).ps _
  | waiting => exact hs.setReq hi rfl (fun hx => by cases hx) (fun c pos hx => by cases hx) (by simp)
  | streaming c pos => exact hs.setReq hi rfl (fun hx => by cases hx) (fun c pos hx => by cases hx) (by simp)
  | _ => exact hs

theorem HubShape.shovelSend {h : SubHub} (hs : HubShape h) {k : Nat} {s : Shovel} (hk : h.shovels[k]? = some s)
    (hpc : s.pc = .reading) (m : PubMsg) : HubShape (h.shovelSend k s m) := by
  unfold SubHub.shovelSend
  split
  · refine ⟨hs.freeReq, hs.freeShovel, hs.oneReq, hs.oneShovel, hs.notBoth, hs.vacant, by simpa using hs.chanLt, hs.chanInj, hs.engaged, hs.entry, ?_, hs.notClosed, hs.reachable⟩
    intro a x c pos ha hx
    obtain ⟨h1, h2⟩ := hs.hearing a x c pos ha hx
    refine ⟨h1, ?_⟩
    have hlt := hs.chanLt k s hk
    simp only [SubHub.sent, List.getElem?_set]
    by_cases hc : s.chan = c
    · subst hc
      simp only [hlt, if_true, Option.getD_some, List.length_append]
      simp only [SubHub.sent] at h2
      omega
    · simp only [hc, if_false]; exact h2
  · exact hs.setShovel hk rfl rfl (fun hx => by cases hx) (fun _ => by simp [hpc, ShovelPc.engaged]) (fun _ => .inl rfl) (by simp)

theorem HubShape.shovelLocked {h : SubHub} (hs : HubShape h) {k : Nat} {s : Shovel} (hk : h.shovels[k]? = some s) {u : Bool}
    (hpc : s.pc = .wanting u) (hl : h.locked = false) : HubShape (h.shovelLocked k s u) := by
  have hg := getElem?_set_of hk
  have hen : ShovelPc.engaged s.pc = true := by simp [hpc, ShovelPc.engaged]
  have ht := hs.engaged k s hk hen
  unfold SubHub.shovelLocked
  simp only [ht]
  cases hh : h.heard s.chan with
  | true =>
    cases u with
    | false =>
      simp only [if_true, Bool.false_eq_true, if_false]
      exact hs.setShovel hk rfl rfl (fun hx => by cases hx) (fun _ => hen) (fun _ => .inl rfl) (by simp)
    | true =>
      simp only [if_true]
      have hsl : ∀ (a : Nat) (x : Shovel), (h.shovels.set k { s with pc := .asking })[a]? = some x →
          (a = k ∧ x = { s with pc := .asking }) ∨ (h.shovels[a]? = some x ∧ ShovelPc.holds x.pc = false) := by
        intro a x ha
        rw [hg] at ha
        split at ha
        · next e => cases ha; exact .inl ⟨e.symm, rfl⟩
        · exact .inr ⟨ha, hs.freeShovel hl a x ha⟩
      refine ⟨fun hx => (by cases hx), fun hx => (by cases hx), hs.oneReq, ?_, ?_, hs.vacant, ?_, ?_, ?_, ?_, hs.hearing, hs.notClosed, ?_⟩
      · intro a b x y ha hb hx hy
        rcases hsl a x ha with ⟨ea, -⟩ | ⟨-, h2⟩
        · rcases hsl b y hb with ⟨eb, -⟩ | ⟨-, h3⟩
          · omega
          · rw [h3] at hy; cases hy
        · rw [h2] at hx; cases hx
      · intro a b x y ha hb hx hy
        rw [hs.freeReq hl a x ha] at hx; cases hx
      · intro a x ha
        rcases hsl a x ha with ⟨-, rfl⟩ | ⟨ha, -⟩
        · exact hs.chanLt k s hk
        · exact hs.chanLt a x ha
      · intro a b x y ha hb hx
        rcases hsl a x ha with ⟨rfl, rfl⟩ | ⟨ha', -⟩
        · rcases hsl b y hb with ⟨rfl, -⟩ | ⟨hb', -⟩
          · rfl
          · exact hs.chanInj _ _ _ _ hk hb' hx
        · rcases hsl b y hb with ⟨rfl, rfl⟩ | ⟨hb', -⟩
          · exact hs.chanInj _ _ _ _ ha' hk hx
          · exact hs.chanInj _ _ _ _ ha' hb' hx
      · intro a x ha hx
        rcases hsl a x ha with ⟨-, rfl⟩ | ⟨ha, -⟩
        · exact ht
        · exact hs.engaged a x ha hx
      · intro t c htc
        obtain ⟨j, y, h1, h2, h3, h4⟩ := hs.entry t c htc
        by_cases hjk : k = j
        · subst hjk
          rw [hk] at h1; cases h1
          exact ⟨k, { s with pc := .asking }, by simp [SubHub.setShovel, hg], h2, h3, .inl rfl⟩
        · exact ⟨j, y, by simp [SubHub.setShovel, hg, hjk, h1], h2, h3, h4⟩
      · intro a x ha
        rcases hsl a x ha with ⟨-, rfl⟩ | ⟨ha, -⟩
        · simp
        · exact hs.reachable a x ha
  | false =>
    simp only [Bool.false_eq_true, if_false]
    have hsl : ∀ (a : Nat) (x : Shovel), (h.shovels.set k { s with pc := .leaving })[a]? = some x →
        (a = k ∧ x = { s with pc := .leaving }) ∨ (a ≠ k ∧ h.shovels[a]? = some x) := by
      intro a x ha
      rw [hg] at ha
      split at ha
      · next e => cases ha; exact .inl ⟨e.symm, rfl⟩
      · next e => exact .inr ⟨fun hx => e hx.symm, ha⟩
    refine ⟨fun _ => hs.freeReq hl, ?_, hs.oneReq, ?_, ?_, ?_, ?_, ?_, ?_, ?_, ?_, hs.notClosed, ?_⟩
    · intro _ a x ha
      rcases hsl a x ha with ⟨-, rfl⟩ | ⟨-, ha⟩
      · rfl
      · exact hs.freeShovel hl a x ha
    · intro a b x y ha hb hx hy
      rcases hsl a x ha with ⟨-, rfl⟩ | ⟨-, ha⟩
      · cases hx
      · rw [hs.freeShovel hl a x ha] at hx; cases hx
    · intro a b x y ha hb hx hy
      rw [hs.freeReq hl a x ha] at hx; cases hx
    · intro a x ha hx
      rw [hs.freeReq hl a x ha] at hx; cases hx
    · intro a x ha
      rcases hsl a x ha with ⟨-, rfl⟩ | ⟨-, ha⟩
      · exact hs.chanLt k s hk
      · exact hs.chanLt a x ha
    · intro a b x y ha hb hx
      rcases hsl a x ha with ⟨rfl, rfl⟩ | ⟨-, ha'⟩
      · rcases hsl b y hb with ⟨rfl, -⟩ | ⟨-, hb'⟩
        · rfl
        · exact hs.chanInj _ _ _ _ hk hb' hx
      · rcases hsl b y hb with ⟨rfl, rfl⟩ | ⟨-, hb'⟩
        · exact hs.chanInj _ _ _ _ ha' hk hx
        · exact hs.chanInj _ _ _ _ ha' hb' hx
    · intro a x ha hx
      rcases hsl a x ha with ⟨-, rfl⟩ | ⟨hne, ha⟩
      · cases hx
      · have h1 := hs.engaged a x ha hx
        have : x.topic ≠ s.topic := fun e => by
          rw [e, ht] at h1
          exact hne (hs.chanInj a k x s ha hk (by injection h1 with h1; exact h1.symm))
        simp only [AMap.get_erase_ne _ this]; exact h1
    · intro t c htc
      simp only [AMap.get_erase] at htc
      split at htc
      · cases htc
      · next hts =>
        obtain ⟨j, y, h1, h2, h3, h4⟩ := hs.entry t c htc
        have hjk : k ≠ j := by
          rintro rfl
          rw [hk] at h1; cases h1
          exact hts h2.symm
        exact ⟨j, y, by simp [SubHub.setShovel, hg, hjk, h1], h2, h3, h4⟩
    · intro a x c pos ha hx
      obtain ⟨h1, h2⟩ := hs.hearing a x c pos ha hx
      have : x.topic ≠ s.topic := fun e => by
        rw [e, ht] at h1
        cases h1
        exact heard_false hh ha pos hx
      exact ⟨by simp only [AMap.get_erase_ne _ this]; exact h1, h2⟩
    · intro a x ha
      rcases hsl a x ha with ⟨-, rfl⟩ | ⟨-, ha⟩
      · simp
      · exact hs.reachable a x ha

theorem HubShape.goShovel {h : SubHub} (hs : HubShape h) {k : Nat} {s : Shovel} (hk : h.shovels[k]? = some s) :
    HubShape (h.goShovel k s) := by
  unfold SubHub.goShovel
  cases hpc : s.pc with
  | reading =>
    simp only
    have hw := (hs.setShovel (s' := { s with pc := .wanting true }) hk rfl rfl (fun hx => by cases hx)
      (fun _ => by simp [hpc, ShovelPc.engaged]) (fun _ => .inl rfl) (by simp)).ps (pubAfter h.ps (.readStream s.stream))
    cases (h.ps.readStream s.stream).2 with
    | item m => exact (hs.ps (pubAfter h.ps (.readStream s.stream))).shovelSend hk hpc m
    | pending => exact hs
    | ended => exact hw
    | noStream => exact hw
  | wanting u =>
    simp only
    cases hl : h.locked with
    | true => exact hs
    | false => exact hs.shovelLocked hk hpc hl
  | answered o =>
    have hh : ShovelPc.holds s.pc = true := by simp [hpc, ShovelPc.holds]
    cases o with
    | some j => exact (hs.releaseShovel (s' := { s with stream := j, pc := .reading }) hk hh rfl rfl rfl (.inl rfl)).ps _
    | none => exact hs.releaseShovel hk hh rfl rfl rfl (.inr rfl)
  | leaving =>
    exact (hs.setShovel (s' := { s with pc := .gone }) hk rfl rfl (fun hx => by cases hx) (fun hx => by cases hx)
      (fun hx => by simp [hpc, ShovelPc.engaged, ShovelPc.failed] at hx) (by simp)).ps _
  | failing =>
    exact (hs.setShovel (s' := { s with pc := .panicked }) hk rfl rfl (fun hx => by cases hx) (fun hx => by cases hx)
      (fun _ => .inr rfl) (by simp)).ps _
  | _ => exact hs

theorem HubShape.answerShovel {h : SubHub} (hs : HubShape h) {k : Nat} {s : Shovel} (hk : h.shovels[k]? = some s) :
    HubShape (h.answerShovel k s) := by
  unfold SubHub.answerShovel
  cases hpc : s.pc with
  | asking =>
    exact (hs.setShovel (s' := { s with pc := .answered (pubAsk h.ps s.topic).2 }) hk rfl rfl (fun _ => by simp [hpc, ShovelPc.holds])
      (fun _ => by simp [hpc, ShovelPc.engaged]) (fun _ => .inl rfl) (by simp)).ps _
  | _ => exact hs

theorem HubShape.timeout {h : SubHub} (hs : HubShape h) {k : Nat} {s : Shovel} (hk : h.shovels[k]? = some s) :
    HubShape (h.timeout k s) := by
  unfold SubHub.timeout
  cases hpc : s.pc with
  | reading =>
    simp only
    split
    · exact hs.setShovel hk rfl rfl (fun hx => by cases hx) (fun _ => by simp [hpc, ShovelPc.engaged]) (fun _ => .inl rfl) (by simp)
    · exact hs
  | _ => exact hs

theorem HubShape.step {h : SubHub} (hs : HubShape h) (op : SubOp) : HubShape (h.step op) := by
  have onR : ∀ (i : Nat) (f : SubReq → SubHub), (∀ r, h.reqs[i]? = some r → HubShape (f r)) → HubShape (h.onReq i f) := by
    intro i f hf
    unfold SubHub.onReq
    cases hi : h.reqs[i]? with
    | none => exact hs
    | some r => exact hf r hi
  have onS : ∀ (i : Nat) (f : Shovel → SubHub), (∀ r, h.shovels[i]? = some r → HubShape (f r)) → HubShape (h.onShovel i f) := by
    intro i f hf
    unfold SubHub.onShovel
    cases hi : h.shovels[i]? with
    | none => exact hs
    | some r => exact hf r hi
  cases op with
  | request t =>
    have hg := getElem?_snoc h.reqs ⟨t, .waiting, []⟩
    have old : ∀ (a : Nat) (x : SubReq), (h.reqs ++ [⟨t, .waiting, []⟩])[a]? = some x → x = ⟨t, .waiting, []⟩ ∨ h.reqs[a]? = some x := by
      intro a x ha
      rw [hg] at ha
      split at ha
      · cases ha; exact .inl rfl
      · exact .inr ha
    refine ⟨?_, hs.freeShovel, ?_, hs.oneShovel, ?_, ?_, hs.chanLt, hs.chanInj, hs.engaged, hs.entry, ?_, ?_, hs.reachable⟩
    · intro hl a x ha
      rcases old a x ha with rfl | ha
      · rfl
      · exact hs.freeReq hl a x ha
    · intro a b x y ha hb hx hy
      rcases old a x ha with rfl | ha
      · cases hx
      · rcases old b y hb with rfl | hb
        · cases hy
        · exact hs.oneReq a b x y ha hb hx hy
    · intro a b x y ha hb hx hy
      rcases old a x ha with rfl | ha
      · cases hx
      · exact hs.notBoth a b x y ha hb hx hy
    · intro a x ha hx
      rcases old a x ha with rfl | ha
      · cases hx
      · exact hs.vacant a x ha hx
    · intro a x c pos ha hx
      rcases old a x ha with rfl | ha
      · cases hx
      · exact hs.hearing a x c pos ha hx
    · intro a x ha
      rcases old a x ha with rfl | ha
      · simp
      · exact hs.notClosed a x ha
  | goReq i => exact onR i _ (fun r hr => hs.goReq hr)
  | answerReq i => exact onR i _ (fun r hr => hs.answerReq hr)
  | hangUp i => exact onR i _ (fun r hr => hs.hangUp hr)
  | goShovel k => exact onS k _ (fun r hr => hs.goShovel hr)
  | answerShovel k => exact onS k _ (fun r hr => hs.answerShovel hr)
  | timeout k => exact onS k _ (fun r hr => hs.timeout hr)
  | node op =>
    simp only [SubHub.step]
    split
    · exact hs.ps _
    · exact hs

/-! ### Who has which stream -/

inductive StreamOwner where
  | shovel (k : Nat)
  | next (k : Nat)
  | req (i : Nat)
deriving DecidableEq

def Owns (h : SubHub) : StreamOwner → Nat → Topic → Prop
  | .shovel k, i, t => ∃ s : Shovel, h.shovels[k]? = some s ∧ s.pc.lives = true ∧ s.stream = i ∧ s.topic = t
  | .next k, i, t => ∃ s : Shovel, h.shovels[k]? = some s ∧ s.pc = .answered (some i) ∧ s.topic = t
  | .req a, i, t => ∃ r : SubReq, h.reqs[a]? = some r ∧ r.pc = .answered (some i) ∧ r.topic = t

structure HubStreams (h : SubHub) : Prop where
  pub : PubInv h.ps
  alive : ∀ (o : StreamOwner) (i : Nat) (t : Topic), Owns h o i t →
    ∃ st : PubStream, h.ps.made[i]? = some st ∧ st.topic = t ∧ st.alive = true
  inj : ∀ (o o' : StreamOwner) (i : Nat) (t t' : Topic), Owns h o i t → Owns h o' i t' → o = o'
  owned : ∀ (i : Nat) (st : PubStream), h.ps.made[i]? = some st → st.alive = true → ∃ o, Owns h o i st.topic
  stale : ∀ (k j : Nat) (s : Shovel), h.shovels[k]? = some s → s.pc = .answered (some j) →
    AMap.get h.ps.streams s.topic ≠ some s.stream

theorem HubStreams.init : HubStreams SubHub.init := by
  refine ⟨PubInv.init, ?_, ?_, ?_, ?_⟩
  · intro o i t ho; cases o <;> simp [Owns, SubHub.init] at ho
  · intro o o' i t t' ho; cases o <;> simp [Owns, SubHub.init] at ho
  · intro i st hi; simp [SubHub.init, PubSt.init] at hi
  · intro k j s hk; simp [SubHub.init] at hk

theorem pubAfter_spec {s : PubSt} (h : PubInv s) (op : PubOp) :
    ∃ a, s.step op = .ok (pubAfter s op, a) ∧ PubStep s op (pubAfter s op) a := by
  obtain ⟨s', a, h1, h2⟩ := pub_step h op
  have : pubAfter s op = s' := by simp [pubAfter, h1]
  rw [this]
  exact ⟨a, h1, h2⟩

theorem pub_length {s s' : PubSt} (h : PubInv s) {op : PubOp} {a : PubAns} (hs : s.step op = .ok (s', a))
    (hop : ∀ t, op ≠ .subscribe t) : s'.made.length = s.made.length := by
  cases op with
  | subscribe t => exact absurd rfl (hop t)
  | unsubscribe t =>
    obtain ⟨x, b, h1, -, -, h2, -⟩ := unsubscribe_spec h.core t
    simp only [PubSt.step, h1, Except.map] at hs
    cases hs; rw [h2]
  | dropStream i =>
    cases hs
    unfold PubSt.dropStream
    split
    · rfl
    · split <;> simp
  | readStream i =>
    cases hs
    unfold PubSt.readStream
    split
    · rfl
    · split
      · split
        · simp
        · split <;> simp
      · rfl
  | addNode p => cases hs; rfl
  | removeNode p => cases hs; rfl
  | arrive e => cases hs; rfl
  | drain =>
    simp only [PubSt.step] at hs
    split at hs
    · cases hs; rfl
    · next t ts hd =>
      have hcore : PubCore { s with drops := ts } := ⟨h.core.nodup, h.core.same, h.core.owner⟩
      obtain ⟨x, b, h1, -, -, h2, -⟩ := unsubscribe_spec hcore t
      simp only [h1, Except.map] at hs
      cases hs; rw [h2]
  | serve =>
    simp only [PubSt.step] at hs
    split at hs
    · cases hs; rfl
    · next e q hq =>
      have hcore : PubCore { s with queue := q } := ⟨h.core.nodup, h.core.same, h.core.owner⟩
      cases e with
      | action n => cases hs; rfl
      | subscribed p t => cases hs; rfl
      | unsubscribed p t =>
        cases hs
        unfold PubSt.peerUnsubscribed
        split
        · rfl
        · simp only; split <;> rfl
      | message m =>
        obtain ⟨x, h1, -, -, h2, -⟩ := sendAll_spec m m.topics hcore
        simp only [PubSt.handle, h1, Except.map] at hs
        cases hs; exact h2

/-- The streams after a step that makes and drops none. -/
theorem pub_back {s s' : PubSt} (h : PubInv s) {op : PubOp} {a : PubAns} (hs : s.step op = .ok (s', a))
    (hst : PubStep s op s' a) (hop : ∀ t, op ≠ .subscribe t) (i : Nat) (st' : PubStream) (hi : s'.made[i]? = some st') :
    ∃ st : PubStream, s.made[i]? = some st ∧ st'.topic = st.topic ∧ (st'.alive = true ↔ st.alive = true ∧ op ≠ .dropStream i) ∧
      (AMap.get s'.streams st.topic = some i → AMap.get s.streams st.topic = some i) := by
  have hl := pub_length h hs hop
  have hlt := (List.getElem?_eq_some_iff.1 hi).1
  obtain ⟨st, h0⟩ : ∃ st, s.made[i]? = some st := ⟨_, List.getElem?_eq_getElem (hl ▸ hlt)⟩
  obtain ⟨x, h1, h2, h3, -, h5, -⟩ := hst.stream i st h0
  rw [hi] at h1; cases h1
  exact ⟨st, h0, h2, h3, h5⟩

theorem pubAsk_none {s : PubSt} {t : Topic} {i : Nat} (hg : AMap.get s.streams t = some i) : pubAsk s t = (s, none) := by
  simp [pubAsk, PubSt.subscribe, hg]

/-- The node after a successful `subscribe`. -/
def pubWith (s : PubSt) (t : Topic) : PubSt :=
  { s with topics := s.topics ++ [t], streams := AMap.set s.streams t s.made.length, made := s.made ++ [⟨t, true, true, []⟩] }

theorem pubAsk_some {s : PubSt} (h : PubInv s) {t : Topic} (hg : AMap.get s.streams t = none) :
    pubAsk s t = (pubWith s t, some s.made.length) ∧ PubInv (pubWith s t) := by
  have hm : t ∉ s.topics := by rw [h.core.same t]; simp [hg]
  have h1 : s.subscribe t = .ok (pubWith s t, some s.made.length) := by simp [PubSt.subscribe, hg, floodSubscribe, hm, pubWith]
  refine ⟨by simp [pubAsk, h1], ?_⟩
  obtain ⟨s', a, h2, h3⟩ := pub_step h (.subscribe t)
  simp only [PubSt.step, h1, Except.map] at h2
  cases h2
  exact h3.inv

/-- The same owners, the node after a step that makes and drops no stream. -/
theorem HubStreams.keep {h h' : SubHub} (hs : HubStreams h) (ho : ∀ o i t, Owns h' o i t ↔ Owns h o i t)
    (hk : ∀ (k j : Nat) (s : Shovel), h'.shovels[k]? = some s → s.pc = .answered (some j) → h.shovels[k]? = some s)
    (hp : h'.ps = h.ps ∨ ∃ op a, (∀ t, op ≠ .subscribe t) ∧ (∀ i, op ≠ .dropStream i) ∧
      h.ps.step op = .ok (h'.ps, a) ∧ PubStep h.ps op h'.ps a) : HubStreams h' := by
  rcases hp with hp | ⟨op, a, h1, h2, h3, h4⟩
  · refine ⟨hp ▸ hs.pub, ?_, ?_, ?_, ?_⟩
    · intro o i t hx; rw [hp]; exact hs.alive o i t ((ho o i t).1 hx)
    · intro o o' i t t' hx hy; exact hs.inj o o' i t t' ((ho _ _ _).1 hx) ((ho _ _ _).1 hy)
    · intro i st hi ha
      rw [hp] at hi
      obtain ⟨o, hx⟩ := hs.owned i st hi ha
      exact ⟨o, (ho _ _ _).2 hx⟩
    · intro k j s hx hy; rw [hp]; exact hs.stale k j s (hk k j s hx hy) hy
  · refine ⟨h4.inv, ?_, ?_, ?_, ?_⟩
    · intro o i t hx
      obtain ⟨st, a1, a2, a3⟩ := hs.alive o i t ((ho o i t).1 hx)
      obtain ⟨st', b1, b2, b3, -⟩ := h4.stream i st a1
      exact ⟨st', b1, b2.trans a2, b3.2 ⟨a3, h2 i⟩⟩
    · intro o o' i t t' hx hy; exact hs.inj o o' i t t' ((ho _ _ _).1 hx) ((ho _ _ _).1 hy)
    · intro i st hi ha
      obtain ⟨st0, a1, a2, a3, -⟩ := pub_back hs.pub h3 h4 h1 i st hi
      obtain ⟨o, hx⟩ := hs.owned i st0 a1 (a3.1 ha).1
      exact ⟨o, (ho _ _ _).2 (a2 ▸ hx)⟩
    · intro k j s hx hy hz
      have hx' := hk k j s hx hy
      obtain ⟨st, a1, a2, a3⟩ := hs.alive (.shovel k) s.stream s.topic ⟨s, hx', by rw [hy]; rfl, rfl, rfl⟩
      obtain ⟨st', b1, b2, b3, -, b5, -⟩ := h4.stream _ st a1
      rw [a2] at b5
      exact hs.stale k j s hx' hy (b5 hz)

/-- A new stream and its owner. -/
theorem HubStreams.gain {h h' : SubHub} (hs : HubStreams h) (o0 : StreamOwner) (t0 : Topic)
    (hg : AMap.get h.ps.streams t0 = none) (hp : h'.ps = pubWith h.ps t0)
    (ho : ∀ o i t, Owns h' o i t ↔ Owns h o i t ∨ (o = o0 ∧ i = h.ps.made.length ∧ t = t0))
    (hk : ∀ (k j : Nat) (s : Shovel), h'.shovels[k]? = some s → s.pc = .answered (some j) →
      AMap.get h'.ps.streams s.topic ≠ some s.stream) : HubStreams h' := by
  have hlt : ∀ o i t, Owns h o i t → i < h.ps.made.length := by
    intro o i t hx
    obtain ⟨st, a1, -⟩ := hs.alive o i t hx
    exact (List.getElem?_eq_some_iff.1 a1).1
  refine ⟨hp ▸ (pubAsk_some hs.pub hg).2, ?_, ?_, ?_, hk⟩
  · intro o i t hx
    rcases (ho o i t).1 hx with hx | ⟨rfl, rfl, rfl⟩
    · obtain ⟨st, a1, a2⟩ := hs.alive o i t hx
      exact ⟨st, by simp only [hp, pubWith]; rw [List.getElem?_append_left (hlt o i t hx)]; exact a1, a2⟩
    · exact ⟨⟨t, true, true, []⟩, by simp [hp, pubWith], rfl, rfl⟩
  · intro o o' i t t' hx hy
    rcases (ho _ _ _).1 hx with hx | ⟨rfl, e1, rfl⟩
    · rcases (ho _ _ _).1 hy with hy | ⟨rfl, e2, rfl⟩
      · exact hs.inj o o' i t t' hx hy
      · have := hlt o i t hx; omega
    · rcases (ho _ _ _).1 hy with hy | ⟨rfl, e2, rfl⟩
      · have := hlt o' i t' hy; omega
      · rfl
  · intro i st hi ha
    simp only [hp, pubWith, getElem?_snoc] at hi
    split at hi
    · next e =>
      cases hi
      exact ⟨o0, (ho _ _ _).2 (.inr ⟨rfl, e, rfl⟩)⟩
    · obtain ⟨o, hx⟩ := hs.owned i st hi ha
      exact ⟨o, (ho _ _ _).2 (.inl hx)⟩

/-- An owner drops its stream. -/
theorem HubStreams.lose {h h' : SubHub} (hs : HubStreams h) (o0 : StreamOwner) (i0 : Nat) (t0 : Topic)
    (h0 : Owns h o0 i0 t0) (hp : h'.ps = pubAfter h.ps (.dropStream i0))
    (ho : ∀ o i t, Owns h' o i t ↔ Owns h o i t ∧ o ≠ o0)
    (hk : ∀ (k j : Nat) (s : Shovel), h'.shovels[k]? = some s → s.pc = .answered (some j) → h.shovels[k]? = some s) :
    HubStreams h' := by
  obtain ⟨a, h3, h4⟩ := pubAfter_spec hs.pub (.dropStream i0)
  rw [← hp] at h3 h4
  have hne : ∀ o i t, Owns h' o i t → i ≠ i0 := by
    rintro o i t hx rfl
    obtain ⟨hy, hz⟩ := (ho o i t).1 hx
    exact hz (hs.inj _ _ _ _ _ hy h0)
  refine ⟨h4.inv, ?_, ?_, ?_, ?_⟩
  · intro o i t hx
    obtain ⟨st, a1, a2, a3⟩ := hs.alive o i t ((ho o i t).1 hx).1
    obtain ⟨st', b1, b2, b3, -⟩ := h4.stream i st a1
    exact ⟨st', b1, b2.trans a2, b3.2 ⟨a3, fun e => hne o i t hx (by cases e; rfl)⟩⟩
  · intro o o' i t t' hx hy; exact hs.inj o o' i t t' ((ho _ _ _).1 hx).1 ((ho _ _ _).1 hy).1
  · intro i st hi ha
    obtain ⟨st0, a1, a2, a3, -⟩ := pub_back hs.pub h3 h4 (by simp) i st hi
    obtain ⟨b1, b2⟩ := a3.1 ha
    obtain ⟨o, hx⟩ := hs.owned i st0 a1 b1
    refine ⟨o, (ho _ _ _).2 ⟨a2 ▸ hx, ?_⟩⟩
    rintro rfl
    have : i = i0 := by
      cases o with
      | shovel k =>
        obtain ⟨s, c1, c2, c3, -⟩ := hx
        obtain ⟨s', d1, d2, d3, -⟩ := h0
        rw [c1] at d1; cases d1; rw [← c3, ← d3]
      | next k =>
        obtain ⟨s, c1, c2, -⟩ := hx
        obtain ⟨s', d1, d2, -⟩ := h0
        rw [c1] at d1; cases d1; rw [c2] at d2; cases d2; rfl
      | req k =>
        obtain ⟨s, c1, c2, -⟩ := hx
        obtain ⟨s', d1, d2, -⟩ := h0
        rw [c1] at d1; cases d1; rw [c2] at d2; cases d2; rfl
    exact b2 (by rw [this])
  · intro k j s hx hy hz
    have hx' := hk k j s hx hy
    obtain ⟨st, a1, a2, a3⟩ := hs.alive (.shovel k) s.stream s.topic ⟨s, hx', by rw [hy]; rfl, rfl, rfl⟩
    obtain ⟨st', b1, b2, b3, -, b5, -⟩ := h4.stream _ st a1
    rw [a2] at b5
    exact hs.stale k j s hx' hy (b5 hz)

/-- A stream changes hands. -/
theorem HubStreams.move {h h' : SubHub} (hs : HubStreams h) (o0 o1 : StreamOwner) (hp : h'.ps = h.ps)
    (ho : ∀ o i t, Owns h' o i t ↔ (Owns h o i t ∧ o ≠ o0) ∨ (o = o1 ∧ Owns h o0 i t))
    (hk : ∀ (k j : Nat) (s : Shovel), h'.shovels[k]? = some s → s.pc = .answered (some j) → h.shovels[k]? = some s) :
    HubStreams h' := by
  refine ⟨hp ▸ hs.pub, ?_, ?_, ?_, ?_⟩
  · intro o i t hx
    rw [hp]
    rcases (ho o i t).1 hx with ⟨hx, -⟩ | ⟨-, hx⟩ <;> exact hs.alive _ i t hx
  · intro o o' i t t' hx hy
    rcases (ho _ _ _).1 hx with ⟨hx, h1⟩ | ⟨rfl, hx⟩
    · rcases (ho _ _ _).1 hy with ⟨hy, h2⟩ | ⟨rfl, hy⟩
      · exact hs.inj _ _ _ _ _ hx hy
      · exact absurd (hs.inj _ _ _ _ _ hx hy) h1
    · rcases (ho _ _ _).1 hy with ⟨hy, h2⟩ | ⟨rfl, hy⟩
      · exact absurd (hs.inj _ _ _ _ _ hy hx) h2
      · rfl
  · intro i st hi ha
    rw [hp] at hi
    obtain ⟨o, hx⟩ := hs.owned i st hi ha
    by_cases he : o = o0
    · subst he; exact ⟨o1, (ho _ _ _).2 (.inr ⟨rfl, hx⟩)⟩
    · exact ⟨o, (ho _ _ _).2 (.inl ⟨hx, he⟩)⟩
  · intro k j s hx hy
    rw [hp]
    exact hs.stale k j s (hk k j s hx hy) hy

/-- What a change of a request means for the owners. -/
theorem owns_setReq {h h' : SubHub} {i : Nat} {r r' : SubReq} (hi : h.reqs[i]? = some r) (ht : r'.topic = r.topic)
    (hr : h'.reqs = h.reqs.set i r') (hsh : h'.shovels = h.shovels) (o : StreamOwner) (x : Nat) (t : Topic) :
    Owns h' o x t ↔ (Owns h o x t ∧ o ≠ .req i) ∨ (o = .req i ∧ r'.pc = .answered (some x) ∧ r.topic = t) := by
  have hg := getElem?_set_of hi r'
  cases o with
  | shovel k => simp [Owns, hsh]
  | next k => simp [Owns, hsh]
  | req a =>
    simp only [Owns, hr, hg, StreamOwner.req.injEq]
    by_cases hia : i = a
    · subst hia
      simp only [if_true, Option.some.injEq, exists_eq_left', ht, ne_eq, not_true_eq_false, and_false, false_or, true_and]
    · have : ¬ a = i := fun e => hia e.symm
      simp [hia, this]

theorem owns_req_iff {h : SubHub} {i : Nat} {r : SubReq} (hi : h.reqs[i]? = some r) (x : Nat) (t : Topic) :
    Owns h (.req i) x t ↔ r.pc = .answered (some x) ∧ r.topic = t := by
  simp [Owns, hi]

theorem owns_setShovel {h h' : SubHub} {k : Nat} {s s' : Shovel} (hi : h.shovels[k]? = some s) (ht : s'.topic = s.topic)
    (hr : h'.shovels = h.shovels.set k s') (hsh : h'.reqs = h.reqs) (o : StreamOwner) (x : Nat) (t : Topic) :
    Owns h' o x t ↔ (Owns h o x t ∧ o ≠ .shovel k ∧ o ≠ .next k) ∨
      (o = .shovel k ∧ s'.pc.lives = true ∧ s'.stream = x ∧ s.topic = t) ∨
      (o = .next k ∧ s'.pc = .answered (some x) ∧ s.topic = t) := by
  have hg := getElem?_set_of hi s'
  cases o with
  | req a => simp [Owns, hsh]
  | shovel a =>
    simp only [Owns, hr, hg, StreamOwner.shovel.injEq]
    by_cases hia : k = a
    · subst hia
      simp [ht]
    · have : ¬ a = k := fun e => hia e.symm
      simp [hia, this]
  | next a =>
    simp only [Owns, hr, hg, StreamOwner.next.injEq]
    by_cases hia : k = a
    · subst hia
      simp [ht]
    · have : ¬ a = k := fun e => hia e.symm
      simp [hia, this]

theorem owns_shovel_iff {h : SubHub} {k : Nat} {s : Shovel} (hi : h.shovels[k]? = some s) (x : Nat) (t : Topic) :
    Owns h (.shovel k) x t ↔ s.pc.lives = true ∧ s.stream = x ∧ s.topic = t := by
  simp [Owns, hi]

theorem owns_next_iff {h : SubHub} {k : Nat} {s : Shovel} (hi : h.shovels[k]? = some s) (x : Nat) (t : Topic) :
    Owns h (.next k) x t ↔ s.pc = .answered (some x) ∧ s.topic = t := by
  simp [Owns, hi]

/-- A request changes; it neither gets nor loses a stream. -/
theorem HubStreams.plainReq {h h' : SubHub} (hs : HubStreams h) {i : Nat} {r r' : SubReq} (hi : h.reqs[i]? = some r)
    (ht : r'.topic = r.topic) (hr : h'.reqs = h.reqs.set i r') (hsh : h'.shovels = h.shovels) (hp : h'.ps = h.ps)
    (h1 : ∀ x, r'.pc ≠ .answered (some x)) (h2 : ∀ x, r.pc ≠ .answered (some x)) : HubStreams h' := by
  refine hs.keep (fun o x t => ?_) (fun k j s hx _ => hsh ▸ hx) (.inl hp)
  rw [owns_setReq hi ht hr hsh]
  constructor
  · rintro (hx | ⟨-, hx, -⟩)
    · exact hx.1
    · exact absurd hx (h1 x)
  · intro hx
    refine .inl ⟨hx, ?_⟩
    rintro rfl
    exact h2 x ((owns_req_iff hi x t).1 hx).1

/-- A shovel changes; it neither gets nor loses a stream. -/
theorem HubStreams.plainShovel {h h' : SubHub} (hs : HubStreams h) {k : Nat} {s s' : Shovel} (hi : h.shovels[k]? = some s)
    (ht : s'.topic = s.topic) (hst : s'.stream = s.stream) (hr : h'.shovels = h.shovels.set k s') (hsh : h'.reqs = h.reqs)
    (hl : s'.pc.lives = s.pc.lives) (h1 : ∀ x, s'.pc ≠ .answered (some x)) (h2 : ∀ x, s.pc ≠ .answered (some x))
    (hp : h'.ps = h.ps ∨ ∃ op a, (∀ t, op ≠ .subscribe t) ∧ (∀ i, op ≠ .dropStream i) ∧
      h.ps.step op = .ok (h'.ps, a) ∧ PubStep h.ps op h'.ps a) : HubStreams h' := by
  refine hs.keep (fun o x t => ?_) (fun a j y hx hy => ?_) hp
  · rw [owns_setShovel hi ht hr hsh]
    constructor
    · rintro (hx | ⟨rfl, hx, e1, e2⟩ | ⟨-, hx, -⟩)
      · exact hx.1
      · exact (owns_shovel_iff hi x t).2 ⟨hl ▸ hx, hst ▸ e1, e2⟩
      · exact absurd hx (h1 x)
    · intro hx
      by_cases e1 : o = .shovel k
      · subst e1
        obtain ⟨a, b, c⟩ := (owns_shovel_iff hi x t).1 hx
        exact .inr (.inl ⟨rfl, hl ▸ a, hst ▸ b, c⟩)
      · by_cases e2 : o = .next k
        · subst e2
          exact absurd ((owns_next_iff hi x t).1 hx).1 (h2 x)
        · exact .inl ⟨hx, e1, e2⟩
  · rw [hr, getElem?_set_of hi] at hx
    split at hx
    · cases hx; exact absurd hy (h1 j)
    · exact hx

/-- The stream of an answered request is dropped or handed on. -/
theorem owns_answered {h : SubHub} {i j : Nat} {r : SubReq} (hi : h.reqs[i]? = some r) (hpc : r.pc = .answered (some j)) :
    Owns h (.req i) j r.topic := (owns_req_iff hi j r.topic).2 ⟨hpc, rfl⟩

theorem HubStreams.goReq {h : SubHub} (hs : HubStreams h) {i : Nat} {r : SubReq} (hi : h.reqs[i]? = some r) :
    HubStreams (h.goReq i r) := by
  unfold SubHub.goReq
  cases hpc : r.pc with
  | waiting =>
    simp only
    split
    · exact hs
    · split
      · exact hs.plainReq (r' := { r with pc := .streaming _ _ }) hi rfl rfl rfl rfl (by simp) (by simp [hpc])
      · exact hs.plainReq (r' := { r with pc := .asking }) hi rfl rfl rfl rfl (by simp) (by simp [hpc])
  | answered o =>
    cases o with
    | none => exact hs.plainReq (r' := { r with pc := .panicked }) hi rfl rfl rfl rfl (by simp) (by simp [hpc])
    | some j =>
      refine hs.move (.req i) (.shovel h.shovels.length) rfl (fun o x t => ?_) (fun k j' s hx hy => ?_)
      · cases o with
        | req a =>
          have := owns_setReq (h' := h.setReq i { r with pc := .streaming h.chans.length 0 })
            (r' := { r with pc := .streaming h.chans.length 0 }) hi rfl rfl rfl (.req a) x t
          simp only [Owns, SubHub.setReq] at this ⊢
          rw [this]
          simp
        | shovel k =>
          simp only [Owns, getElem?_snoc, StreamOwner.shovel.injEq]
          by_cases hk : k = h.shovels.length
          · subst hk
            simp only [if_true, Option.some.injEq, exists_eq_left', ShovelPc.lives, true_and]
            rw [hi, List.getElem?_eq_none (Nat.le_refl _)]
            simp [hpc]
          · simp [hk]
        | next k =>
          simp only [Owns, getElem?_snoc]
          by_cases hk : k = h.shovels.length
          · subst hk; simp
          · simp [hk]
      · simp only [getElem?_snoc] at hx
        split at hx
        · cases hx; cases hy
        · exact hx
  | streaming c pos =>
    simp only [SubHub.recv]
    split
    · exact hs.plainReq (r' := { r with pc := .lagged }) hi rfl rfl rfl rfl (by simp) (by simp [hpc])
    · split
      · exact hs.plainReq (r' := { r with pc := .streaming _ _, out := _ }) hi rfl rfl rfl rfl (by simp) (by simp [hpc])
      · split
        · exact hs
        · exact hs.plainReq (r' := { r with pc := .closed }) hi rfl rfl rfl rfl (by simp) (by simp [hpc])
  | _ => exact hs

theorem HubStreams.hangUp {h : SubHub} (hs : HubStreams h) {i : Nat} {r : SubReq} (hi : h.reqs[i]? = some r) :
    HubStreams (h.hangUp i r) := by
  unfold SubHub.hangUp
  cases hpc : r.pc with
  | waiting => exact hs.plainReq (r' := { r with pc := .gone }) hi rfl rfl rfl rfl (by simp) (by simp [hpc])
  | asking => exact hs.plainReq (r' := { r with pc := .goneAsking }) hi rfl rfl rfl rfl (by simp) (by simp [hpc])
  | answered o =>
    cases o with
    | none => exact hs.plainReq (r' := { r with pc := .gone }) hi rfl rfl rfl rfl (by simp) (by simp [hpc])
    | some j =>
      refine hs.lose (.req i) j r.topic (owns_answered hi hpc) rfl (fun o x t => ?_) (fun k j' s hx _ => hx)
      refine Iff.trans (owns_setReq (r' := { r with pc := .gone }) hi rfl (by rfl) (by rfl) o x t) ?_
      simp
  | streaming c pos => exact hs.plainReq (r' := { r with pc := .gone }) hi rfl rfl rfl rfl (by simp) (by simp [hpc])
  | _ => exact hs

/-- A request gets the answer to its question. -/
theorem HubStreams.ask {h : SubHub} (hs : HubStreams h) {i : Nat} {r : SubReq} (hi : h.reqs[i]? = some r)
    (h2 : ∀ x, r.pc ≠ .answered (some x)) :
    HubStreams { h.setReq i { r with pc := .answered (pubAsk h.ps r.topic).2 } with ps := (pubAsk h.ps r.topic).1 } := by
  cases hg : AMap.get h.ps.streams r.topic with
  | some x =>
    rw [pubAsk_none hg]
    exact hs.plainReq (r' := { r with pc := .answered none }) hi rfl rfl rfl rfl (by simp) h2
  | none =>
    have hps := (pubAsk_some hs.pub hg).1
    refine hs.gain (.req i) r.topic hg (by rw [hps]) (fun o x t => ?_) (fun k j s hx hy => ?_)
    · refine Iff.trans (owns_setReq (r' := { r with pc := .answered (pubAsk h.ps r.topic).2 }) hi rfl (by rfl) (by rfl) o x t) ?_
      constructor
      · rintro (hx | ⟨rfl, hx, rfl⟩)
        · exact .inl hx.1
        · simp only [hps, SubPc.answered.injEq, Option.some.injEq] at hx
          exact .inr ⟨rfl, hx.symm, rfl⟩
      · rintro (hx | ⟨rfl, rfl, rfl⟩)
        · refine .inl ⟨hx, ?_⟩
          rintro rfl
          exact h2 x ((owns_req_iff hi x t).1 hx).1
        · exact .inr ⟨rfl, by simp [hps], rfl⟩
    · simp only [SubHub.setReq] at hx
      simp only [hps, pubWith, AMap.get_set]
      obtain ⟨st, a1, -⟩ := hs.alive (.shovel k) s.stream s.topic ⟨s, hx, by rw [hy]; rfl, rfl, rfl⟩
      have hlt := (List.getElem?_eq_some_iff.1 a1).1
      split
      · intro e; injection e; omega
      · exact hs.stale k j s hx hy

theorem HubStreams.answerReq {h : SubHub} (hs : HubStreams h) {i : Nat} {r : SubReq} (hi : h.reqs[i]? = some r) :
    HubStreams (h.answerReq i r) := by
  unfold SubHub.answerReq
  cases hpc : r.pc with
  | asking => exact hs.ask hi (by simp [hpc])
  | goneAsking =>
    have hq := hs.ask hi (by simp [hpc])
    have hi' : ({ h.setReq i { r with pc := .answered (pubAsk h.ps r.topic).2 } with ps := (pubAsk h.ps r.topic).1 } : SubHub).reqs[i]? =
        some { r with pc := .answered (pubAsk h.ps r.topic).2 } := by
      simp [SubHub.setReq, getElem?_set_of hi]
    simp only
    cases ho : (pubAsk h.ps r.topic).2 with
    | none =>
      rw [ho] at hq hi'
      refine hq.plainReq (r' := { r with pc := .gone }) hi' rfl ?_ rfl rfl (by simp) (by simp)
      simp [SubHub.setReq]
    | some j =>
      rw [ho] at hq hi'
      refine hq.lose (.req i) j r.topic ((owns_req_iff hi' j r.topic).2 ⟨rfl, rfl⟩) rfl (fun o x t => ?_) (fun k j' s hx _ => hx)
      refine Iff.trans (owns_setReq (r' := { r with pc := .gone }) hi' rfl (by simp [SubHub.setReq]) (by rfl) o x t) ?_
      simp
  | _ => exact hs

theorem HubStreams.shovelSend {h : SubHub} (hs : HubStreams h) {k : Nat} {s : Shovel} (hk : h.shovels[k]? = some s)
    (hpc : s.pc = .reading) (m : PubMsg) : HubStreams (h.shovelSend k s m) := by
  unfold SubHub.shovelSend
  split
  · exact hs.keep (fun o i t => by cases o <;> rfl) (fun _ _ _ hx _ => hx) (.inl rfl)
  · exact hs.plainShovel (s' := { s with pc := .wanting false }) hk rfl rfl rfl rfl (by simp [hpc, ShovelPc.lives]) (by simp) (by simp [hpc]) (.inl rfl)

theorem HubStreams.goShovel {h : SubHub} (hs : HubStreams h) (hsh : HubShape h) {k : Nat} {s : Shovel} (hk : h.shovels[k]? = some s) :
    HubStreams (h.goShovel k s) := by
  unfold SubHub.goShovel
  cases hpc : s.pc with
  | reading =>
    obtain ⟨a, h1, h2⟩ := pubAfter_spec hs.pub (.readStream s.stream)
    have hw : HubStreams { h.setShovel k { s with pc := .wanting true } with ps := pubAfter h.ps (.readStream s.stream) } :=
      hs.plainShovel (s' := { s with pc := .wanting true }) hk rfl rfl rfl rfl (by simp [hpc, ShovelPc.lives]) (by simp) (by simp [hpc])
        (.inr ⟨_, a, by simp, by simp, h1, h2⟩)
    simp only
    cases (h.ps.readStream s.stream).2 with
    | item m =>
      have hq : HubStreams { h with ps := pubAfter h.ps (.readStream s.stream) } :=
        hs.keep (fun o i t => by cases o <;> rfl) (fun _ _ _ hx _ => hx) (.inr ⟨_, a, by simp, by simp, h1, h2⟩)
      exact hq.shovelSend hk hpc m
    | pending => exact hs
    | ended => exact hw
    | noStream => exact hw
  | wanting u =>
    simp only
    split
    · exact hs
    · unfold SubHub.shovelLocked
      split
      · split
        · split
          · exact hs.plainShovel (s' := { s with pc := .asking }) hk rfl rfl rfl rfl (by simp [hpc, ShovelPc.lives]) (by simp) (by simp [hpc]) (.inl rfl)
          · exact hs.plainShovel (s' := { s with pc := .reading }) hk rfl rfl rfl rfl (by simp [hpc, ShovelPc.lives]) (by simp) (by simp [hpc]) (.inl rfl)
        · exact hs.plainShovel (s' := { s with pc := .leaving }) hk rfl rfl rfl rfl (by simp [hpc, ShovelPc.lives]) (by simp) (by simp [hpc]) (.inl rfl)
      · next hn =>
        have := hsh.engaged k s hk (by rw [hpc]; rfl)
        rw [hn] at this; cases this
  | answered o =>
    cases o with
    | none => exact hs.plainShovel (s' := { s with pc := .failing }) hk rfl rfl rfl rfl (by simp [hpc, ShovelPc.lives]) (by simp) (by simp [hpc]) (.inl rfl)
    | some j =>
      have hl : s.pc.lives = true := by rw [hpc]; rfl
      have ho : Owns h (.shovel k) s.stream s.topic := (owns_shovel_iff hk _ _).2 ⟨hl, rfl, rfl⟩
      have hj : Owns h (.next k) j s.topic := (owns_next_iff hk _ _).2 ⟨hpc, rfl⟩
      obtain ⟨a, h3, h4⟩ := pubAfter_spec hs.pub (.dropStream s.stream)
      have how : ∀ o x t, Owns { (h.setShovel k { s with stream := j, pc := .reading }).dropStream s.stream with locked := false } o x t ↔
          (Owns h o x t ∧ o ≠ .shovel k ∧ o ≠ .next k) ∨ (o = .shovel k ∧ x = j ∧ t = s.topic) := by
        intro o x t
        refine Iff.trans (owns_setShovel (s' := { s with stream := j, pc := .reading }) hk rfl (by rfl) (by rfl) o x t) ?_
        simp only [ShovelPc.lives, true_and, reduceCtorEq, false_and, and_false, or_false]
        constructor
        · rintro (hx | ⟨h1, h2, h3⟩)
          · exact .inl hx
          · exact .inr ⟨h1, h2.symm, h3.symm⟩
        · rintro (hx | ⟨h1, h2, h3⟩)
          · exact .inl hx
          · exact .inr ⟨h1, h2.symm, h3.symm⟩
      have hmem : ∀ o x t, Owns { (h.setShovel k { s with stream := j, pc := .reading }).dropStream s.stream with locked := false } o x t →
          ∃ o', o' ≠ .shovel k ∧ Owns h o' x t ∧ (o = o' ∧ o' ≠ .next k ∨ o = .shovel k ∧ o' = .next k) := by
        intro o x t hx
        rcases (how o x t).1 hx with ⟨hx, h1, h2⟩ | ⟨rfl, rfl, rfl⟩
        · exact ⟨o, h1, hx, .inl ⟨rfl, h2⟩⟩
        · exact ⟨.next k, by simp, hj, .inr ⟨rfl, rfl⟩⟩
      refine ⟨h4.inv, ?_, ?_, ?_, ?_⟩
      · intro o x t hx
        obtain ⟨o', h1, h2, -⟩ := hmem o x t hx
        obtain ⟨st, a1, a2, a3⟩ := hs.alive o' x t h2
        obtain ⟨st', b1, b2, b3, -⟩ := h4.stream x st a1
        refine ⟨st', b1, b2.trans a2, b3.2 ⟨a3, fun e => ?_⟩⟩
        injection e with e
        subst e
        exact h1 (hs.inj _ _ _ _ _ h2 ho)
      · intro o p x t t' hx hy
        obtain ⟨o', h1, h2, h5⟩ := hmem o x t hx
        obtain ⟨p', h6, h7, h8⟩ := hmem p x t' hy
        have := hs.inj _ _ _ _ _ h2 h7
        subst this
        rcases h5 with ⟨rfl, h5⟩ | ⟨rfl, h5⟩
        · rcases h8 with ⟨rfl, h8⟩ | ⟨rfl, h8⟩
          · rfl
          · exact absurd h8 h5
        · rcases h8 with ⟨rfl, h8⟩ | ⟨rfl, h8⟩
          · exact absurd h5 h8
          · rfl
      · intro x st hi ha
        obtain ⟨st0, a1, a2, a3, -⟩ := pub_back hs.pub h3 h4 (by simp) x st hi
        obtain ⟨b1, b2⟩ := a3.1 ha
        obtain ⟨o, hx⟩ := hs.owned x st0 a1 b1
        rw [← a2] at hx
        by_cases e1 : o = .shovel k
        · subst e1
          obtain ⟨-, e, -⟩ := (owns_shovel_iff hk _ _).1 hx
          exact absurd (by rw [e]) b2
        · by_cases e2 : o = .next k
          · subst e2
            obtain ⟨e3, e4⟩ := (owns_next_iff hk _ _).1 hx
            rw [hpc] at e3
            refine ⟨.shovel k, (how _ _ _).2 (.inr ⟨rfl, ?_, e4.symm⟩)⟩
            injection e3 with e3; injection e3 with e3; exact e3.symm
          · exact ⟨o, (how _ _ _).2 (.inl ⟨hx, e1, e2⟩)⟩
      · intro a b y hx hy hz
        simp only [SubHub.dropStream, SubHub.setShovel, getElem?_set_of hk] at hx
        split at hx
        · cases hx; cases hy
        · obtain ⟨st, a1, a2, a3⟩ := hs.alive (.shovel a) y.stream y.topic ⟨y, hx, by rw [hy]; rfl, rfl, rfl⟩
          obtain ⟨st', b1, b2, b3, -, b5, -⟩ := h4.stream _ st a1
          rw [a2] at b5
          exact hs.stale a b y hx hy (b5 hz)
  | leaving =>
    refine hs.lose (.shovel k) s.stream s.topic ((owns_shovel_iff hk _ _).2 ⟨by rw [hpc]; rfl, rfl, rfl⟩) rfl (fun o x t => ?_) (fun a j y hx hy => ?_)
    · refine Iff.trans (owns_setShovel (s' := { s with pc := .gone }) hk rfl (by rfl) (by rfl) o x t) ?_
      simp only [ShovelPc.lives, Bool.false_eq_true, false_and, and_false, reduceCtorEq, or_false]
      constructor
      · rintro ⟨hx, h1, -⟩; exact ⟨hx, h1⟩
      · rintro ⟨hx, h1⟩
        refine ⟨hx, h1, ?_⟩
        rintro rfl
        have := ((owns_next_iff hk x t).1 hx).1
        rw [hpc] at this; cases this
    · simp only [SubHub.dropStream, SubHub.setShovel, getElem?_set_of hk] at hx
      split at hx
      · cases hx; cases hy
      · exact hx
  | failing =>
    refine hs.lose (.shovel k) s.stream s.topic ((owns_shovel_iff hk _ _).2 ⟨by rw [hpc]; rfl, rfl, rfl⟩) rfl (fun o x t => ?_) (fun a j y hx hy => ?_)
    · refine Iff.trans (owns_setShovel (s' := { s with pc := .panicked }) hk rfl (by rfl) (by rfl) o x t) ?_
      simp only [ShovelPc.lives, Bool.false_eq_true, false_and, and_false, reduceCtorEq, or_false]
      constructor
      · rintro ⟨hx, h1, -⟩; exact ⟨hx, h1⟩
      · rintro ⟨hx, h1⟩
        refine ⟨hx, h1, ?_⟩
        rintro rfl
        have := ((owns_next_iff hk x t).1 hx).1
        rw [hpc] at this; cases this
    · simp only [SubHub.dropStream, SubHub.setShovel, getElem?_set_of hk] at hx
      split at hx
      · cases hx; cases hy
      · exact hx
  | _ => exact hs

theorem HubStreams.answerShovel {h : SubHub} (hs : HubStreams h) {k : Nat} {s : Shovel} (hk : h.shovels[k]? = some s) :
    HubStreams (h.answerShovel k s) := by
  unfold SubHub.answerShovel
  cases hpc : s.pc with
  | asking =>
    simp only
    cases hg : AMap.get h.ps.streams s.topic with
    | some x =>
      rw [pubAsk_none hg]
      exact hs.plainShovel (s' := { s with pc := .answered none }) hk rfl rfl rfl rfl (by simp [hpc, ShovelPc.lives]) (by simp) (by simp [hpc]) (.inl rfl)
    | none =>
      have hps := (pubAsk_some hs.pub hg).1
      have hlt : ∀ (a : Nat) (y : Shovel), h.shovels[a]? = some y → y.pc.lives = true → y.stream < h.ps.made.length := by
        intro a y ha hy
        obtain ⟨st, a1, -⟩ := hs.alive (.shovel a) y.stream y.topic ⟨y, ha, hy, rfl, rfl⟩
        exact (List.getElem?_eq_some_iff.1 a1).1
      refine hs.gain (.next k) s.topic hg (by rw [hps]) (fun o x t => ?_) (fun a j y hx hy => ?_)
      · refine Iff.trans (owns_setShovel (s' := { s with pc := .answered (pubAsk h.ps s.topic).2 }) hk rfl (by rfl) (by rfl) o x t) ?_
        constructor
        · rintro (hx | ⟨rfl, -, e1, e2⟩ | ⟨rfl, hx, rfl⟩)
          · exact .inl hx.1
          · exact .inl ((owns_shovel_iff hk x t).2 ⟨by rw [hpc]; rfl, e1, e2⟩)
          · simp only [hps, ShovelPc.answered.injEq, Option.some.injEq] at hx
            exact .inr ⟨rfl, hx.symm, rfl⟩
        · rintro (hx | ⟨rfl, rfl, rfl⟩)
          · by_cases e1 : o = .shovel k
            · subst e1
              obtain ⟨-, b, c⟩ := (owns_shovel_iff hk x t).1 hx
              exact .inr (.inl ⟨rfl, rfl, b, c⟩)
            · by_cases e2 : o = .next k
              · subst e2
                have := ((owns_next_iff hk x t).1 hx).1
                rw [hpc] at this; cases this
              · exact .inl ⟨hx, e1, e2⟩
          · exact .inr (.inr ⟨rfl, by simp [hps], rfl⟩)
      · simp only [hps, pubWith, AMap.get_set]
        simp only [SubHub.setShovel, getElem?_set_of hk] at hx
        split at hx
        · cases hx
          have := hlt k s hk (by rw [hpc]; rfl)
          simp only [if_true]
          intro e; injection e; omega
        · have := hlt a y hx (by rw [hy]; rfl)
          split
          · intro e; injection e; omega
          · exact hs.stale a j y hx hy
  | _ => exact hs

theorem HubStreams.timeout {h : SubHub} (hs : HubStreams h) {k : Nat} {s : Shovel} (hk : h.shovels[k]? = some s) :
    HubStreams (h.timeout k s) := by
  unfold SubHub.timeout
  cases hpc : s.pc with
  | reading =>
    simp only
    split
    · exact hs.plainShovel (s' := { s with pc := .wanting true }) hk rfl rfl rfl rfl (by simp [hpc, ShovelPc.lives]) (by simp) (by simp [hpc]) (.inl rfl)
    · exact hs
  | _ => exact hs

/-- What holds after every history. -/
structure HubInv (h : SubHub) : Prop where
  shape : HubShape h
  streams : HubStreams h

theorem HubInv.init : HubInv SubHub.init := ⟨.init, .init⟩

/-- The steps one by one. -/
theorem step_onReq {P : SubHub → Prop} {h : SubHub} (i : Nat) (f : SubReq → SubHub) (h0 : P h)
    (hf : ∀ r, h.reqs[i]? = some r → P (f r)) : P (h.onReq i f) := by
  unfold SubHub.onReq
  cases hi : h.reqs[i]? with
  | none => exact h0
  | some r => exact hf r hi

theorem step_onShovel {P : SubHub → Prop} {h : SubHub} (k : Nat) (f : Shovel → SubHub) (h0 : P h)
    (hf : ∀ s, h.shovels[k]? = some s → P (f s)) : P (h.onShovel k f) := by
  unfold SubHub.onShovel
  cases hi : h.shovels[k]? with
  | none => exact h0
  | some r => exact hf r hi

theorem outside_ops {op : PubOp} (ho : outsideOp op = true) : (∀ t, op ≠ .subscribe t) ∧ (∀ i, op ≠ .dropStream i) ∧ ∀ i, op ≠ .readStream i := by
  cases op <;> simp [outsideOp] at ho ⊢

theorem HubStreams.step {h : SubHub} (hs : HubInv h) (op : SubOp) : HubStreams (h.step op) := by
  have h0 := hs.streams
  cases op with
  | request t =>
    refine h0.keep (fun o i u => ?_) (fun _ _ _ hx _ => hx) (.inl rfl)
    cases o with
    | req a =>
      simp only [Owns, SubHub.step, getElem?_snoc]
      by_cases ha : a = h.reqs.length
      · subst ha
        simp
      · simp [ha]
    | _ => rfl
  | goReq i => exact step_onReq i _ h0 (fun r hr => h0.goReq hr)
  | answerReq i => exact step_onReq i _ h0 (fun r hr => h0.answerReq hr)
  | hangUp i => exact step_onReq i _ h0 (fun r hr => h0.hangUp hr)
  | goShovel k => exact step_onShovel k _ h0 (fun r hr => h0.goShovel hs.shape hr)
  | answerShovel k => exact step_onShovel k _ h0 (fun r hr => h0.answerShovel hr)
  | timeout k => exact step_onShovel k _ h0 (fun r hr => h0.timeout hr)
  | node op =>
    simp only [SubHub.step]
    split
    · next ho =>
      obtain ⟨a, h1, h2⟩ := pubAfter_spec h0.pub op
      exact h0.keep (fun o i t => by cases o <;> rfl) (fun _ _ _ hx _ => hx)
        (.inr ⟨op, a, (outside_ops ho).1, (outside_ops ho).2.1, h1, h2⟩)
    · exact h0

theorem HubInv.step {h : SubHub} (hs : HubInv h) (op : SubOp) : HubInv (h.step op) := ⟨hs.shape.step op, .step hs op⟩

theorem HubInv.run {h : SubHub} (hs : HubInv h) (ops : List SubOp) : HubInv (h.run ops) := by
  induction ops generalizing h with
  | nil => exact hs
  | cons op ops ih => exact ih (hs.step op)

/-! ### The mutex is held by somebody -/

def HubHeld (h : SubHub) : Prop := h.locked = true →
  (∃ (i : Nat) (r : SubReq), h.reqs[i]? = some r ∧ SubPc.holds r.pc = true) ∨
  ∃ (k : Nat) (s : Shovel), h.shovels[k]? = some s ∧ ShovelPc.holds s.pc = true

theorem HubHeld.setReq {h h' : SubHub} (hh : HubHeld h) {i : Nat} {r r' : SubReq} (hi : h.reqs[i]? = some r)
    (hr : h'.reqs = h.reqs.set i r') (hs : h'.shovels = h.shovels) (hl : h'.locked = true → h.locked = true)
    (hp : SubPc.holds r.pc = true → SubPc.holds r'.pc = true) : HubHeld h' := by
  intro hx
  rcases hh (hl hx) with ⟨a, x, h1, h2⟩ | ⟨k, s, h1, h2⟩
  · by_cases hia : i = a
    · subst hia
      rw [hi] at h1; cases h1
      exact .inl ⟨i, r', by simp [hr, getElem?_set_of hi], hp h2⟩
    · exact .inl ⟨a, x, by simp [hr, getElem?_set_of hi, hia, h1], h2⟩
  · exact .inr ⟨k, s, by rw [hs]; exact h1, h2⟩

theorem HubHeld.setShovel {h h' : SubHub} (hh : HubHeld h) {k : Nat} {s s' : Shovel} (hi : h.shovels[k]? = some s)
    (hr : h'.shovels = h.shovels.set k s') (hs : h'.reqs = h.reqs) (hl : h'.locked = true → h.locked = true)
    (hp : ShovelPc.holds s.pc = true → ShovelPc.holds s'.pc = true) : HubHeld h' := by
  intro hx
  rcases hh (hl hx) with ⟨a, x, h1, h2⟩ | ⟨a, x, h1, h2⟩
  · exact .inl ⟨a, x, by rw [hs]; exact h1, h2⟩
  · by_cases hia : k = a
    · subst hia
      rw [hi] at h1; cases h1
      exact .inr ⟨k, s', by simp [hr, getElem?_set_of hi], hp h2⟩
    · exact .inr ⟨a, x, by simp [hr, getElem?_set_of hi, hia, h1], h2⟩

theorem HubHeld.step {h : SubHub} (hh : HubHeld h) (op : SubOp) : HubHeld (h.step op) := by
  cases op with
  | request t =>
    intro hl
    rcases hh hl with ⟨a, x, h1, h2⟩ | hx
    · refine .inl ⟨a, x, ?_, h2⟩
      simp only [SubHub.step]
      rw [List.getElem?_append_left (List.getElem?_eq_some_iff.1 h1).1]; exact h1
    · exact .inr hx
  | goReq i =>
    refine step_onReq i _ hh (fun r hi => ?_)
    unfold SubHub.goReq
    cases hpc : r.pc with
    | waiting =>
      simp only
      split
      · exact hh
      · split
        · exact hh.setReq (r' := { r with pc := .streaming _ _ }) hi rfl rfl id (by simp [hpc, SubPc.holds])
        · exact fun _ => .inl ⟨i, { r with pc := .asking }, by simp [SubHub.setReq, getElem?_set_of hi], rfl⟩
    | answered o => cases o <;> exact fun hx => by cases hx
    | streaming c pos =>
      simp only [SubHub.recv]
      split
      · exact hh.setReq (r' := { r with pc := .lagged }) hi rfl rfl id (by simp [hpc, SubPc.holds])
      · split
        · exact hh.setReq (r' := { r with pc := .streaming _ _, out := _ }) hi rfl rfl id (by simp [hpc, SubPc.holds])
        · split
          · exact hh
          · exact hh.setReq (r' := { r with pc := .closed }) hi rfl rfl id (by simp [hpc, SubPc.holds])
    | _ => exact hh
  | answerReq i =>
    refine step_onReq i _ hh (fun r hi => ?_)
    unfold SubHub.answerReq
    cases hpc : r.pc with
    | asking => exact hh.setReq (r' := { r with pc := .answered _ }) hi rfl rfl id (by simp [SubPc.holds])
    | goneAsking =>
      simp only
      split <;> exact hh.setReq (r' := { r with pc := .gone }) hi rfl rfl id (by simp [hpc, SubPc.holds])
    | _ => exact hh
  | hangUp i =>
    refine step_onReq i _ hh (fun r hi => ?_)
    unfold SubHub.hangUp
    cases hpc : r.pc with
    | waiting => exact hh.setReq (r' := { r with pc := .gone }) hi rfl rfl id (by simp [hpc, SubPc.holds])
    | streaming c pos => exact hh.setReq (r' := { r with pc := .gone }) hi rfl rfl id (by simp [hpc, SubPc.holds])
    | asking => exact fun hx => by cases hx
    | answered o => cases o <;> exact fun hx => by cases hx
    | _ => exact hh
  | goShovel k =>
    refine step_onShovel k _ hh (fun s hk => ?_)
    unfold SubHub.goShovel
    cases hpc : s.pc with
    | reading =>
      have hw : HubHeld { h.setShovel k { s with pc := .wanting true } with ps := pubAfter h.ps (.readStream s.stream) } :=
        hh.setShovel (s' := { s with pc := .wanting true }) hk rfl rfl id (by simp [hpc, ShovelPc.holds])
      simp only
      cases (h.ps.readStream s.stream).2 with
      | item m =>
        simp only [SubHub.shovelSend]
        split
        · exact hh
        · exact hh.setShovel (s' := { s with pc := .wanting false }) hk rfl rfl id (by simp [hpc, ShovelPc.holds])
      | pending => exact hh
      | ended => exact hw
      | noStream => exact hw
    | wanting u =>
      simp only
      split
      · exact hh
      · unfold SubHub.shovelLocked
        split
        · split
          · split
            · exact fun _ => .inr ⟨k, { s with pc := .asking }, by simp [SubHub.setShovel, getElem?_set_of hk], rfl⟩
            · exact hh.setShovel (s' := { s with pc := .reading }) hk rfl rfl id (by simp [hpc, ShovelPc.holds])
          · exact hh.setShovel (s' := { s with pc := .leaving }) hk rfl rfl id (by simp [hpc, ShovelPc.holds])
        · exact hh.setShovel (s' := { s with pc := .unreachable }) hk rfl rfl id (by simp [hpc, ShovelPc.holds])
    | answered o => cases o <;> exact fun hx => by cases hx
    | leaving => exact hh.setShovel (s' := { s with pc := .gone }) hk rfl rfl id (by simp [hpc, ShovelPc.holds])
    | failing => exact hh.setShovel (s' := { s with pc := .panicked }) hk rfl rfl id (by simp [hpc, ShovelPc.holds])
    | _ => exact hh
  | answerShovel k =>
    refine step_onShovel k _ hh (fun s hk => ?_)
    unfold SubHub.answerShovel
    cases hpc : s.pc with
    | asking => exact hh.setShovel (s' := { s with pc := .answered _ }) hk rfl rfl id (by simp [ShovelPc.holds])
    | _ => exact hh
  | timeout k =>
    refine step_onShovel k _ hh (fun s hk => ?_)
    unfold SubHub.timeout
    cases hpc : s.pc with
    | reading =>
      simp only
      split
      · exact hh.setShovel (s' := { s with pc := .wanting true }) hk rfl rfl id (by simp [hpc, ShovelPc.holds])
      · exact hh
    | _ => exact hh
  | node op =>
    simp only [SubHub.step]
    split <;> exact hh

/-! ### What a step does to one request and to the channels -/

/-- What a step does to a request. -/
structure ReqStep (h h' : SubHub) (r r' : SubReq) : Prop where
  topic : r'.topic = r.topic
  /-- a response goes on with the next message, or ends -/
  streaming : ∀ c pos, r.pc = .streaming c pos →
    (r' = r) ∨ (∃ m, (h.sent c)[pos]? = some m ∧ r'.pc = .streaming c (pos + 1) ∧ r'.out = r.out ++ [m]) ∨
    (r'.pc = .lagged ∧ r'.out = r.out ∧ pos + subCapacity < (h.sent c).length) ∨ (r'.pc = .gone ∧ r'.out = r.out) ∨
    (r'.pc = .closed ∧ r'.out = r.out ∧ h.open c = false)
  /-- it starts at the end of the channel, of a new one if need be -/
  start : (∀ c pos, r.pc ≠ .streaming c pos) → r'.out = r.out ∧
    ∀ c pos, r'.pc = .streaming c pos → pos = (h.sent c).length ∧
      (r.pc = .waiting ∧ h.locked = false ∧ AMap.get h.table r.topic = some c ∨ (∃ j, r.pc = .answered (some j)) ∧ c = h.chans.length)
  over : r.pc = .gone ∨ r.pc = .lagged ∨ r.pc = .closed → r' = r

theorem ReqStep.refl (h h' : SubHub) (r : SubReq) : ReqStep h h' r r :=
  ⟨rfl, fun _ _ _ => .inl rfl, fun hn => ⟨rfl, fun c pos hx => absurd hx (hn c pos)⟩, fun _ => rfl⟩

/-- A channel only gets longer. -/
theorem chan_step {h : SubHub} (hs : HubShape h) (op : SubOp) (c : Nat) : ∃ more, (h.step op).sent c = h.sent c ++ more := by
  have same : ∀ h' : SubHub, h'.chans = h.chans → ∃ more, h'.sent c = h.sent c ++ more :=
    fun h' e => ⟨[], by simp [SubHub.sent, e]⟩
  cases op with
  | request t => exact same _ rfl
  | goReq i =>
    refine step_onReq (P := fun h' => ∃ more, h'.sent c = h.sent c ++ more) i _ (same _ rfl) (fun r hi => ?_)
    unfold SubHub.goReq
    cases hpc : r.pc with
    | waiting =>
      simp only
      split
      · exact same _ rfl
      · split <;> exact same _ rfl
    | answered o =>
      cases o with
      | none => exact same _ rfl
      | some j =>
        refine ⟨[], ?_⟩
        simp only [SubHub.sent, getElem?_snoc, List.append_nil]
        split
        · next e => subst e; simp
        · rfl
    | streaming c' pos =>
      simp only [SubHub.recv]
      split
      · exact same _ rfl
      · split
        · exact same _ rfl
        · split <;> exact same _ rfl
    | _ => exact same _ rfl
  | answerReq i =>
    refine step_onReq (P := fun h' => ∃ more, h'.sent c = h.sent c ++ more) i _ (same _ rfl) (fun r hi => ?_)
    unfold SubHub.answerReq
    split
    · exact same _ rfl
    · split <;> exact same _ rfl
    · exact same _ rfl
  | hangUp i =>
    refine step_onReq (P := fun h' => ∃ more, h'.sent c = h.sent c ++ more) i _ (same _ rfl) (fun r hi => ?_)
    unfold SubHub.hangUp
    split <;> exact same _ rfl
  | goShovel k =>
    refine step_onShovel (P := fun h' => ∃ more, h'.sent c = h.sent c ++ more) k _ (same _ rfl) (fun s hk => ?_)
    unfold SubHub.goShovel
    cases hpc : s.pc with
    | reading =>
      simp only
      split
      · next m hm =>
        unfold SubHub.shovelSend
        split
        · by_cases hc : s.chan = c
          · subst hc
            refine ⟨[m], ?_⟩
            simp only [SubHub.sent, List.getElem?_set]
            simp [hs.chanLt k s hk]
          · refine ⟨[], ?_⟩
            simp only [SubHub.sent, List.getElem?_set]
            simp [hc]
        · exact same _ rfl
      · exact same _ rfl
      · exact same _ rfl
    | wanting u =>
      simp only
      split
      · exact same _ rfl
      · unfold SubHub.shovelLocked
        split
        · split
          · split <;> exact same _ rfl
          · exact same _ rfl
        · exact same _ rfl
    | answered o => cases o <;> exact same _ rfl
    | _ => exact same _ rfl
  | answerShovel k =>
    refine step_onShovel (P := fun h' => ∃ more, h'.sent c = h.sent c ++ more) k _ (same _ rfl) (fun s hk => ?_)
    unfold SubHub.answerShovel
    split <;> exact same _ rfl
  | timeout k =>
    refine step_onShovel (P := fun h' => ∃ more, h'.sent c = h.sent c ++ more) k _ (same _ rfl) (fun s hk => ?_)
    unfold SubHub.timeout
    split
    · split <;> exact same _ rfl
    · exact same _ rfl
  | node op =>
    simp only [SubHub.step]
    split <;> exact same _ rfl

theorem req_set {h h' : SubHub} {i : Nat} {r r' : SubReq} (hi : h.reqs[i]? = some r) (hr : h'.reqs = h.reqs.set i r')
    (hst : ReqStep h h' r r') {a : Nat} {x : SubReq} (ha : h.reqs[a]? = some x) :
    ∃ x', h'.reqs[a]? = some x' ∧ ReqStep h h' x x' := by
  rw [hr, getElem?_set_of hi]
  by_cases hia : i = a
  · subst hia
    rw [hi] at ha; cases ha
    exact ⟨r', by simp, hst⟩
  · exact ⟨x, by simp [hia, ha], .refl h h' x⟩

/-- A request that was not streaming and is not now. -/
theorem ReqStep.plain {h h' : SubHub} {r : SubReq} {pc : SubPc} (h1 : ∀ c pos, r.pc ≠ .streaming c pos)
    (h2 : ∀ c pos, pc ≠ .streaming c pos) (h3 : r.pc ≠ .gone ∧ r.pc ≠ .lagged ∧ r.pc ≠ .closed) : ReqStep h h' r { r with pc := pc } :=
  ⟨rfl, fun c pos hx => absurd hx (h1 c pos), fun _ => ⟨rfl, fun c pos hx => absurd hx (h2 c pos)⟩,
    fun hx => by rcases hx with hx | hx | hx <;> simp [hx] at h3⟩

theorem req_step {h : SubHub} (op : SubOp) {a : Nat} {x : SubReq} (ha : h.reqs[a]? = some x) :
    ∃ x', (h.step op).reqs[a]? = some x' ∧ ReqStep h (h.step op) x x' := by
  have same : ∀ h' : SubHub, h'.reqs = h.reqs → ∃ x', h'.reqs[a]? = some x' ∧ ReqStep h h' x x' :=
    fun h' e => ⟨x, by rw [e]; exact ha, .refl h h' x⟩
  cases op with
  | request t =>
    refine ⟨x, ?_, .refl _ _ x⟩
    simp only [SubHub.step]
    rw [List.getElem?_append_left (List.getElem?_eq_some_iff.1 ha).1]; exact ha
  | goReq i =>
    refine step_onReq (P := fun h' => ∃ x', h'.reqs[a]? = some x' ∧ ReqStep h h' x x') i _ (same _ rfl) (fun r hi => ?_)
    unfold SubHub.goReq
    cases hpc : r.pc with
    | waiting =>
      simp only
      split
      · exact same _ rfl
      · next hl =>
        split
        · next c hc =>
          refine req_set (r' := { r with pc := .streaming c (h.sent c).length }) hi rfl ⟨rfl, fun c pos hx => by simp [hpc] at hx, fun _ => ⟨rfl, fun c' pos hx => ?_⟩, fun hx => by simp [hpc] at hx⟩ ha
          cases hx
          exact ⟨rfl, .inl ⟨hpc, by simpa using hl, hc⟩⟩
        · exact req_set (r' := { r with pc := .asking }) hi rfl (ReqStep.plain (by simp [hpc]) (by simp) (by simp [hpc])) ha
    | answered o =>
      cases o with
      | none => exact req_set (r' := { r with pc := .panicked }) hi rfl (ReqStep.plain (by simp [hpc]) (by simp) (by simp [hpc])) ha
      | some j =>
        refine req_set (r' := { r with pc := .streaming h.chans.length 0 }) hi rfl ⟨rfl, fun c pos hx => by simp [hpc] at hx, fun _ => ⟨rfl, fun c' pos hx => ?_⟩, fun hx => by simp [hpc] at hx⟩ ha
        cases hx
        exact ⟨by simp [SubHub.sent], .inr ⟨⟨j, hpc⟩, rfl⟩⟩
    | streaming c pos =>
      simp only [SubHub.recv]
      split
      · next hlag =>
        refine req_set (r' := { r with pc := .lagged }) hi rfl ⟨rfl, fun c' pos' hx => ?_, fun hn => absurd hpc (hn c pos), fun hx => by simp [hpc] at hx⟩ ha
        rw [hpc] at hx; cases hx
        exact .inr (.inr (.inl ⟨rfl, rfl, hlag⟩))
      · split
        · next m hm =>
          refine req_set (r' := { r with pc := .streaming c (pos + 1), out := r.out ++ [m] }) hi rfl ⟨rfl, fun c' pos' hx => ?_, fun hn => absurd hpc (hn c pos), fun hx => by simp [hpc] at hx⟩ ha
          rw [hpc] at hx; cases hx
          exact .inr (.inl ⟨m, hm, rfl, rfl⟩)
        · split
          · exact same _ rfl
          · next ho =>
            refine req_set (r' := { r with pc := .closed }) hi rfl ⟨rfl, fun c' pos' hx => ?_, fun hn => absurd hpc (hn c pos), fun hx => by simp [hpc] at hx⟩ ha
            rw [hpc] at hx; cases hx
            exact .inr (.inr (.inr (.inr ⟨rfl, rfl, by simpa using ho⟩)))
    | _ => exact same _ rfl
  | answerReq i =>
    refine step_onReq (P := fun h' => ∃ x', h'.reqs[a]? = some x' ∧ ReqStep h h' x x') i _ (same _ rfl) (fun r hi => ?_)
    unfold SubHub.answerReq
    cases hpc : r.pc with
    | asking => exact req_set (r' := { r with pc := .answered _ }) hi rfl (ReqStep.plain (by simp [hpc]) (by simp) (by simp [hpc])) ha
    | goneAsking =>
      simp only
      split <;> exact req_set (r' := { r with pc := .gone }) hi rfl (ReqStep.plain (by simp [hpc]) (by simp) (by simp [hpc])) ha
    | _ => exact same _ rfl
  | hangUp i =>
    refine step_onReq (P := fun h' => ∃ x', h'.reqs[a]? = some x' ∧ ReqStep h h' x x') i _ (same _ rfl) (fun r hi => ?_)
    unfold SubHub.hangUp
    cases hpc : r.pc with
    | waiting => exact req_set (r' := { r with pc := .gone }) hi rfl (ReqStep.plain (by simp [hpc]) (by simp) (by simp [hpc])) ha
    | asking => exact req_set (r' := { r with pc := .goneAsking }) hi rfl (ReqStep.plain (by simp [hpc]) (by simp) (by simp [hpc])) ha
    | answered o =>
      cases o <;> exact req_set (r' := { r with pc := .gone }) hi rfl (ReqStep.plain (by simp [hpc]) (by simp) (by simp [hpc])) ha
    | streaming c pos =>
      refine req_set (r' := { r with pc := .gone }) hi rfl ⟨rfl, fun c' pos' hx => .inr (.inr (.inr (.inl ⟨rfl, rfl⟩))), fun hn => absurd hpc (hn c pos), fun hx => by simp [hpc] at hx⟩ ha
    | _ => exact same _ rfl
  | goShovel k =>
    refine step_onShovel (P := fun h' => ∃ x', h'.reqs[a]? = some x' ∧ ReqStep h h' x x') k _ (same _ rfl) (fun s hk => ?_)
    unfold SubHub.goShovel
    cases hpc : s.pc with
    | reading =>
      simp only
      split
      · unfold SubHub.shovelSend
        split <;> exact same _ rfl
      · exact same _ rfl
      · exact same _ rfl
    | wanting u =>
      simp only
      split
      · exact same _ rfl
      · unfold SubHub.shovelLocked
        split
        · split
          · split <;> exact same _ rfl
          · exact same _ rfl
        · exact same _ rfl
    | answered o => cases o <;> exact same _ rfl
    | _ => exact same _ rfl
  | answerShovel k =>
    refine step_onShovel (P := fun h' => ∃ x', h'.reqs[a]? = some x' ∧ ReqStep h h' x x') k _ (same _ rfl) (fun s hk => ?_)
    unfold SubHub.answerShovel
    split <;> exact same _ rfl
  | timeout k =>
    refine step_onShovel (P := fun h' => ∃ x', h'.reqs[a]? = some x' ∧ ReqStep h h' x x') k _ (same _ rfl) (fun s hk => ?_)
    unfold SubHub.timeout
    split
    · split <;> exact same _ rfl
    · exact same _ rfl
  | node op =>
    simp only [SubHub.step]
    split <;> exact same _ rfl

/-! ### What is sent comes from what the node handled -/

def inboxOf (s : PubSt) (i : Nat) : List PubMsg :=
  match s.made[i]? with
  | some st => st.inbox
  | none => []

theorem inbox_step {s : PubSt} (h : PubInv s) (op : PubOp) (i : Nat) :
    (inboxOf (pubAfter s op) i).Sublist (inboxOf s i) ∨
    (op = .serve ∧ ∃ st : PubStream, s.made[i]? = some st ∧ AMap.get s.streams st.topic = some i ∧
      inboxOf (pubAfter s op) i = inboxOf s i ++ mentions st.topic (handledBy s op)) := by
  have same : ∀ s' : PubSt, s'.made = s.made → (inboxOf s' i).Sublist (inboxOf s i) := fun s' e => by simp [inboxOf, e]
  cases op with
  | subscribe t =>
    left
    cases hg : AMap.get s.streams t with
    | some j =>
      refine same _ ?_
      simp [pubAfter, PubSt.step, PubSt.subscribe, hg, Except.map]
    | none =>
      have hm : t ∉ s.topics := by rw [h.core.same t]; simp [hg]
      simp only [pubAfter, PubSt.step, PubSt.subscribe, hg, floodSubscribe, hm, if_false, Except.map, inboxOf, getElem?_snoc]
      by_cases hi : i = s.made.length
      · subst hi; simp
      · simp [hi]
  | unsubscribe t =>
    left
    obtain ⟨x, b, h1, -, -, h2, -⟩ := unsubscribe_spec h.core t
    exact same _ (by simp [pubAfter, PubSt.step, h1, Except.map, h2])
  | dropStream j =>
    left
    simp only [pubAfter, PubSt.step]
    unfold PubSt.dropStream
    split
    · exact same _ rfl
    · next st hst =>
      split
      · simp only [inboxOf, getElem?_set_of hst]
        by_cases hj : j = i
        · subst hj; simp
        · simp [hj]
      · exact same _ rfl
  | readStream j =>
    left
    simp only [pubAfter, PubSt.step]
    unfold PubSt.readStream
    split
    · exact same _ rfl
    · next st hst =>
      split
      · split
        · next m rest hin =>
          simp only [inboxOf, getElem?_set_of hst]
          by_cases hj : j = i
          · subst hj; simp [hst, hin]
          · simp [hj]
        · next hin =>
          split
          · exact same _ rfl
          · simp only [inboxOf, getElem?_set_of hst]
            by_cases hj : j = i
            · subst hj; simp [hst]
            · simp [hj]
      · exact same _ rfl
  | addNode p => exact .inl (same _ rfl)
  | removeNode p => exact .inl (same _ rfl)
  | arrive e => exact .inl (same _ rfl)
  | drain =>
    left
    simp only [pubAfter, PubSt.step]
    cases hd : s.drops with
    | nil => exact same _ rfl
    | cons t ts =>
      have hcore : PubCore { s with drops := ts } := ⟨h.core.nodup, h.core.same, h.core.owner⟩
      obtain ⟨x, b, h1, -, -, h2, -⟩ := unsubscribe_spec hcore t
      simp only [h1, Except.map]
      exact same _ h2
  | serve =>
    simp only [pubAfter, PubSt.step, handledBy]
    cases hq : s.queue with
    | nil => exact .inl (same _ rfl)
    | cons e q =>
      have hcore : PubCore { s with queue := q } := ⟨h.core.nodup, h.core.same, h.core.owner⟩
      cases e with
      | action n => exact .inl (same _ rfl)
      | subscribed p t => exact .inl (same _ rfl)
      | unsubscribed p t =>
        refine .inl (same _ ?_)
        simp only [PubSt.handle, Except.map, PubSt.peerUnsubscribed]
        split
        · rfl
        · split <;> rfl
      | message m =>
        obtain ⟨x, h1, -, -, h2, h3, -⟩ := sendAll_spec m m.topics hcore
        simp only [PubSt.handle, h1, Except.map]
        cases hi : s.made[i]? with
        | none =>
          have : x.made[i]? = none := by
            rw [List.getElem?_eq_none_iff, h2]
            exact List.getElem?_eq_none_iff.1 hi
          left
          simp [inboxOf, this]
        | some st =>
          have h4 := h3 i st hi
          by_cases hr : st.alive = true ∧ AMap.get s.streams st.topic = some i
          · right
            refine ⟨trivial, st, rfl, hr.2, ?_⟩
            simp only [inboxOf, h4, hi]
            rw [if_pos hr]
            simp [mentions]
          · left
            simp only [inboxOf, h4, hi]
            rw [if_neg hr]
            exact List.Sublist.refl _

theorem inbox_quiet {s : PubSt} (h : PubInv s) {op : PubOp} (ho : op ≠ .serve) (i : Nat) :
    (inboxOf (pubAfter s op) i).Sublist (inboxOf s i) := by
  rcases inbox_step h op i with hx | ⟨hx, -⟩
  · exact hx
  · exact absurd hx ho

theorem pubAsk_after {s : PubSt} (t : Topic) (h : PubInv s) : (pubAsk s t).1 = pubAfter s (.subscribe t) ∧
    ∀ j, (pubAsk s t).2 = some j → inboxOf (pubAsk s t).1 j = [] := by
  cases hg : AMap.get s.streams t with
  | some j =>
    rw [pubAsk_none hg]
    refine ⟨?_, fun j hx => by cases hx⟩
    simp [pubAfter, PubSt.step, PubSt.subscribe, hg, Except.map]
  | none =>
    have hm : t ∉ s.topics := by rw [h.core.same t]; simp [hg]
    rw [(pubAsk_some h hg).1]
    refine ⟨?_, fun j hx => ?_⟩
    · simp [pubAfter, PubSt.step, PubSt.subscribe, hg, Except.map, floodSubscribe, hm, pubWith]
    · cases hx
      simp [inboxOf, pubWith]

/-- What a shovel is still to send. -/
def pendingOf (s : PubSt) (v : Shovel) : List PubMsg :=
  (if v.pc.lives then inboxOf s v.stream else []) ++
    match v.pc with
    | .answered (some j) => inboxOf s j
    | _ => []

structure HubSent (h : SubHub) (done : List FloodEv) : Prop where
  shovel : ∀ (k : Nat) (s : Shovel), h.shovels[k]? = some s →
    (h.sent s.chan ++ pendingOf h.ps s).Sublist (mentions s.topic done)
  req : ∀ (i : Nat) (r : SubReq) (j : Nat), h.reqs[i]? = some r → r.pc = .answered (some j) →
    (inboxOf h.ps j).Sublist (mentions r.topic done)

theorem pending_quiet {s s' : PubSt} (hq : ∀ i, (inboxOf s' i).Sublist (inboxOf s i)) (v : Shovel) :
    (pendingOf s' v).Sublist (pendingOf s v) := by
  unfold pendingOf
  refine List.Sublist.append ?_ ?_
  · split
    · exact hq _
    · exact List.Sublist.refl _
  · split
    · exact hq _
    · exact List.Sublist.refl _

theorem HubSent.quiet {h h' : SubHub} {done : List FloodEv} (hs : HubSent h done)
    (hq : ∀ i, (inboxOf h'.ps i).Sublist (inboxOf h.ps i)) (hc : h'.chans = h.chans) (hr : h'.reqs = h.reqs)
    (hv : h'.shovels = h.shovels) : HubSent h' done := by
  refine ⟨fun k s hk => ?_, fun i r j hi hp => (hq j).trans (hs.req i r j (hr ▸ hi) hp)⟩
  refine List.Sublist.trans ?_ (hs.shovel k s (hv ▸ hk))
  have : h'.sent s.chan = h.sent s.chan := by simp [SubHub.sent, hc]
  rw [this]
  exact (List.Sublist.refl _).append (pending_quiet hq s)

theorem HubSent.setReq {h h' : SubHub} {done : List FloodEv} (hs : HubSent h done) {i : Nat} {r r' : SubReq}
    (hi : h.reqs[i]? = some r) (hr : h'.reqs = h.reqs.set i r') (hv : h'.shovels = h.shovels) (hc : h'.chans = h.chans)
    (hq : ∀ i, (inboxOf h'.ps i).Sublist (inboxOf h.ps i))
    (hp : ∀ j, r'.pc = .answered (some j) → (inboxOf h'.ps j).Sublist (mentions r'.topic done)) : HubSent h' done := by
  refine ⟨fun k s hk => ?_, fun a x j ha hx => ?_⟩
  · refine List.Sublist.trans ?_ (hs.shovel k s (hv ▸ hk))
    have : h'.sent s.chan = h.sent s.chan := by simp [SubHub.sent, hc]
    rw [this]
    exact (List.Sublist.refl _).append (pending_quiet hq s)
  · rw [hr, getElem?_set_of hi] at ha
    split at ha
    · cases ha; exact hp j hx
    · exact (hq j).trans (hs.req a x j ha hx)

theorem HubSent.setShovel {h h' : SubHub} {done : List FloodEv} (hs : HubSent h done) {k : Nat} {s s' : Shovel}
    (hk : h.shovels[k]? = some s) (hr : h'.shovels = h.shovels.set k s') (hv : h'.reqs = h.reqs)
    (hc : ∀ (a : Nat) (x : Shovel), h.shovels[a]? = some x → k ≠ a → h'.sent x.chan = h.sent x.chan)
    (hq : ∀ i, (inboxOf h'.ps i).Sublist (inboxOf h.ps i))
    (hp : (h'.sent s'.chan ++ pendingOf h'.ps s').Sublist (mentions s'.topic done)) : HubSent h' done := by
  refine ⟨fun a x ha => ?_, fun a x j ha hx => (hq j).trans (hs.req a x j (hv ▸ ha) hx)⟩
  rw [hr, getElem?_set_of hk] at ha
  split at ha
  · cases ha; exact hp
  · next hne =>
    rw [hc a x ha hne]
    exact ((List.Sublist.refl _).append (pending_quiet hq x)).trans (hs.shovel a x ha)

theorem HubSent.node {h : SubHub} (hi : HubInv h) {done : List FloodEv} (hs : HubSent h done) (op : PubOp) :
    HubSent { h with ps := pubAfter h.ps op } (done ++ handledBy h.ps op) := by
  have grow : ∀ (i : Nat) (t : Topic) (st : PubStream), h.ps.made[i]? = some st → st.topic = t →
      (inboxOf (pubAfter h.ps op) i).Sublist (inboxOf h.ps i ++
        if AMap.get h.ps.streams t = some i then mentions t (handledBy h.ps op) else []) := by
    intro i t st hst ht
    rcases inbox_step hi.streams.pub op i with hx | ⟨-, st', h1, h2, h3⟩
    · exact hx.trans (List.sublist_append_left _ _)
    · rw [hst] at h1; cases h1
      rw [ht] at h2 h3
      rw [if_pos h2, h3]
      exact List.Sublist.refl _
  have all : ∀ (x : Option Nat) (o : StreamOwner) (i : Nat) (t : Topic) (p : List PubMsg), Owns h o i t →
      (p ++ inboxOf h.ps i).Sublist (mentions t done) →
      (p ++ inboxOf (pubAfter h.ps op) i).Sublist (mentions t done ++ mentions t (handledBy h.ps op)) := by
    intro x o i t p ho hp
    obtain ⟨st, h1, h2, -⟩ := hi.streams.alive o i t ho
    refine (List.Sublist.append (List.Sublist.refl p) (grow i t st h1 h2)).trans ?_
    rw [← List.append_assoc]
    refine hp.append ?_
    split
    · exact List.Sublist.refl _
    · exact List.nil_sublist _
  refine ⟨fun k s hk => ?_, fun i r j hr hp => ?_⟩
  · have h0 := hs.shovel k s hk
    rw [mentions_append]
    simp only [pendingOf] at h0 ⊢
    show (h.sent s.chan ++ _).Sublist _
    by_cases hl : s.pc.lives = true
    · rw [if_pos hl] at h0 ⊢
      by_cases hn : ∃ j, s.pc = .answered (some j)
      · obtain ⟨j, hn⟩ := hn
        simp only [hn] at h0 ⊢
        rw [← List.append_assoc] at h0 ⊢
        have h1 : (inboxOf (pubAfter h.ps op) s.stream).Sublist (inboxOf h.ps s.stream) := by
          obtain ⟨st, a1, a2, -⟩ := hi.streams.alive (.shovel k) s.stream s.topic ⟨s, hk, hl, rfl, rfl⟩
          have := grow s.stream s.topic st a1 a2
          rw [if_neg (hi.streams.stale k j s hk hn), List.append_nil] at this
          exact this
        exact (List.Sublist.append ((List.Sublist.refl _).append h1) (List.Sublist.refl _)).trans
          (all none (.next k) j s.topic _ ⟨s, hk, hn, rfl⟩ h0)
      · have e : ∀ q : PubSt, (match s.pc with | .answered (some j) => inboxOf q j | _ => []) = [] := by
          intro q
          split
          · next j hx => exact absurd ⟨j, hx⟩ hn
          · rfl
        rw [e, List.append_nil] at h0 ⊢
        exact all none (.shovel k) s.stream s.topic _ ⟨s, hk, hl, rfl, rfl⟩ h0
    · have hn : ∀ j, s.pc ≠ .answered (some j) := by
        intro j hx
        rw [hx] at hl
        exact hl rfl
      have e : ∀ q : PubSt, (match s.pc with | .answered (some j) => inboxOf q j | _ => []) = [] := by
        intro q
        split
        · next j hx => exact absurd hx (hn j)
        · rfl
      rw [if_neg hl, e] at h0 ⊢
      exact h0.trans (List.sublist_append_left _ _)
  · rw [mentions_append]
    have := all none (.req i) j r.topic [] ⟨r, hr, hp, rfl⟩ (by simpa using hs.req i r j hr hp)
    simpa using this

/-- What the node handles of its queue in a step. -/
def handledOf (h : SubHub) : SubOp → List FloodEv
  | .node op => if outsideOp op then handledBy h.ps op else []
  | _ => []

theorem pending_plain (q : PubSt) {s : Shovel} {pc : ShovelPc} (hl : pc.lives = true → s.pc.lives = true)
    (hn : ∀ j, pc ≠ .answered (some j)) : (pendingOf q { s with pc := pc }).Sublist (pendingOf q s) := by
  have e : (match pc with | .answered (some j) => inboxOf q j | _ => []) = [] := by
    split
    · next j => exact absurd rfl (hn j)
    · rfl
  unfold pendingOf
  simp only [List.append_nil]
  by_cases h : pc.lives = true
  · simp [h, hl h]
  · simp [h]

theorem HubSent.plainShovel {h h' : SubHub} {done : List FloodEv} (hs : HubSent h done) {k : Nat} {s : Shovel} {pc : ShovelPc}
    (hk : h.shovels[k]? = some s) (hr : h'.shovels = h.shovels.set k { s with pc := pc }) (hv : h'.reqs = h.reqs)
    (hc : h'.chans = h.chans) (hq : ∀ i, (inboxOf h'.ps i).Sublist (inboxOf h.ps i))
    (hl : pc.lives = true → s.pc.lives = true) (hn : ∀ j, pc ≠ .answered (some j)) : HubSent h' done := by
  have e : ∀ c, h'.sent c = h.sent c := fun c => by simp [SubHub.sent, hc]
  refine hs.setShovel hk hr hv (fun a x _ _ => e _) hq ?_
  rw [e]
  exact ((List.Sublist.refl _).append ((pending_quiet hq _).trans (pending_plain h.ps hl hn))).trans (hs.shovel k s hk)

theorem HubSent.grow {h : SubHub} {done : List FloodEv} (hs : HubSent h done) (more : List FloodEv) : HubSent h (done ++ more) := by
  refine ⟨fun k s hk => ?_, fun i r j hi hp => ?_⟩
  · rw [mentions_append]; exact (hs.shovel k s hk).trans (List.sublist_append_left _ _)
  · rw [mentions_append]; exact (hs.req i r j hi hp).trans (List.sublist_append_left _ _)

theorem read_item {s : PubSt} {i : Nat} {m : PubMsg} (h : (s.readStream i).2 = .item m) :
    inboxOf s i = m :: inboxOf (pubAfter s (.readStream i)) i := by
  simp only [pubAfter, PubSt.step]
  unfold PubSt.readStream at h ⊢
  cases hi : s.made[i]? with
  | none => simp [hi] at h
  | some st =>
    simp only [hi] at h ⊢
    by_cases ha : st.alive = true
    · simp only [ha, if_true] at h ⊢
      cases hin : st.inbox with
      | nil =>
        simp only [hin] at h
        split at h <;> cases h
      | cons x rest =>
        simp only [hin] at h
        cases h
        simp [inboxOf, hi, hin, getElem?_set_of hi]
    · simp [ha] at h

theorem HubSent.step {h : SubHub} (hi : HubInv h) {done : List FloodEv} (hs : HubSent h done) (op : SubOp) :
    HubSent (h.step op) (done ++ handledOf h op) := by
  have refl : ∀ i, (inboxOf h.ps i).Sublist (inboxOf h.ps i) := fun i => List.Sublist.refl _
  cases op with
  | request t =>
    simp only [handledOf, List.append_nil]
    refine ⟨hs.shovel, fun i r j hr hp => ?_⟩
    simp only [SubHub.step, getElem?_snoc] at hr
    split at hr
    · cases hr; cases hp
    · exact hs.req i r j hr hp
  | goReq i =>
    simp only [handledOf, List.append_nil]
    refine step_onReq (P := fun h' => HubSent h' done) i _ hs (fun r hr => ?_)
    unfold SubHub.goReq
    cases hpc : r.pc with
    | waiting =>
      simp only
      split
      · exact hs
      · split
        · exact hs.setReq hr (r' := { r with pc := .streaming _ _ }) rfl rfl rfl refl (fun j hx => by cases hx)
        · exact hs.setReq hr (r' := { r with pc := .asking }) rfl rfl rfl refl (fun j hx => by cases hx)
    | answered o =>
      cases o with
      | none => exact hs.setReq hr (r' := { r with pc := .panicked }) rfl rfl rfl refl (fun j hx => by cases hx)
      | some j =>
        have e : ∀ c, c < h.chans.length →
            ((h.chans ++ [[]])[c]?).getD [] = h.sent c := fun c hc => by
          rw [List.getElem?_append_left hc]; rfl
        refine ⟨fun k s hk => ?_, fun a x j' ha hx => ?_⟩
        · simp only [getElem?_snoc] at hk
          split at hk
          · cases hk
            simp only [SubHub.sent, List.getElem?_concat_length, Option.getD_some, List.nil_append, pendingOf, ShovelPc.lives,
              if_true, List.append_nil]
            exact hs.req i r j hr hpc
          · have := hs.shovel k s hk
            show ((((h.chans ++ [[]])[s.chan]?).getD []) ++ _).Sublist _
            rw [e _ (hi.shape.chanLt k s hk)]
            exact this
        · simp only [SubHub.setReq, getElem?_set_of hr] at ha
          split at ha
          · cases ha; cases hx
          · exact hs.req a x j' ha hx
    | streaming c pos =>
      simp only [SubHub.recv]
      split
      · exact hs.setReq hr (r' := { r with pc := .lagged }) rfl rfl rfl refl (fun j hx => by cases hx)
      · split
        · exact hs.setReq hr (r' := { r with pc := .streaming _ _, out := _ }) rfl rfl rfl refl (fun j hx => by cases hx)
        · split
          · exact hs
          · exact hs.setReq hr (r' := { r with pc := .closed }) rfl rfl rfl refl (fun j hx => by cases hx)
    | _ => exact hs
  | answerReq i =>
    simp only [handledOf, List.append_nil]
    refine step_onReq (P := fun h' => HubSent h' done) i _ hs (fun r hr => ?_)
    obtain ⟨ha, hj⟩ := pubAsk_after (s := h.ps) r.topic hi.streams.pub
    have hq : ∀ i, (inboxOf (pubAsk h.ps r.topic).1 i).Sublist (inboxOf h.ps i) := by
      intro i; rw [ha]; exact inbox_quiet hi.streams.pub (by simp) i
    have hp : PubInv (pubAsk h.ps r.topic).1 := by
      rw [ha]
      obtain ⟨_, _, h2⟩ := pubAfter_spec hi.streams.pub (.subscribe r.topic)
      exact h2.inv
    unfold SubHub.answerReq
    cases hpc : r.pc with
    | asking =>
      refine hs.setReq hr (r' := { r with pc := .answered (pubAsk h.ps r.topic).2 }) rfl rfl rfl hq (fun j hx => ?_)
      simp only [SubPc.answered.injEq] at hx
      show (inboxOf (pubAsk h.ps r.topic).1 j).Sublist _
      rw [hj j hx]
      exact List.nil_sublist _
    | goneAsking =>
      simp only
      split
      · exact hs.setReq hr (r' := { r with pc := .gone }) rfl rfl rfl
          (fun i => (inbox_quiet hp (by simp) i).trans (hq i)) (fun j hx => by cases hx)
      · exact hs.setReq hr (r' := { r with pc := .gone }) rfl rfl rfl hq (fun j hx => by cases hx)
    | _ => exact hs
  | hangUp i =>
    simp only [handledOf, List.append_nil]
    refine step_onReq (P := fun h' => HubSent h' done) i _ hs (fun r hr => ?_)
    unfold SubHub.hangUp
    cases hpc : r.pc with
    | waiting => exact hs.setReq hr (r' := { r with pc := .gone }) rfl rfl rfl refl (fun j hx => by cases hx)
    | asking => exact hs.setReq hr (r' := { r with pc := .goneAsking }) rfl rfl rfl refl (fun j hx => by cases hx)
    | streaming c pos => exact hs.setReq hr (r' := { r with pc := .gone }) rfl rfl rfl refl (fun j hx => by cases hx)
    | answered o =>
      cases o with
      | none => exact hs.setReq hr (r' := { r with pc := .gone }) rfl rfl rfl refl (fun j hx => by cases hx)
      | some j =>
        exact hs.setReq hr (r' := { r with pc := .gone }) rfl rfl rfl (inbox_quiet hi.streams.pub (by simp)) (fun j hx => by cases hx)
    | _ => exact hs
  | goShovel k =>
    simp only [handledOf, List.append_nil]
    refine step_onShovel (P := fun h' => HubSent h' done) k _ hs (fun s hk => ?_)
    unfold SubHub.goShovel
    cases hpc : s.pc with
    | reading =>
      have hq := inbox_quiet hi.streams.pub (op := .readStream s.stream) (by simp)
      have hw : HubSent { h.setShovel k { s with pc := .wanting true } with ps := pubAfter h.ps (.readStream s.stream) } done :=
        hs.plainShovel (pc := .wanting true) hk rfl rfl rfl hq (by simp [hpc, ShovelPc.lives]) (by simp)
      simp only
      cases hrd : (h.ps.readStream s.stream).2 with
      | item m =>
        simp only [SubHub.shovelSend]
        split
        · have hkk : (h.shovels.set k s)[k]? = some s := by simp [getElem?_set_of hk]
          have hset : h.shovels.set k s = h.shovels := by
            apply List.ext_getElem?
            intro a
            rw [getElem?_set_of hk]
            split
            · next e => subst e; exact hk.symm
            · rfl
          refine hs.setShovel (s' := s) hk hset.symm rfl (fun a x ha hne => ?_) hq ?_
          · have : s.chan ≠ x.chan := fun e => hne (hi.shape.chanInj k a s x hk ha e)
            simp [SubHub.sent, this]
          · have h0 := hs.shovel k s hk
            rw [show pendingOf h.ps s = m :: pendingOf (pubAfter h.ps (.readStream s.stream)) s by
              simp [pendingOf, hpc, ShovelPc.lives, read_item hrd]] at h0
            have e : (((h.chans.set s.chan (h.sent s.chan ++ [m]))[s.chan]?).getD []) = h.sent s.chan ++ [m] := by
              simp [hi.shape.chanLt k s hk]
            show ((((h.chans.set s.chan (h.sent s.chan ++ [m]))[s.chan]?).getD []) ++ _).Sublist _
            rw [e]
            simpa using h0
        · exact hs.plainShovel (pc := .wanting false) hk rfl rfl rfl hq (by simp [hpc, ShovelPc.lives]) (by simp)
      | pending => exact hs
      | ended => exact hw
      | noStream => exact hw
    | wanting u =>
      simp only
      split
      · exact hs
      · unfold SubHub.shovelLocked
        split
        · split
          · split
            · exact hs.plainShovel (pc := .asking) hk rfl rfl rfl refl (by simp [hpc, ShovelPc.lives]) (by simp)
            · exact hs.plainShovel (pc := .reading) hk rfl rfl rfl refl (by simp [hpc, ShovelPc.lives]) (by simp)
          · exact hs.plainShovel (pc := .leaving) hk rfl rfl rfl refl (by simp [hpc, ShovelPc.lives]) (by simp)
        · exact hs.plainShovel (pc := .unreachable) hk rfl rfl rfl refl (by simp [ShovelPc.lives]) (by simp)
    | answered o =>
      cases o with
      | none => exact hs.plainShovel (pc := .failing) hk rfl rfl rfl refl (by simp [hpc, ShovelPc.lives]) (by simp)
      | some j =>
        have hq := inbox_quiet hi.streams.pub (op := .dropStream s.stream) (by simp)
        refine hs.setShovel (s' := { s with stream := j, pc := .reading }) hk rfl rfl (fun a x _ _ => rfl) hq ?_
        refine List.Sublist.trans ?_ (hs.shovel k s hk)
        refine List.Sublist.append (List.Sublist.refl _) ?_
        simp only [pendingOf, hpc, ShovelPc.lives, if_true, List.append_nil]
        exact (hq j).trans (List.sublist_append_right _ _)
    | leaving =>
      exact hs.plainShovel (pc := .gone) hk rfl rfl rfl (inbox_quiet hi.streams.pub (op := .dropStream s.stream) (by simp)) (by simp [ShovelPc.lives]) (by simp)
    | failing =>
      exact hs.plainShovel (pc := .panicked) hk rfl rfl rfl (inbox_quiet hi.streams.pub (op := .dropStream s.stream) (by simp)) (by simp [ShovelPc.lives]) (by simp)
    | _ => exact hs
  | answerShovel k =>
    simp only [handledOf, List.append_nil]
    refine step_onShovel (P := fun h' => HubSent h' done) k _ hs (fun s hk => ?_)
    obtain ⟨ha, hj⟩ := pubAsk_after (s := h.ps) s.topic hi.streams.pub
    have hq : ∀ i, (inboxOf (pubAsk h.ps s.topic).1 i).Sublist (inboxOf h.ps i) := by
      intro i; rw [ha]; exact inbox_quiet hi.streams.pub (by simp) i
    unfold SubHub.answerShovel
    cases hpc : s.pc with
    | asking =>
      refine hs.setShovel (s' := { s with pc := .answered (pubAsk h.ps s.topic).2 }) hk rfl rfl (fun a x _ _ => rfl) hq ?_
      refine List.Sublist.trans ?_ (hs.shovel k s hk)
      refine List.Sublist.append (List.Sublist.refl _) ?_
      simp only [pendingOf, hpc, ShovelPc.lives, if_true, List.append_nil]
      cases hx : (pubAsk h.ps s.topic).2 with
      | none => simpa using hq s.stream
      | some j => simpa [hj j hx] using hq s.stream
    | _ => exact hs
  | timeout k =>
    simp only [handledOf, List.append_nil]
    refine step_onShovel (P := fun h' => HubSent h' done) k _ hs (fun s hk => ?_)
    unfold SubHub.timeout
    cases hpc : s.pc with
    | reading =>
      simp only
      split
      · exact hs.plainShovel (pc := .wanting true) hk rfl rfl rfl refl (by simp [hpc, ShovelPc.lives]) (by simp)
      · exact hs
    | _ => exact hs
  | node op =>
    simp only [SubHub.step, handledOf]
    split
    · exact hs.node hi op
    · simpa using hs

/-! ### The queue of the node -/

theorem pub_queue {s : PubSt} (h : PubInv s) {op : PubOp} (h1 : op ≠ .serve) (h2 : ∀ e, op ≠ .arrive e) :
    (pubAfter s op).queue = s.queue := by
  obtain ⟨a, -, hp⟩ := pubAfter_spec h op
  have := hp.queue
  cases op <;> simp_all [arrivals, handledBy]

theorem pubAsk_inv {s : PubSt} (h : PubInv s) (t : Topic) : PubInv (pubAsk s t).1 := by
  rw [(pubAsk_after t h).1]
  obtain ⟨_, _, h2⟩ := pubAfter_spec h (.subscribe t)
  exact h2.inv

theorem queue_step {h : SubHub} (hi : HubInv h) (op : SubOp) :
    h.ps.queue ++ subArrivals [op] = handledOf h op ++ (h.step op).ps.queue := by
  have hp := hi.streams.pub
  have same : ∀ h' : SubHub, h'.ps.queue = h.ps.queue → h.ps.queue ++ [] = [] ++ h'.ps.queue := fun h' e => by simp [e]
  cases op with
  | request t => exact same _ rfl
  | goReq i =>
    refine step_onReq (P := fun h' => h.ps.queue ++ [] = [] ++ h'.ps.queue) i _ (same _ rfl) (fun r hr => ?_)
    unfold SubHub.goReq
    cases hpc : r.pc with
    | waiting =>
      simp only
      split
      · exact same _ rfl
      · split <;> exact same _ rfl
    | answered o => cases o <;> exact same _ rfl
    | streaming c pos =>
      simp only [SubHub.recv]
      split
      · exact same _ rfl
      · split
        · exact same _ rfl
        · split <;> exact same _ rfl
    | _ => exact same _ rfl
  | answerReq i =>
    refine step_onReq (P := fun h' => h.ps.queue ++ [] = [] ++ h'.ps.queue) i _ (same _ rfl) (fun r hr => ?_)
    have hq : (pubAsk h.ps r.topic).1.queue = h.ps.queue := by
      rw [(pubAsk_after r.topic hp).1]; exact pub_queue hp (by simp) (by simp)
    unfold SubHub.answerReq
    split
    · exact same _ hq
    · split
      · exact same _ ((pub_queue (pubAsk_inv hp r.topic) (by simp) (by simp)).trans hq)
      · exact same _ hq
    · exact same _ rfl
  | hangUp i =>
    refine step_onReq (P := fun h' => h.ps.queue ++ [] = [] ++ h'.ps.queue) i _ (same _ rfl) (fun r hr => ?_)
    unfold SubHub.hangUp
    cases hpc : r.pc with
    | answered o =>
      cases o with
      | none => exact same _ rfl
      | some j => exact same _ (pub_queue hp (by simp) (by simp))
    | _ => exact same _ rfl
  | goShovel k =>
    refine step_onShovel (P := fun h' => h.ps.queue ++ [] = [] ++ h'.ps.queue) k _ (same _ rfl) (fun s hk => ?_)
    unfold SubHub.goShovel
    cases hpc : s.pc with
    | reading =>
      have hq : (pubAfter h.ps (.readStream s.stream)).queue = h.ps.queue := pub_queue hp (by simp) (by simp)
      simp only
      split
      · unfold SubHub.shovelSend
        split <;> exact same _ hq
      · exact same _ rfl
      · exact same _ hq
    | wanting u =>
      simp only
      split
      · exact same _ rfl
      · unfold SubHub.shovelLocked
        split
        · split
          · split <;> exact same _ rfl
          · exact same _ rfl
        · exact same _ rfl
    | answered o =>
      cases o with
      | none => exact same _ rfl
      | some j => exact same _ (pub_queue hp (by simp) (by simp))
    | leaving => exact same _ (pub_queue hp (by simp) (by simp))
    | failing => exact same _ (pub_queue hp (by simp) (by simp))
    | _ => exact same _ rfl
  | answerShovel k =>
    refine step_onShovel (P := fun h' => h.ps.queue ++ [] = [] ++ h'.ps.queue) k _ (same _ rfl) (fun s hk => ?_)
    have hq : (pubAsk h.ps s.topic).1.queue = h.ps.queue := by
      rw [(pubAsk_after s.topic hp).1]; exact pub_queue hp (by simp) (by simp)
    unfold SubHub.answerShovel
    split
    · exact same _ hq
    · exact same _ rfl
  | timeout k =>
    refine step_onShovel (P := fun h' => h.ps.queue ++ [] = [] ++ h'.ps.queue) k _ (same _ rfl) (fun s hk => ?_)
    unfold SubHub.timeout
    split
    · split <;> exact same _ rfl
    · exact same _ rfl
  | node op =>
    simp only [SubHub.step, handledOf]
    split
    · next ho =>
      obtain ⟨a, -, h2⟩ := pubAfter_spec hp op
      have e : subArrivals [.node op] = arrivals [op] := by cases op <;> rfl
      rw [e]
      exact h2.queue
    · next ho =>
      have e : subArrivals [.node op] = [] := by cases op <;> first | rfl | simp [outsideOp] at ho
      rw [e]
      simp

/-! ### The requests after a step were there before, or are new -/

theorem reqs_length {h : SubHub} (op : SubOp) (hop : ∀ t, op ≠ .request t) : (h.step op).reqs.length = h.reqs.length := by
  have same : ∀ h' : SubHub, h'.reqs = h.reqs → h'.reqs.length = h.reqs.length := fun h' e => by rw [e]
  have set : ∀ (h' : SubHub) (i : Nat) (r : SubReq), h'.reqs = h.reqs.set i r → h'.reqs.length = h.reqs.length := fun h' i r e => by simp [e]
  cases op with
  | request t => exact absurd rfl (hop t)
  | goReq i =>
    refine step_onReq (P := fun h' => h'.reqs.length = h.reqs.length) i _ rfl (fun r hr => ?_)
    unfold SubHub.goReq
    cases hpc : r.pc with
    | waiting =>
      simp only
      split
      · exact same _ rfl
      · split <;> exact set _ i _ rfl
    | answered o => cases o <;> exact set _ i _ rfl
    | streaming c pos =>
      simp only [SubHub.recv]
      split
      · exact set _ i _ rfl
      · split
        · exact set _ i _ rfl
        · split
          · exact same _ rfl
          · exact set _ i _ rfl
    | _ => exact same _ rfl
  | answerReq i =>
    refine step_onReq (P := fun h' => h'.reqs.length = h.reqs.length) i _ rfl (fun r hr => ?_)
    unfold SubHub.answerReq
    split
    · exact set _ i _ rfl
    · split <;> exact set _ i _ rfl
    · exact same _ rfl
  | hangUp i =>
    refine step_onReq (P := fun h' => h'.reqs.length = h.reqs.length) i _ rfl (fun r hr => ?_)
    unfold SubHub.hangUp
    split <;> first | exact set _ i _ rfl | exact same _ rfl
  | goShovel k =>
    refine step_onShovel (P := fun h' => h'.reqs.length = h.reqs.length) k _ rfl (fun s hk => ?_)
    unfold SubHub.goShovel
    cases hpc : s.pc with
    | reading =>
      simp only
      split
      · unfold SubHub.shovelSend
        split <;> exact same _ rfl
      · exact same _ rfl
      · exact same _ rfl
    | wanting u =>
      simp only
      split
      · exact same _ rfl
      · unfold SubHub.shovelLocked
        split
        · split
          · split <;> exact same _ rfl
          · exact same _ rfl
        · exact same _ rfl
    | answered o => cases o <;> exact same _ rfl
    | _ => exact same _ rfl
  | answerShovel k =>
    refine step_onShovel (P := fun h' => h'.reqs.length = h.reqs.length) k _ rfl (fun s hk => ?_)
    unfold SubHub.answerShovel
    split <;> exact same _ rfl
  | timeout k =>
    refine step_onShovel (P := fun h' => h'.reqs.length = h.reqs.length) k _ rfl (fun s hk => ?_)
    unfold SubHub.timeout
    split
    · split <;> exact same _ rfl
    · exact same _ rfl
  | node op =>
    simp only [SubHub.step]
    split <;> exact same _ rfl

theorem req_back {h : SubHub} (op : SubOp) {a : Nat} {x' : SubReq} (ha : (h.step op).reqs[a]? = some x') :
    (∃ x : SubReq, h.reqs[a]? = some x ∧ ReqStep h (h.step op) x x') ∨
    (a = h.reqs.length ∧ x'.pc = .waiting ∧ x'.out = [] ∧ op = .request x'.topic) := by
  cases hx : h.reqs[a]? with
  | some x =>
    obtain ⟨y, h1, h2⟩ := req_step op hx
    rw [ha] at h1; cases h1
    exact .inl ⟨x, rfl, h2⟩
  | none =>
    have h1 := List.getElem?_eq_none_iff.1 hx
    have h2 := (List.getElem?_eq_some_iff.1 ha).1
    by_cases hop : ∃ t, op = .request t
    · obtain ⟨t, rfl⟩ := hop
      simp only [SubHub.step, getElem?_snoc] at ha
      split at ha
      · next e => cases ha; exact .inr ⟨e, rfl, rfl, rfl⟩
      · rw [hx] at ha; cases ha
    · rw [reqs_length op (fun t e => hop ⟨t, e⟩)] at h2
      omega

/-! ### The responses so far -/

/-- Each response is a part of the channel it reads. -/
structure HubOut (h : SubHub) (done : List FloodEv) : Prop where
  all : ∀ (i : Nat) (r : SubReq), h.reqs[i]? = some r → r.out.Sublist (mentions r.topic done)
  streaming : ∀ (i : Nat) (r : SubReq) (c pos : Nat), h.reqs[i]? = some r → r.pc = .streaming c pos →
    ∃ start, start ≤ pos ∧ r.out = ((h.sent c).take pos).drop start
  fresh : ∀ (i : Nat) (r : SubReq), h.reqs[i]? = some r → (∀ c pos, r.pc ≠ .streaming c pos) →
    ¬ (r.pc = .gone ∨ r.pc = .lagged ∨ r.pc = .closed) → r.out = []

theorem HubOut.step {h : SubHub} (hi : HubInv h) {done : List FloodEv} (hs : HubSent h done) (ho : HubOut h done) (op : SubOp)
    (more : List FloodEv) : HubOut (h.step op) (done ++ more) := by
  have main : ∀ (i : Nat) (r' : SubReq), (h.step op).reqs[i]? = some r' → r'.out.Sublist (mentions r'.topic done) ∧
      (∀ c pos, r'.pc = .streaming c pos → ∃ start, start ≤ pos ∧ r'.out = (((h.step op).sent c).take pos).drop start) ∧
      ((∀ c pos, r'.pc ≠ .streaming c pos) → ¬ (r'.pc = .gone ∨ r'.pc = .lagged ∨ r'.pc = .closed) → r'.out = []) := by
    intro i r' hr'
    rcases req_back op hr' with ⟨r, hr, hst⟩ | ⟨-, h1, h2, -⟩
    · by_cases hstr : ∃ c pos, r.pc = .streaming c pos
      · obtain ⟨c, pos, hpc⟩ := hstr
        obtain ⟨start, h1, h2⟩ := ho.streaming i r c pos hr hpc
        obtain ⟨m', hm'⟩ := chan_step hi.shape op c
        have hle := (hi.shape.hearing i r c pos hr hpc).2
        rcases hst.streaming c pos hpc with e | ⟨m, e1, e2, e3⟩ | ⟨e1, e2, -⟩ | ⟨e1, e2⟩ | ⟨e1, e2, -⟩
        · subst e
          refine ⟨ho.all i _ hr, fun c' pos' hx => ?_, fun hx => absurd hpc (hx c pos)⟩
          rw [hpc] at hx; cases hx
          exact ⟨start, h1, by rw [hm', List.take_append_of_le_length hle]; exact h2⟩
        · have hlt := (List.getElem?_eq_some_iff.1 e1).1
          have e4 : r'.out = ((h.sent c).take (pos + 1)).drop start := by
            rw [e3, h2, List.take_add_one, e1, List.drop_append_of_le_length (by simp; omega)]
            rfl
          refine ⟨?_, fun c' pos' hx => ?_, fun hx => absurd e2 (hx c (pos + 1))⟩
          · obtain ⟨k, s, hk, k1, k2, -⟩ := hi.shape.entry _ _ (hi.shape.hearing i r c pos hr hpc).1
            have := hs.shovel k s hk
            rw [k1, k2] at this
            rw [e4, hst.topic]
            exact (((List.drop_sublist _ _).trans (List.take_sublist _ _)).trans (List.sublist_append_left _ _)).trans this
          · rw [e2] at hx; cases hx
            refine ⟨start, by omega, ?_⟩
            rw [hm', List.take_append_of_le_length (by omega)]
            exact e4
        all_goals
          refine ⟨by rw [e2, hst.topic]; exact ho.all i _ hr, fun c' pos' hx => (by rw [e1] at hx; cases hx), fun _ hx => (by simp [e1] at hx)⟩
      · have hn : ∀ c pos, r.pc ≠ .streaming c pos := fun c pos e => hstr ⟨c, pos, e⟩
        obtain ⟨e1, e2⟩ := hst.start hn
        by_cases hov : r.pc = .gone ∨ r.pc = .lagged ∨ r.pc = .closed
        · have e := hst.over hov
          subst e
          exact ⟨ho.all i _ hr, fun c pos hx => absurd hx (hn c pos), fun _ hx => absurd hov hx⟩
        · have hemp := ho.fresh i r hr hn hov
          rw [hemp] at e1
          refine ⟨by rw [e1]; exact List.nil_sublist _, fun c pos hx => ?_, fun _ _ => e1⟩
          refine ⟨pos, Nat.le_refl _, ?_⟩
          rw [e1, List.drop_eq_nil_of_le (by simp; omega)]
    · exact ⟨by rw [h2]; exact List.nil_sublist _, fun c pos hx => (by rw [h1] at hx; cases hx), fun _ _ => h2⟩
  refine ⟨fun i r hr => ?_, fun i r c pos hr hp => (main i r hr).2.1 c pos hp, fun i r hr hp => (main i r hr).2.2 hp⟩
  rw [mentions_append]
  exact (main i r hr).1.trans (List.sublist_append_left _ _)

/-! ### A shovel that feeds its channel -/

theorem read_ans {s s' : PubSt} {op : PubOp} {a : PubAns} {i : Nat} (hs : s.step op = .ok (s', a)) (ho : op ≠ .readStream i) :
    readFrom i [a] = [] := by
  cases op with
  | readStream j =>
    simp only [PubSt.step] at hs
    cases hs
    have : j ≠ i := fun e => ho (by rw [e])
    cases (s.readStream j).2 <;> simp [readFrom, this]
  | subscribe t =>
    simp only [PubSt.step] at hs
    cases hx : s.subscribe t <;> simp [hx, Except.map] at hs
    obtain ⟨-, rfl⟩ := hs; rfl
  | unsubscribe t =>
    simp only [PubSt.step] at hs
    cases hx : s.unsubscribe t <;> simp [hx, Except.map] at hs
    obtain ⟨-, rfl⟩ := hs; rfl
  | drain =>
    simp only [PubSt.step] at hs
    split at hs
    · cases hs; rfl
    · next t ts _ =>
      cases hx : PubSt.unsubscribe { s with drops := ts } t <;> simp [hx, Except.map] at hs
      obtain ⟨-, rfl⟩ := hs; rfl
  | serve =>
    simp only [PubSt.step] at hs
    split at hs
    · cases hs; rfl
    · next e q _ =>
      cases hx : PubSt.handle { s with queue := q } e <;> simp [hx, Except.map] at hs
      obtain ⟨-, rfl⟩ := hs; rfl
  | _ => cases hs; rfl

/-- The stream is the one of the topic, and nothing known so far will remove it. -/
structure Feeds (q : PubSt) (i : Nat) (t : Topic) : Prop where
  alive : ∃ st : PubStream, q.made[i]? = some st ∧ st.topic = t ∧ st.alive = true
  registered : AMap.get q.streams t = some i
  noNotice : t ∉ q.drops

theorem Feeds.step {q : PubSt} {i : Nat} {t : Topic} (hf : Feeds q i t) (hp : PubInv q) (op : PubOp)
    (h1 : op ≠ .unsubscribe t) (h2 : op ≠ .readStream i)
    (h3 : ∀ (j : Nat) (st : PubStream), op = .dropStream j → q.made[j]? = some st → st.topic ≠ t) :
    Feeds (pubAfter q op) i t ∧ inboxOf (pubAfter q op) i = inboxOf q i ++ mentions t (handledBy q op) := by
  obtain ⟨a, hs, hst⟩ := pubAfter_spec hp op
  obtain ⟨st, a1, a2, a3⟩ := hf.alive
  obtain ⟨st', b1, b2, b3, b4, -, b6⟩ := hst.stream i st a1
  have hnd : op ≠ .dropStream i := fun e => h3 i st e a1 a2
  have hal : st'.alive = true := b3.2 ⟨a3, hnd⟩
  have hreg : AMap.get q.streams st.topic = some i := by rw [a2]; exact hf.registered
  refine ⟨⟨⟨st', b1, b2.trans a2, hal⟩, ?_, ?_⟩, ?_⟩
  · have := b6 hreg hal (by rw [a2]; exact h1) (by
      rintro ⟨-, e⟩
      rw [a2] at e
      exact hf.noNotice (List.mem_of_mem_head? e))
    rwa [a2] at this
  · intro hx
    rcases hst.drops t hx with h4 | ⟨j, x, e1, e2, e3⟩
    · exact hf.noNotice h4
    · exact h3 j x e1 e2 e3
  · have h5 := b4 hal
    rw [read_ans hs h2, if_pos hreg, a2] at h5
    simpa [inboxOf, a1, b1] using h5

theorem Healthy.feeds {h : SubHub} {k : Nat} {s : Shovel} (hh : Healthy h k s) (hi : HubInv h) : Feeds h.ps s.stream s.topic :=
  ⟨hi.streams.alive (.shovel k) s.stream s.topic ⟨s, hh.shovel, by rw [hh.reading]; rfl, rfl, rfl⟩, hh.registered, hh.noNotice⟩

/-- Nothing changes for the shovel. -/
theorem Healthy.same {h h' : SubHub} {k : Nat} {s : Shovel} (hh : Healthy h k s) (hp : h'.ps = h.ps) (hs : h'.shovels = h.shovels) :
    Healthy h' k s :=
  ⟨hs ▸ hh.shovel, hh.reading, hp ▸ hh.registered, hp ▸ hh.noNotice, hs ▸ hh.noOther⟩

theorem Healthy.move {h h' : SubHub} {k : Nat} {s : Shovel} (hh : Healthy h k s) (hf : Feeds h'.ps s.stream s.topic)
    (hs : h'.shovels = h.shovels) : Healthy h' k s :=
  ⟨hs ▸ hh.shovel, hh.reading, hf.registered, hf.noNotice, hs ▸ hh.noOther⟩

theorem Healthy.setOther {h h' : SubHub} {k a : Nat} {s x x' : Shovel} (hh : Healthy h k s) (hf : Feeds h'.ps s.stream s.topic)
    (ha : h.shovels[a]? = some x) (hs : h'.shovels = h.shovels.set a x') (hne : a ≠ k) (ht : x'.topic = x.topic)
    (hl : x.topic = s.topic → x'.pc ≠ .leaving ∧ x'.pc ≠ .failing) : Healthy h' k s := by
  refine ⟨by rw [hs, getElem?_set_of ha, if_neg hne]; exact hh.shovel, hh.reading, hf.registered, hf.noNotice, fun b y hb hy => ?_⟩
  rw [hs, getElem?_set_of ha] at hb
  split at hb
  · cases hb; exact hl (ht ▸ hy)
  · exact hh.noOther b y hb hy

theorem pubAsk_feeds {q : PubSt} {i : Nat} {t u : Topic} (hf : Feeds q i t) (hp : PubInv q) :
    Feeds (pubAsk q u).1 i t ∧ inboxOf (pubAsk q u).1 i = inboxOf q i := by
  rw [(pubAsk_after u hp).1]
  have := hf.step hp (.subscribe u) (by simp) (by simp) (fun _ _ e => by cases e)
  simpa [handledBy, mentions] using this

theorem pubAsk_topic {q : PubSt} {u : Topic} (hp : PubInv q) {j : Nat} (hj : (pubAsk q u).2 = some j) :
    AMap.get q.streams u = none ∧ ∃ st : PubStream, (pubAsk q u).1.made[j]? = some st ∧ st.topic = u := by
  cases hg : AMap.get q.streams u with
  | some i => rw [pubAsk_none hg] at hj; cases hj
  | none =>
    rw [(pubAsk_some hp hg).1] at hj ⊢
    cases hj
    exact ⟨rfl, ⟨u, true, true, []⟩, by simp [pubWith], rfl⟩

theorem read_feeding {q : PubSt} {i : Nat} {t : Topic} (hf : Feeds q i t) :
    (q.readStream i).2 = .pending ∨ ∃ m, (q.readStream i).2 = .item m := by
  obtain ⟨st, h1, h2, h3⟩ := hf.alive
  unfold PubSt.readStream
  simp only [h1, h3, if_true]
  cases st.inbox with
  | nil => left; simp [h2, hf.registered]
  | cons m rest => exact .inr ⟨m, rfl⟩

theorem Feeds.read {q : PubSt} {i : Nat} {t : Topic} (hf : Feeds q i t) (hp : PubInv q) : Feeds (pubAfter q (.readStream i)) i t := by
  obtain ⟨a, hs, hst⟩ := pubAfter_spec hp (.readStream i)
  obtain ⟨st, a1, a2, a3⟩ := hf.alive
  obtain ⟨st', b1, b2, b3, -, -, b6⟩ := hst.stream i st a1
  have hal : st'.alive = true := b3.2 ⟨a3, by simp⟩
  refine ⟨⟨st', b1, b2.trans a2, hal⟩, ?_, fun hx => ?_⟩
  · have := b6 (by rw [a2]; exact hf.registered) hal (by simp) (by simp)
    rwa [a2] at this
  · rcases hst.drops t hx with h4 | ⟨j, x, e1, -⟩
    · exact hf.noNotice h4
    · cases e1

theorem Healthy.step {h : SubHub} {k : Nat} {s : Shovel} (hh : Healthy h k s) (hi : HubInv h) (hheard : h.heard s.chan = true)
    (op : SubOp) (hop : op ≠ .node (.unsubscribe s.topic)) : Healthy (h.step op) k s ∧
    (h.step op).sent s.chan ++ inboxOf (h.step op).ps s.stream =
      h.sent s.chan ++ inboxOf h.ps s.stream ++ mentions s.topic (handledOf h op) := by
  have hp := hi.streams.pub
  have hf := hh.feeds hi
  have hent : AMap.get h.table s.topic = some s.chan := hi.shape.engaged k s hh.shovel (by rw [hh.reading]; rfl)
  have hlt := hi.shape.chanLt k s hh.shovel
  let P : SubHub → Prop := fun h' => Healthy h' k s ∧
    h'.sent s.chan ++ inboxOf h'.ps s.stream = h.sent s.chan ++ inboxOf h.ps s.stream ++ []
  have same : ∀ h' : SubHub, h'.ps = h.ps → h'.shovels = h.shovels → h'.chans = h.chans → P h' :=
    fun h' e1 e2 e3 => ⟨hh.same e1 e2, by simp [SubHub.sent, e1, e3]⟩
  have moved : ∀ h' : SubHub, Feeds h'.ps s.stream s.topic → inboxOf h'.ps s.stream = inboxOf h.ps s.stream →
      h'.shovels = h.shovels → h'.chans = h.chans → P h' :=
    fun h' e1 e2 e3 e4 => ⟨hh.move e1 e3, by simp [SubHub.sent, e2, e4]⟩
  have other : ∀ (h' : SubHub) (a : Nat) (x x' : Shovel), h.shovels[a]? = some x → a ≠ k → Feeds h'.ps s.stream s.topic →
      inboxOf h'.ps s.stream = inboxOf h.ps s.stream → h'.shovels = h.shovels.set a x' → h'.chans = h.chans → x'.topic = x.topic →
      (x.topic = s.topic → x'.pc ≠ .leaving ∧ x'.pc ≠ .failing) → P h' :=
    fun h' a x x' ha hne e1 e2 e3 e4 e5 e6 => ⟨hh.setOther e1 ha e3 hne e5 e6, by simp [SubHub.sent, e2, e4]⟩
  have holder : ∀ (i : Nat) (r : SubReq), h.reqs[i]? = some r → SubPc.holds r.pc = true → r.topic ≠ s.topic := by
    intro i r hr hx e
    have := hi.shape.vacant i r hr hx
    rw [e, hent] at this; cases this
  have stranger : ∀ (a : Nat) (x : Shovel), h.shovels[a]? = some x → a ≠ k → ShovelPc.engaged x.pc = true → x.topic ≠ s.topic := by
    intro a x ha hne hx e
    have := hi.shape.engaged a x ha hx
    rw [e, hent] at this
    exact hne (hi.shape.chanInj a k x s ha hh.shovel (Option.some.inj this).symm)
  have dropped : ∀ (q : PubSt) (j : Nat), PubInv q → Feeds q s.stream s.topic → (∀ st : PubStream, q.made[j]? = some st → st.topic ≠ s.topic) →
      Feeds (pubAfter q (.dropStream j)) s.stream s.topic ∧ inboxOf (pubAfter q (.dropStream j)) s.stream = inboxOf q s.stream := by
    intro q j hq hfq hx
    have := hfq.step hq (.dropStream j) (by simp) (by simp) (fun j' st e hst => by cases e; exact hx st hst)
    simpa [handledBy, mentions] using this
  cases op with
  | request t => exact same _ rfl rfl rfl
  | goReq i =>
    refine step_onReq (P := P) i _ (same _ rfl rfl rfl) (fun r hr => ?_)
    unfold SubHub.goReq
    cases hpc : r.pc with
    | waiting =>
      simp only
      split
      · exact same _ rfl rfl rfl
      · split <;> exact same _ rfl rfl rfl
    | answered o =>
      cases o with
      | none => exact same _ rfl rfl rfl
      | some j =>
        have hne := holder i r hr (by rw [hpc]; rfl)
        refine ⟨⟨?_, hh.reading, hh.registered, hh.noNotice, fun a x ha hx => ?_⟩, ?_⟩
        · simp only
          rw [List.getElem?_append_left (List.getElem?_eq_some_iff.1 hh.shovel).1]
          exact hh.shovel
        · simp only [getElem?_snoc] at ha
          split at ha
          · cases ha; exact ⟨by simp, by simp⟩
          · exact hh.noOther a x ha hx
        · simp only [SubHub.sent, List.append_nil]
          rw [List.getElem?_append_left hlt]
          rfl
    | streaming c pos =>
      simp only [SubHub.recv]
      split
      · exact same _ rfl rfl rfl
      · split
        · exact same _ rfl rfl rfl
        · split <;> exact same _ rfl rfl rfl
    | _ => exact same _ rfl rfl rfl
  | answerReq i =>
    refine step_onReq (P := P) i _ (same _ rfl rfl rfl) (fun r hr => ?_)
    obtain ⟨f1, f2⟩ := pubAsk_feeds (u := r.topic) hf hp
    unfold SubHub.answerReq
    cases hpc : r.pc with
    | asking => exact moved _ f1 f2 rfl rfl
    | goneAsking =>
      simp only
      split
      · next j hj =>
        obtain ⟨g1, st, g2, g3⟩ := pubAsk_topic hp hj
        obtain ⟨d1, d2⟩ := dropped _ j (pubAsk_inv hp r.topic) f1 (fun st' hst' e => by
          rw [g2] at hst'; cases hst'
          rw [g3] at e
          rw [e, hh.registered] at g1; cases g1)
        exact moved _ d1 (d2.trans f2) rfl rfl
      · exact moved _ f1 f2 rfl rfl
    | _ => exact same _ rfl rfl rfl
  | hangUp i =>
    refine step_onReq (P := P) i _ (same _ rfl rfl rfl) (fun r hr => ?_)
    unfold SubHub.hangUp
    cases hpc : r.pc with
    | answered o =>
      cases o with
      | none => exact same _ rfl rfl rfl
      | some j =>
        have hne := holder i r hr (by rw [hpc]; rfl)
        obtain ⟨st, g1, g2, -⟩ := hi.streams.alive (.req i) j r.topic ⟨r, hr, hpc, rfl⟩
        obtain ⟨d1, d2⟩ := dropped _ j hp hf (fun st' hst' e => by rw [g1] at hst'; cases hst'; exact hne (g2.symm.trans e))
        exact moved _ d1 d2 rfl rfl
    | _ => exact same _ rfl rfl rfl
  | goShovel a =>
    refine step_onShovel (P := P) a _ (same _ rfl rfl rfl) (fun x hx => ?_)
    by_cases hak : a = k
    · subst hak
      have e : x = s := by
        have := hh.shovel
        rw [hx] at this; cases this; rfl
      subst e
      unfold SubHub.goShovel
      simp only [hh.reading]
      rcases read_feeding hf with e | ⟨m, e⟩
      · simp only [e]
        exact same _ rfl rfl rfl
      · simp only [e, SubHub.shovelSend]
        rw [if_pos (by exact hheard)]
        refine ⟨hh.move (hf.read hp) rfl, ?_⟩
        simp only [SubHub.sent]
        rw [List.getElem?_set_self hlt, read_item e]
        simp
    · have fr : ShovelPc.engaged x.pc = true → ∀ st : PubStream, h.ps.made[x.stream]? = some st → x.pc.lives = true → st.topic ≠ s.topic := by
        intro he st hst hl e
        obtain ⟨st', g1, g2, -⟩ := hi.streams.alive (.shovel a) x.stream x.topic ⟨x, hx, hl, rfl, rfl⟩
        rw [hst] at g1; cases g1
        exact stranger a x hx hak he (g2.symm.trans e)
      have rd : x.stream ≠ s.stream → Feeds (pubAfter h.ps (.readStream x.stream)) s.stream s.topic ∧
          inboxOf (pubAfter h.ps (.readStream x.stream)) s.stream = inboxOf h.ps s.stream := by
        intro hne
        have := hf.step hp (.readStream x.stream) (by simp) (by simp [hne]) (fun _ _ e => by cases e)
        simpa [handledBy, mentions] using this
      have apart : x.pc.lives = true → x.stream ≠ s.stream := by
        intro hl e
        have := hi.streams.inj (.shovel a) (.shovel k) s.stream x.topic s.topic ⟨x, hx, hl, e, rfl⟩
          ⟨s, hh.shovel, by rw [hh.reading]; rfl, rfl, rfl⟩
        cases this
        exact hak rfl
      unfold SubHub.goShovel
      cases hpc : x.pc with
      | reading =>
        have hst := stranger a x hx hak (by rw [hpc]; rfl)
        obtain ⟨r1, r2⟩ := rd (apart (by rw [hpc]; rfl))
        have hw : P { h.setShovel a { x with pc := .wanting true } with ps := pubAfter h.ps (.readStream x.stream) } :=
          other _ a x { x with pc := .wanting true } hx hak r1 r2 rfl rfl rfl (fun _ => by simp)
        simp only
        cases hrd : (h.ps.readStream x.stream).2 with
        | item m =>
          simp only [SubHub.shovelSend]
          split
          · refine ⟨hh.move r1 rfl, ?_⟩
            have hcc : x.chan ≠ s.chan := fun e => hak (hi.shape.chanInj a k x s hx hh.shovel e)
            simp only [SubHub.sent]
            rw [List.getElem?_set_ne hcc, r2, List.append_nil]
          · exact other _ a x { x with pc := .wanting false } hx hak r1 r2 rfl rfl rfl (fun _ => by simp)
        | pending => exact same _ rfl rfl rfl
        | ended => exact hw
        | noStream => exact hw
      | wanting u =>
        have hst := stranger a x hx hak (by rw [hpc]; rfl)
        simp only
        split
        · exact same _ rfl rfl rfl
        · unfold SubHub.shovelLocked
          split
          · split
            · split
              · exact other _ a x { x with pc := .asking } hx hak hf rfl rfl rfl rfl (fun _ => by simp)
              · exact other _ a x { x with pc := .reading } hx hak hf rfl rfl rfl rfl (fun _ => by simp)
            · exact other _ a x { x with pc := .leaving } hx hak hf rfl rfl rfl rfl (fun e => absurd e hst)
          · exact other _ a x { x with pc := .unreachable } hx hak hf rfl rfl rfl rfl (fun _ => by simp)
      | answered o =>
        have hst := stranger a x hx hak (by rw [hpc]; rfl)
        cases o with
        | none => exact other _ a x { x with pc := .failing } hx hak hf rfl rfl rfl rfl (fun e => absurd e hst)
        | some j =>
          obtain ⟨d1, d2⟩ := dropped _ x.stream hp hf (fun st hst => fr (by rw [hpc]; rfl) st hst (by rw [hpc]; rfl))
          exact other _ a x { x with stream := j, pc := .reading } hx hak d1 d2 rfl rfl rfl (fun _ => by simp)
      | leaving =>
        have hst : x.topic ≠ s.topic := fun e => (hh.noOther a x hx e).1 hpc
        obtain ⟨st', g1, g2, -⟩ := hi.streams.alive (.shovel a) x.stream x.topic ⟨x, hx, by rw [hpc]; rfl, rfl, rfl⟩
        obtain ⟨d1, d2⟩ := dropped _ x.stream hp hf (fun st hst' e => by rw [g1] at hst'; cases hst'; exact hst (g2.symm.trans e))
        exact other _ a x { x with pc := .gone } hx hak d1 d2 rfl rfl rfl (fun _ => by simp)
      | failing =>
        have hst : x.topic ≠ s.topic := fun e => (hh.noOther a x hx e).2 hpc
        obtain ⟨st', g1, g2, -⟩ := hi.streams.alive (.shovel a) x.stream x.topic ⟨x, hx, by rw [hpc]; rfl, rfl, rfl⟩
        obtain ⟨d1, d2⟩ := dropped _ x.stream hp hf (fun st hst' e => by rw [g1] at hst'; cases hst'; exact hst (g2.symm.trans e))
        exact other _ a x { x with pc := .panicked } hx hak d1 d2 rfl rfl rfl (fun _ => by simp)
      | _ => exact same _ rfl rfl rfl
  | answerShovel a =>
    refine step_onShovel (P := P) a _ (same _ rfl rfl rfl) (fun x hx => ?_)
    obtain ⟨f1, f2⟩ := pubAsk_feeds (u := x.topic) hf hp
    unfold SubHub.answerShovel
    cases hpc : x.pc with
    | asking =>
      have hak : a ≠ k := by
        rintro rfl
        have := hh.shovel
        rw [hx] at this; cases this
        rw [hh.reading] at hpc; cases hpc
      exact other _ a x { x with pc := .answered (pubAsk h.ps x.topic).2 } hx hak f1 f2 rfl rfl rfl (fun _ => by simp)
    | _ => exact same _ rfl rfl rfl
  | timeout a =>
    refine step_onShovel (P := P) a _ (same _ rfl rfl rfl) (fun x hx => ?_)
    unfold SubHub.timeout
    cases hpc : x.pc with
    | reading =>
      simp only
      split
      · next hc =>
        have hak : a ≠ k := by
          rintro rfl
          have := hh.shovel
          rw [hx] at this; cases this
          rw [hheard] at hc; cases hc.2
        exact other _ a x { x with pc := .wanting true } hx hak hf rfl rfl rfl rfl (fun _ => by simp)
      · exact same _ rfl rfl rfl
    | _ => exact same _ rfl rfl rfl
  | node op =>
    simp only [SubHub.step, handledOf]
    split
    · next ho =>
      have hx := outside_ops ho
      obtain ⟨f1, f2⟩ := hf.step hp op (fun e => hop (by rw [e])) (hx.2.2 s.stream) (fun j st e => absurd e (hx.2.1 j))
      exact ⟨hh.move f1 rfl, by rw [f2]; simp [SubHub.sent]⟩
    · exact ⟨hh, by simp [mentions]⟩

/-! ### A shovel that panicked -/

/-- The shovel panicked and its entry is in the table. -/
structure Deaf (h : SubHub) (k : Nat) (t : Topic) (c : Nat) : Prop where
  shovel : ∃ s : Shovel, h.shovels[k]? = some s ∧ s.topic = t ∧ s.chan = c ∧ ShovelPc.failed s.pc = true
  entry : AMap.get h.table t = some c

theorem Deaf.step {h : SubHub} {k : Nat} {t : Topic} {c : Nat} (hd : Deaf h k t c) (hi : HubInv h) (op : SubOp) :
    Deaf (h.step op) k t c ∧ (h.step op).sent c = h.sent c := by
  obtain ⟨s, hk, ht, hc, hfl⟩ := hd.shovel
  have hlt := hi.shape.chanLt k s hk
  let P : SubHub → Prop := fun h' => Deaf h' k t c ∧ h'.sent c = h.sent c
  have same : ∀ h' : SubHub, h'.table = h.table → h'.shovels = h.shovels → h'.chans = h.chans → P h' :=
    fun h' e1 e2 e3 => ⟨⟨e2 ▸ hd.shovel, e1 ▸ hd.entry⟩, by simp [SubHub.sent, e3]⟩
  have other : ∀ (h' : SubHub) (a : Nat) (x x' : Shovel), h.shovels[a]? = some x → h'.shovels = h.shovels.set a x' →
      (a = k → x'.topic = t ∧ x'.chan = c ∧ ShovelPc.failed x'.pc = true) → AMap.get h'.table t = AMap.get h.table t →
      h'.sent c = h.sent c → P h' := by
    intro h' a x x' ha e1 e2 e3 e4
    refine ⟨⟨?_, e3 ▸ hd.entry⟩, e4⟩
    rw [e1]
    simp only [getElem?_set_of ha]
    by_cases hak : a = k
    · exact ⟨x', by simp [hak], e2 hak⟩
    · exact ⟨s, by simp [hak, hk], ht, hc, hfl⟩
  have stranger : ∀ (a : Nat) (x : Shovel), h.shovels[a]? = some x → ShovelPc.engaged x.pc = true → a ≠ k ∧ x.topic ≠ t := by
    intro a x ha hx
    have hak : a ≠ k := by
      rintro rfl
      rw [hk] at ha; cases ha
      cases hpc : s.pc <;> simp [hpc, ShovelPc.engaged, ShovelPc.failed] at hx hfl
    refine ⟨hak, fun e => ?_⟩
    have := hi.shape.engaged a x ha hx
    rw [e, hd.entry] at this
    exact hak (hi.shape.chanInj a k x s ha hk ((Option.some.inj this).symm.trans hc.symm))
  cases op with
  | request t => exact same _ rfl rfl rfl
  | goReq i =>
    refine step_onReq (P := P) i _ (same _ rfl rfl rfl) (fun r hr => ?_)
    unfold SubHub.goReq
    cases hpc : r.pc with
    | waiting =>
      simp only
      split
      · exact same _ rfl rfl rfl
      · split <;> exact same _ rfl rfl rfl
    | answered o =>
      cases o with
      | none => exact same _ rfl rfl rfl
      | some j =>
        have hne : r.topic ≠ t := by
          intro e
          have := hi.shape.vacant i r hr (by rw [hpc]; rfl)
          rw [e, hd.entry] at this; cases this
        refine ⟨⟨⟨s, ?_, ht, hc, hfl⟩, ?_⟩, ?_⟩
        · simp only
          rw [List.getElem?_append_left (List.getElem?_eq_some_iff.1 hk).1]
          exact hk
        · simp only
          rw [AMap.get_set, if_neg (Ne.symm hne)]
          exact hd.entry
        · simp only [SubHub.sent]
          rw [List.getElem?_append_left (hc ▸ hlt)]
    | streaming c pos =>
      simp only [SubHub.recv]
      split
      · exact same _ rfl rfl rfl
      · split
        · exact same _ rfl rfl rfl
        · split <;> exact same _ rfl rfl rfl
    | _ => exact same _ rfl rfl rfl
  | answerReq i =>
    refine step_onReq (P := P) i _ (same _ rfl rfl rfl) (fun r hr => ?_)
    unfold SubHub.answerReq
    split
    · exact same _ rfl rfl rfl
    · split <;> exact same _ rfl rfl rfl
    · exact same _ rfl rfl rfl
  | hangUp i =>
    refine step_onReq (P := P) i _ (same _ rfl rfl rfl) (fun r hr => ?_)
    unfold SubHub.hangUp
    split <;> exact same _ rfl rfl rfl
  | goShovel a =>
    refine step_onShovel (P := P) a _ (same _ rfl rfl rfl) (fun x hx => ?_)
    unfold SubHub.goShovel
    cases hpc : x.pc with
    | reading =>
      obtain ⟨hak, hst⟩ := stranger a x hx (by rw [hpc]; rfl)
      have hw : ∀ pc, P { h.setShovel a { x with pc := pc } with ps := pubAfter h.ps (.readStream x.stream) } :=
        fun pc => other _ a x { x with pc := pc } hx rfl (fun e => absurd e hak) rfl rfl
      simp only
      split
      · unfold SubHub.shovelSend
        split
        · refine ⟨⟨hd.shovel, hd.entry⟩, ?_⟩
          have hcc : x.chan ≠ c := fun e => hak (hi.shape.chanInj a k x s hx hk (e.trans hc.symm))
          simp only [SubHub.sent]
          rw [List.getElem?_set_ne hcc]
        · exact hw _
      · exact same _ rfl rfl rfl
      · exact hw _
    | wanting u =>
      obtain ⟨hak, hst⟩ := stranger a x hx (by rw [hpc]; rfl)
      simp only
      split
      · exact same _ rfl rfl rfl
      · unfold SubHub.shovelLocked
        split
        · split
          · split
            · exact other _ a x { x with pc := .asking } hx rfl (fun e => absurd e hak) rfl rfl
            · exact other _ a x { x with pc := .reading } hx rfl (fun e => absurd e hak) rfl rfl
          · exact other _ a x { x with pc := .leaving } hx rfl (fun e => absurd e hak)
              (by simp only [AMap.get_erase, if_neg (Ne.symm hst)]) rfl
        · exact other _ a x { x with pc := .unreachable } hx rfl (fun e => absurd e hak) rfl rfl
    | answered o =>
      obtain ⟨hak, hst⟩ := stranger a x hx (by rw [hpc]; rfl)
      cases o with
      | none => exact other _ a x { x with pc := .failing } hx rfl (fun e => absurd e hak) rfl rfl
      | some j => exact other _ a x { x with stream := j, pc := .reading } hx rfl (fun e => absurd e hak) rfl rfl
    | leaving =>
      have hak : a ≠ k := by
        rintro rfl
        rw [hk] at hx; cases hx
        rw [hpc] at hfl; cases hfl
      exact other _ a x { x with pc := .gone } hx rfl (fun e => absurd e hak) rfl rfl
    | failing =>
      refine other _ a x { x with pc := .panicked } hx rfl (fun e => ?_) rfl rfl
      subst e
      rw [hk] at hx; cases hx
      exact ⟨ht, hc, rfl⟩
    | _ => exact same _ rfl rfl rfl
  | answerShovel a =>
    refine step_onShovel (P := P) a _ (same _ rfl rfl rfl) (fun x hx => ?_)
    unfold SubHub.answerShovel
    cases hpc : x.pc with
    | asking =>
      obtain ⟨hak, hst⟩ := stranger a x hx (by rw [hpc]; rfl)
      exact other _ a x { x with pc := .answered _ } hx rfl (fun e => absurd e hak) rfl rfl
    | _ => exact same _ rfl rfl rfl
  | timeout a =>
    refine step_onShovel (P := P) a _ (same _ rfl rfl rfl) (fun x hx => ?_)
    unfold SubHub.timeout
    cases hpc : x.pc with
    | reading =>
      obtain ⟨hak, hst⟩ := stranger a x hx (by rw [hpc]; rfl)
      simp only
      split
      · exact other _ a x { x with pc := .wanting true } hx rfl (fun e => absurd e hak) rfl rfl
      · exact same _ rfl rfl rfl
    | _ => exact same _ rfl rfl rfl
  | node op =>
    simp only [SubHub.step]
    split <;> exact same _ rfl rfl rfl

/-- The entries of shovels that panicked are still there. -/
def HubFailed (h : SubHub) : Prop := ∀ (k : Nat) (s : Shovel), h.shovels[k]? = some s → ShovelPc.failed s.pc = true →
  AMap.get h.table s.topic = some s.chan

/-- A shovel that panicked did so before, or was refused just now. -/
theorem failed_back {h : SubHub} (op : SubOp) {k : Nat} {s' : Shovel} (hk : (h.step op).shovels[k]? = some s')
    (hf : ShovelPc.failed s'.pc = true) : ∃ s : Shovel, h.shovels[k]? = some s ∧ s.topic = s'.topic ∧ s.chan = s'.chan ∧
      (ShovelPc.failed s.pc = true ∨ s.pc = .answered none ∧ op = .goShovel k) := by
  let P : SubHub → Prop := fun h' => ∀ s' : Shovel, h'.shovels[k]? = some s' → ShovelPc.failed s'.pc = true →
    ∃ s : Shovel, h.shovels[k]? = some s ∧ s.topic = s'.topic ∧ s.chan = s'.chan ∧
      (ShovelPc.failed s.pc = true ∨ s.pc = .answered none ∧ op = .goShovel k)
  have same : ∀ h' : SubHub, h'.shovels = h.shovels → P h' := fun h' e s' hs hf => ⟨s', e ▸ hs, rfl, rfl, .inl hf⟩
  have set : ∀ (h' : SubHub) (a : Nat) (x x' : Shovel), h.shovels[a]? = some x → h'.shovels = h.shovels.set a x' →
      (ShovelPc.failed x'.pc = true → x.topic = x'.topic ∧ x.chan = x'.chan ∧
        (ShovelPc.failed x.pc = true ∨ x.pc = .answered none ∧ op = .goShovel a)) → P h' := by
    intro h' a x x' ha e hx s' hs hf
    rw [e, getElem?_set_of ha] at hs
    split at hs
    · next hak =>
      cases hs
      subst hak
      exact ⟨x, ha, hx hf⟩
    · exact ⟨s', hs, rfl, rfl, .inl hf⟩
  suffices hP : P (h.step op) from hP s' hk hf
  cases op with
  | request t => exact same _ rfl
  | goReq i =>
    refine step_onReq (P := P) i _ (same _ rfl) (fun r hr => ?_)
    unfold SubHub.goReq
    cases hpc : r.pc with
    | waiting =>
      simp only
      split
      · exact same _ rfl
      · split <;> exact same _ rfl
    | answered o =>
      cases o with
      | none => exact same _ rfl
      | some j =>
        intro s' hs hf
        simp only [getElem?_snoc] at hs
        split at hs
        · cases hs; cases hf
        · exact ⟨s', hs, rfl, rfl, .inl hf⟩
    | streaming c pos =>
      simp only [SubHub.recv]
      split
      · exact same _ rfl
      · split
        · exact same _ rfl
        · split <;> exact same _ rfl
    | _ => exact same _ rfl
  | answerReq i =>
    refine step_onReq (P := P) i _ (same _ rfl) (fun r hr => ?_)
    unfold SubHub.answerReq
    split
    · exact same _ rfl
    · split <;> exact same _ rfl
    · exact same _ rfl
  | hangUp i =>
    refine step_onReq (P := P) i _ (same _ rfl) (fun r hr => ?_)
    unfold SubHub.hangUp
    split <;> exact same _ rfl
  | goShovel a =>
    refine step_onShovel (P := P) a _ (same _ rfl) (fun x hx => ?_)
    unfold SubHub.goShovel
    cases hpc : x.pc with
    | reading =>
      simp only
      split
      · unfold SubHub.shovelSend
        split
        · exact same _ rfl
        · exact set _ a x { x with pc := .wanting false } hx rfl (fun e => by cases e)
      · exact same _ rfl
      · exact set _ a x { x with pc := .wanting true } hx rfl (fun e => by cases e)
    | wanting u =>
      simp only
      split
      · exact same _ rfl
      · unfold SubHub.shovelLocked
        split
        · split
          · split
            · exact set _ a x { x with pc := .asking } hx rfl (fun e => by cases e)
            · exact set _ a x { x with pc := .reading } hx rfl (fun e => by cases e)
          · exact set _ a x { x with pc := .leaving } hx rfl (fun e => by cases e)
        · exact set _ a x { x with pc := .unreachable } hx rfl (fun e => by cases e)
    | answered o =>
      cases o with
      | none => exact set _ a x { x with pc := .failing } hx rfl (fun _ => ⟨rfl, rfl, .inr ⟨hpc, rfl⟩⟩)
      | some j => exact set _ a x { x with stream := j, pc := .reading } hx rfl (fun e => by cases e)
    | leaving => exact set _ a x { x with pc := .gone } hx rfl (fun e => by cases e)
    | failing => exact set _ a x { x with pc := .panicked } hx rfl (fun _ => ⟨rfl, rfl, .inl (by rw [hpc]; rfl)⟩)
    | _ => exact same _ rfl
  | answerShovel a =>
    refine step_onShovel (P := P) a _ (same _ rfl) (fun x hx => ?_)
    unfold SubHub.answerShovel
    cases hpc : x.pc with
    | asking => exact set _ a x { x with pc := .answered _ } hx rfl (fun e => by cases e)
    | _ => exact same _ rfl
  | timeout a =>
    refine step_onShovel (P := P) a _ (same _ rfl) (fun x hx => ?_)
    unfold SubHub.timeout
    cases hpc : x.pc with
    | reading =>
      simp only
      split
      · exact set _ a x { x with pc := .wanting true } hx rfl (fun e => by cases e)
      · exact same _ rfl
    | _ => exact same _ rfl
  | node op =>
    simp only [SubHub.step]
    split <;> exact same _ rfl

theorem HubFailed.step {h : SubHub} (hf : HubFailed h) (hi : HubInv h) (op : SubOp) : HubFailed (h.step op) := by
  intro k s' hk hfl
  obtain ⟨s, h1, h2, h3, h4 | ⟨h4, h5⟩⟩ := failed_back op hk hfl
  · rw [← h2, ← h3]
    exact ((Deaf.step ⟨⟨s, h1, rfl, rfl, h4⟩, hf k s h1 h4⟩ hi op).1).entry
  · subst h5
    have := hi.shape.engaged k s h1 (by rw [h4]; rfl)
    rw [← h2, ← h3, ← this]
    simp only [SubHub.step, SubHub.onShovel, h1, SubHub.goShovel, h4]
    rfl

/-! ### After every history -/

structure HubAll (h : SubHub) (done : List FloodEv) : Prop where
  inv : HubInv h
  held : HubHeld h
  failed : HubFailed h
  sent : HubSent h done
  out : HubOut h done

theorem HubAll.init : HubAll SubHub.init [] := by
  refine ⟨.init, fun hx => (by cases hx), fun k s hk => ?_, ⟨fun k s hk => ?_, fun i r j hr => ?_⟩, ⟨fun i r hr => ?_, fun i r c pos hr => ?_, fun i r hr => ?_⟩⟩
  · simp [SubHub.init] at hk
  · simp [SubHub.init] at hk
  all_goals simp [SubHub.init] at hr

theorem HubAll.step {h : SubHub} {done : List FloodEv} (ha : HubAll h done) (op : SubOp) :
    HubAll (h.step op) (done ++ handledOf h op) :=
  ⟨ha.inv.step op, ha.held.step op, ha.failed.step ha.inv op, ha.sent.step ha.inv op, ha.out.step ha.inv ha.sent op _⟩

theorem subArrivals_cons (op : SubOp) (ops : List SubOp) : subArrivals (op :: ops) = subArrivals [op] ++ subArrivals ops := by
  cases op with
  | node op => cases op <;> rfl
  | _ => rfl

theorem HubAll.run {done : List FloodEv} (ops : List SubOp) : ∀ {h : SubHub}, HubAll h done → ∃ more, HubAll (h.run ops) (done ++ more) ∧
    h.ps.queue ++ subArrivals ops = more ++ (h.run ops).ps.queue := by
  induction ops generalizing done with
  | nil => exact fun ha => ⟨[], by simpa [SubHub.run] using ha, by simp [subArrivals, SubHub.run]⟩
  | cons op ops ih =>
    intro h ha
    obtain ⟨more, h1, h2⟩ := ih (ha.step op)
    refine ⟨handledOf h op ++ more, by rw [← List.append_assoc]; exact h1, ?_⟩
    rw [subArrivals_cons, ← List.append_assoc, queue_step ha.inv op, List.append_assoc, h2, List.append_assoc]
    rfl

theorem HubReach.all {h : SubHub} (hr : HubReach h) : ∃ done, HubAll h done := by
  obtain ⟨ops, rfl⟩ := hr
  obtain ⟨more, h1, -⟩ := HubAll.run ops HubAll.init
  exact ⟨_, h1⟩

theorem run_snoc (h : SubHub) (ops : List SubOp) (op : SubOp) : h.run (ops ++ [op]) = (h.run ops).step op := by
  simp [SubHub.run]

theorem HubReach.run {h : SubHub} (hr : HubReach h) (ops : List SubOp) : HubReach (h.run ops) := by
  obtain ⟨ops', rfl⟩ := hr
  exact ⟨ops' ++ ops, by simp [SubHub.run]⟩

theorem HubReach.step {h : SubHub} (hr : HubReach h) (op : SubOp) : HubReach (h.step op) := hr.run [op]

theorem HubReach.inv {h : SubHub} (hr : HubReach h) : HubInv h := hr.all.choose_spec.inv

theorem over_run {i : Nat} (ops : List SubOp) : ∀ {h : SubHub} {r : SubReq}, h.reqs[i]? = some r →
    (r.pc = .gone ∨ r.pc = .lagged ∨ r.pc = .closed) → (h.run ops).reqs[i]? = some r := by
  induction ops with
  | nil => exact fun hr _ => hr
  | cons op ops ih =>
    intro h r hr ho
    obtain ⟨r', h1, h2⟩ := req_step op hr
    have e := h2.over ho
    subst e
    exact ih h1 ho

/-- Where a request that waits for the mutex may be next. -/
theorem waiting_step {h : SubHub} (op : SubOp) {i : Nat} {r r' : SubReq} (hi : h.reqs[i]? = some r)
    (hi' : (h.step op).reqs[i]? = some r') (hp : r.pc = .waiting) : r'.pc = .waiting ∨ r'.pc = .gone ∨
      (∃ c pos, r'.pc = .streaming c pos) ∨ SubPc.holds r'.pc = true := by
  let P : SubHub → Prop := fun h' => ∀ r' : SubReq, h'.reqs[i]? = some r' → r'.pc = .waiting ∨ r'.pc = .gone ∨
      (∃ c pos, r'.pc = .streaming c pos) ∨ SubPc.holds r'.pc = true
  have same : ∀ h' : SubHub, h'.reqs = h.reqs → P h' := fun h' e r' hx => by
    rw [e, hi] at hx; cases hx; exact .inl hp
  have set : ∀ (h' : SubHub) (a : Nat) (x x' : SubReq), h.reqs[a]? = some x → h'.reqs = h.reqs.set a x' →
      (x.pc = .waiting → x'.pc = .waiting ∨ x'.pc = .gone ∨ (∃ c pos, x'.pc = .streaming c pos) ∨ SubPc.holds x'.pc = true) → P h' := by
    intro h' a x x' ha e hx r' hr
    rw [e, getElem?_set_of ha] at hr
    split at hr
    · next hai =>
      subst hai
      cases hr
      rw [hi] at ha; cases ha
      exact hx hp
    · rw [hi] at hr; cases hr; exact .inl hp
  suffices hP : P (h.step op) from hP r' hi'
  cases op with
  | request t =>
    intro r' hr
    simp only [SubHub.step] at hr
    rw [List.getElem?_append_left (List.getElem?_eq_some_iff.1 hi).1, hi] at hr
    cases hr; exact .inl hp
  | goReq a =>
    refine step_onReq (P := P) a _ (same _ rfl) (fun x hx => ?_)
    unfold SubHub.goReq
    cases hpc : x.pc with
    | waiting =>
      simp only
      split
      · exact same _ rfl
      · split
        · exact set _ a x { x with pc := .streaming _ _ } hx rfl (fun _ => .inr (.inr (.inl ⟨_, _, rfl⟩)))
        · exact set _ a x { x with pc := .asking } hx rfl (fun _ => .inr (.inr (.inr rfl)))
    | answered o =>
      cases o with
      | none => exact set _ a x { x with pc := .panicked } hx rfl (fun e => by rw [hpc] at e; cases e)
      | some j => exact set _ a x { x with pc := .streaming _ _ } hx rfl (fun e => by rw [hpc] at e; cases e)
    | streaming c pos =>
      simp only [SubHub.recv]
      split
      · exact set _ a x { x with pc := .lagged } hx rfl (fun e => by rw [hpc] at e; cases e)
      · split
        · exact set _ a x { x with pc := .streaming _ _, out := _ } hx rfl (fun e => by rw [hpc] at e; cases e)
        · split
          · exact same _ rfl
          · exact set _ a x { x with pc := .closed } hx rfl (fun e => by rw [hpc] at e; cases e)
    | _ => exact same _ rfl
  | answerReq a =>
    refine step_onReq (P := P) a _ (same _ rfl) (fun x hx => ?_)
    unfold SubHub.answerReq
    cases hpc : x.pc with
    | asking => exact set _ a x { x with pc := .answered _ } hx rfl (fun e => by rw [hpc] at e; cases e)
    | goneAsking =>
      simp only
      split <;> exact set _ a x { x with pc := .gone } hx rfl (fun e => by rw [hpc] at e; cases e)
    | _ => exact same _ rfl
  | hangUp a =>
    refine step_onReq (P := P) a _ (same _ rfl) (fun x hx => ?_)
    unfold SubHub.hangUp
    cases hpc : x.pc with
    | waiting => exact set _ a x { x with pc := .gone } hx rfl (fun _ => .inr (.inl rfl))
    | asking => exact set _ a x { x with pc := .goneAsking } hx rfl (fun e => by rw [hpc] at e; cases e)
    | answered o => cases o <;> exact set _ a x { x with pc := .gone } hx rfl (fun e => by rw [hpc] at e; cases e)
    | streaming c pos => exact set _ a x { x with pc := .gone } hx rfl (fun e => by rw [hpc] at e; cases e)
    | _ => exact same _ rfl
  | goShovel k =>
    refine step_onShovel (P := P) k _ (same _ rfl) (fun s hk => ?_)
    unfold SubHub.goShovel
    cases hpc : s.pc with
    | reading =>
      simp only
      split
      · unfold SubHub.shovelSend
        split <;> exact same _ rfl
      · exact same _ rfl
      · exact same _ rfl
    | wanting u =>
      simp only
      split
      · exact same _ rfl
      · unfold SubHub.shovelLocked
        split
        · split
          · split <;> exact same _ rfl
          · exact same _ rfl
        · exact same _ rfl
    | answered o => cases o <;> exact same _ rfl
    | _ => exact same _ rfl
  | answerShovel k =>
    refine step_onShovel (P := P) k _ (same _ rfl) (fun s hk => ?_)
    unfold SubHub.answerShovel
    split <;> exact same _ rfl
  | timeout k =>
    refine step_onShovel (P := P) k _ (same _ rfl) (fun s hk => ?_)
    unfold SubHub.timeout
    split
    · split <;> exact same _ rfl
    · exact same _ rfl
  | node op =>
    simp only [SubHub.step]
    split <;> exact same _ rfl

/-! ## The theorems -/

/-- From the message it is to get next on, a response is what is sent on its channel, without gaps and in order,
for as long as it lasts. It ends with an error when it is more than 16 messages behind, or when the client goes
away; what is sent on a channel before stays. -/
theorem C62_segment (h : SubHub) (hr : HubReach h) (i : Nat) (r : SubReq) (c pos : Nat) (hi : h.reqs[i]? = some r)
    (hp : r.pc = .streaming c pos) (ops : List SubOp) : ∃ (r' : SubReq) (k : Nat), (h.run ops).reqs[i]? = some r' ∧
      r'.topic = r.topic ∧ (∃ more, (h.run ops).sent c = h.sent c ++ more) ∧ pos + k ≤ ((h.run ops).sent c).length ∧
      r'.out = r.out ++ (((h.run ops).sent c).drop pos).take k ∧
      (r'.pc = .streaming c (pos + k) ∨ r'.pc = .lagged ∧ pos + k + 16 < ((h.run ops).sent c).length ∨ r'.pc = .gone) := by
  induction ops using snocInd with
  | nil =>
    refine ⟨r, 0, hi, rfl, ⟨[], by simp [SubHub.run]⟩, ?_, by simp, .inl hp⟩
    exact (hr.inv.shape.hearing i r c pos hi hp).2
  | snoc ops op ih =>
    obtain ⟨r1, k, h1, h2, ⟨m1, h3⟩, h4, h5, h6⟩ := ih
    have hinv := (hr.run ops).inv
    obtain ⟨r2, g1, g2⟩ := req_step op h1
    obtain ⟨m2, hm2⟩ := chan_step hinv.shape op c
    rw [run_snoc]
    have grow : ∀ k, pos + k ≤ ((h.run ops).sent c).length →
        (((h.run ops).sent c ++ m2).drop pos).take k = (((h.run ops).sent c).drop pos).take k := by
      intro k hk
      rw [List.drop_append_of_le_length (by omega), List.take_append_of_le_length (by simp; omega)]
    have hmore : ∃ more, ((h.run ops).step op).sent c = h.sent c ++ more := ⟨m1 ++ m2, by rw [hm2, h3, List.append_assoc]⟩
    have stay : r2.out = r1.out → r2.out = r.out ++ ((((h.run ops).step op).sent c).drop pos).take k := by
      intro e
      rw [e, h5, hm2, grow k h4]
    have hle : pos + k ≤ (((h.run ops).step op).sent c).length := by rw [hm2]; simp; omega
    have over : r1.pc = .gone ∨ r1.pc = .lagged ∨ r1.pc = .closed → r2 = r1 := g2.over
    rcases h6 with h6 | ⟨h6, h7⟩ | h6
    · rcases g2.streaming c (pos + k) h6 with e | ⟨m, e1, e2, e3⟩ | ⟨e1, e2, e3⟩ | ⟨e1, e2⟩ | ⟨e1, -, -⟩
      · subst e
        exact ⟨r2, k, g1, h2, hmore, hle, stay rfl, .inl h6⟩
      · have hlt := (List.getElem?_eq_some_iff.1 e1).1
        refine ⟨r2, k + 1, g1, g2.topic.trans h2, hmore, by rw [hm2]; simp; omega, ?_, .inl (by rw [e2]; rfl)⟩
        rw [e3, h5, hm2, grow (k + 1) (by omega), List.take_add_one, List.getElem?_drop, e1]
        simp
      · exact ⟨r2, k, g1, g2.topic.trans h2, hmore, hle, stay e2, .inr (.inl ⟨e1, by rw [hm2]; simp [subCapacity] at e3 ⊢; omega⟩)⟩
      · exact ⟨r2, k, g1, g2.topic.trans h2, hmore, hle, stay e2, .inr (.inr e1)⟩
      · exact absurd e1 (hinv.step op |>.shape.notClosed i r2 g1)
    · have e := over (.inr (.inl h6))
      subst e
      exact ⟨r2, k, g1, h2, hmore, hle, stay rfl, .inr (.inl ⟨h6, by rw [hm2]; simp; omega⟩)⟩
    · have e := over (.inl h6)
      subst e
      exact ⟨r2, k, g1, h2, hmore, hle, stay rfl, .inr (.inr h6)⟩

/-- Whatever happens, a response has only messages of its topic that reached the node, in the order in which the
node handled them, and none more often than it mentions the topic. -/
theorem C62_output (ops : List SubOp) : ∃ done, subArrivals ops = done ++ (SubHub.init.run ops).ps.queue ∧
    (∀ (i : Nat) (r : SubReq), (SubHub.init.run ops).reqs[i]? = some r → r.out.Sublist (mentions r.topic done)) ∧
    ((∀ m, .message m ∈ subArrivals ops → m.topics.Nodup) →
      ∀ (i : Nat) (r : SubReq), (SubHub.init.run ops).reqs[i]? = some r → r.out.Sublist (onTopic r.topic done)) := by
  obtain ⟨more, h1, h2⟩ := HubAll.run ops HubAll.init
  simp only [List.nil_append] at h1
  have h3 : subArrivals ops = more ++ (SubHub.init.run ops).ps.queue := by simpa [SubHub.init, PubSt.init] using h2
  refine ⟨more, h3, h1.out.all, fun hn i r hr => ?_⟩
  rw [← mentions_once (t := r.topic) (es := more) (fun m hm => hn m (by rw [h3]; simp [hm]))]
  exact h1.out.all i r hr

/-- While the shovel of a topic is at work, which it is until somebody unsubscribes from the topic or nobody
listens any more, no message is lost to those who listen: what they have got and what still awaits them is what it
was, followed by each message of the topic the node handled meanwhile. -/
theorem C62_complete (h : SubHub) (hr : HubReach h) (k : Nat) (s : Shovel) (hh : Healthy h k s) (i : Nat) (r : SubReq)
    (pos : Nat) (hi : h.reqs[i]? = some r) (hp : r.pc = .streaming s.chan pos) (ops : List SubOp)
    (hops : .node (.unsubscribe s.topic) ∉ ops) (r' : SubReq) (pos' : Nat) (hi' : (h.run ops).reqs[i]? = some r')
    (hp' : r'.pc = .streaming s.chan pos') : Healthy (h.run ops) k s ∧ ∃ done,
      h.ps.queue ++ subArrivals ops = done ++ (h.run ops).ps.queue ∧
      r'.out ++ awaiting (h.run ops) s pos' = r.out ++ awaiting h s pos ++ mentions s.topic done := by
  have key : ∀ (ops : List SubOp) (h : SubHub), HubReach h → Healthy h k s → (∃ (r : SubReq) (pos : Nat), h.reqs[i]? = some r ∧ r.pc = .streaming s.chan pos) →
      .node (.unsubscribe s.topic) ∉ ops → (∃ (r' : SubReq) (pos' : Nat), (h.run ops).reqs[i]? = some r' ∧ r'.pc = .streaming s.chan pos') →
      Healthy (h.run ops) k s ∧ ∃ done, h.ps.queue ++ subArrivals ops = done ++ (h.run ops).ps.queue ∧
        (h.run ops).sent s.chan ++ inboxOf (h.run ops).ps s.stream = h.sent s.chan ++ inboxOf h.ps s.stream ++ mentions s.topic done := by
    intro ops
    induction ops with
    | nil => exact fun h _ hh _ _ _ => ⟨hh, [], by simp [subArrivals, SubHub.run], by simp [SubHub.run, mentions]⟩
    | cons op ops ih =>
      intro h hr hh hst hn hend
      obtain ⟨r, pos, hi, hp⟩ := hst
      obtain ⟨g1, g2⟩ := hh.step hr.inv (heard_true hi hp) op (fun e => hn (by simp [e]))
      obtain ⟨r1, q1, q2⟩ := req_step op hi
      have hover : ¬ (r1.pc = .gone ∨ r1.pc = .lagged ∨ r1.pc = .closed) := by
        intro ho
        have h9 := over_run ops q1 ho
        obtain ⟨r', pos', e1, e2⟩ := hend
        have h10 : ((h.step op).run ops).reqs[i]? = some r' := e1
        rw [h9] at h10; cases h10
        rw [e2] at ho; simp at ho
      have hst1 : ∃ (r : SubReq) (pos : Nat), (h.step op).reqs[i]? = some r ∧ r.pc = .streaming s.chan pos := by
        rcases q2.streaming s.chan pos hp with e | ⟨m, -, e2, -⟩ | ⟨e1, -⟩ | ⟨e1, -⟩ | ⟨e1, -⟩
        · subst e; exact ⟨r1, pos, q1, hp⟩
        · exact ⟨r1, pos + 1, q1, e2⟩
        · exact absurd (.inr (.inl e1)) hover
        · exact absurd (.inl e1) hover
        · exact absurd (.inr (.inr e1)) hover
      obtain ⟨k1, done, k2, k3⟩ := ih (h.step op) (hr.step op) g1 hst1 (fun e => hn (by simp [e])) hend
      refine ⟨k1, handledOf h op ++ done, ?_, ?_⟩
      · rw [subArrivals_cons, ← List.append_assoc, queue_step hr.inv op, List.append_assoc, k2, List.append_assoc]
        rfl
      · rw [show (h.run (op :: ops)) = (h.step op).run ops from rfl, k3, g2, mentions_append]
        simp
  obtain ⟨h1, done, h2, h3⟩ := key ops h hr hh ⟨r, pos, hi, hp⟩ hops ⟨r', pos', hi', hp'⟩
  refine ⟨h1, done, h2, ?_⟩
  obtain ⟨r2, n, a1, -, ⟨more, a2⟩, a3, a4, a5⟩ := C62_segment h hr i r s.chan pos hi hp ops
  rw [hi'] at a1; cases a1
  have hn : pos' = pos + n := by
    rcases a5 with a5 | ⟨a5, -⟩ | a5
    · rw [hp'] at a5; cases a5; rfl
    · rw [hp'] at a5; cases a5
    · rw [hp'] at a5; cases a5
  subst hn
  have hle := (hr.inv.shape.hearing i r s.chan pos hi hp).2
  have e1 : ∀ (g : SubHub) (p : Nat), awaiting g s p = (g.sent s.chan).drop p ++ inboxOf g.ps s.stream := fun g p => rfl
  rw [e1, e1, a4, List.append_assoc, List.append_assoc, List.append_assoc]
  congr 1
  rw [← List.append_assoc, ← List.drop_drop, List.take_append_drop]
  have h4 := congrArg (List.drop pos) h3
  rw [List.append_assoc, List.drop_append_of_le_length (by rw [a2]; simp; omega), List.drop_append_of_le_length hle] at h4
  exact h4

/-- A request that found nobody subscribed, and was given a stream by the node, is where `C62_complete` starts from,
unless an older stream of the topic is still to be dropped. -/
theorem C62_starts (h : SubHub) (hr : HubReach h) (i j : Nat) (r : SubReq) (hi : h.reqs[i]? = some r)
    (hp : r.pc = .answered (some j)) (hreg : AMap.get h.ps.streams r.topic = some j) (hn : r.topic ∉ h.ps.drops)
    (ho : ∀ (a : Nat) (x : Shovel), h.shovels[a]? = some x → x.topic = r.topic → x.pc ≠ .leaving) :
    ∃ k, Healthy (h.step (.goReq i)) k ⟨r.topic, j, h.chans.length, .reading⟩ ∧
      (h.step (.goReq i)).reqs[i]? = some { r with pc := .streaming h.chans.length 0 } ∧
      awaiting (h.step (.goReq i)) ⟨r.topic, j, h.chans.length, .reading⟩ 0 = inboxOf h.ps j := by
  obtain ⟨done, hall⟩ := hr.all
  have e : h.step (.goReq i) = { h.setReq i { r with pc := .streaming h.chans.length 0 } with
      locked := false
      table := AMap.set h.table r.topic h.chans.length
      chans := h.chans ++ [[]]
      shovels := h.shovels ++ [⟨r.topic, j, h.chans.length, .reading⟩] } := by
    simp only [SubHub.step, SubHub.onReq, hi, SubHub.goReq, hp]
  rw [e]
  refine ⟨h.shovels.length, ⟨by simp, rfl, hreg, hn, fun a x ha hx => ?_⟩, by simp [SubHub.setReq, getElem?_set_of hi], ?_⟩
  · simp only [getElem?_snoc] at ha
    split at ha
    · cases ha; exact ⟨by simp, by simp⟩
    · refine ⟨ho a x ha hx, fun hf => ?_⟩
      have h1 := hall.failed a x ha (by rw [hf]; rfl)
      have h2 := hall.inv.shape.vacant i r hi (by rw [hp]; rfl)
      rw [show x.topic = r.topic from hx, h2] at h1; cases h1
  · simp [awaiting, SubHub.sent, inboxOf, SubHub.setReq]

/-- A response never ends without an error, and the task that feeds it always finds the entry of its topic: the
`unreachable!` of line 266 is not reached. -/
theorem C62_ends (h : SubHub) (hr : HubReach h) : (∀ (i : Nat) (r : SubReq), h.reqs[i]? = some r → r.pc ≠ .closed) ∧
    ∀ (k : Nat) (s : Shovel), h.shovels[k]? = some s → s.pc ≠ .unreachable :=
  ⟨hr.inv.shape.notClosed, hr.inv.shape.reachable⟩

/-- The mutex is never left locked: who has it gives it back with the answer of the node and one more step, whatever
the answer is. -/
theorem C62_lock (h : SubHub) (hr : HubReach h) (hl : h.locked = true) :
    ∃ ops, ops.length ≤ 2 ∧ (h.run ops).locked = false ∧
      ((∃ i, ∀ op ∈ ops, op = .answerReq i ∨ op = .goReq i) ∨ ∃ k, ∀ op ∈ ops, op = .answerShovel k ∨ op = .goShovel k) := by
  obtain ⟨done, hall⟩ := hr.all
  rcases hall.held hl with ⟨i, r, h1, h2⟩ | ⟨k, s, h1, h2⟩
  · have ans : ∀ (g : SubHub) (x : SubReq) (o : Option Nat), g.reqs[i]? = some x → x.pc = .answered o → (g.step (.goReq i)).locked = false := by
      intro g x o hx ho
      simp only [SubHub.step, SubHub.onReq, hx, SubHub.goReq, ho]
      cases o <;> rfl
    cases hpc : r.pc <;> simp [hpc, SubPc.holds] at h2
    · refine ⟨[.answerReq i, .goReq i], by simp, ?_, .inl ⟨i, by simp⟩⟩
      refine ans (h.step (.answerReq i)) { r with pc := .answered (pubAsk h.ps r.topic).2 } _ ?_ rfl
      simp [SubHub.step, SubHub.onReq, h1, SubHub.answerReq, hpc, SubHub.setReq, getElem?_set_of h1]
    · exact ⟨[.goReq i], by simp, ans h r _ h1 hpc, .inl ⟨i, by simp⟩⟩
  · have ans : ∀ (g : SubHub) (x : Shovel) (o : Option Nat), g.shovels[k]? = some x → x.pc = .answered o → (g.step (.goShovel k)).locked = false := by
      intro g x o hx ho
      simp only [SubHub.step, SubHub.onShovel, hx, SubHub.goShovel, ho]
      cases o <;> rfl
    cases hpc : s.pc <;> simp [hpc, ShovelPc.holds] at h2
    · refine ⟨[.answerShovel k, .goShovel k], by simp, ?_, .inr ⟨k, by simp⟩⟩
      refine ans (h.step (.answerShovel k)) { s with pc := .answered (pubAsk h.ps s.topic).2 } _ ?_ rfl
      simp [SubHub.step, SubHub.onShovel, h1, SubHub.answerShovel, hpc, SubHub.setShovel, getElem?_set_of h1]
    · exact ⟨[.goShovel k], by simp, ans h s _ h1 hpc, .inr ⟨k, by simp⟩⟩

/-- Who owns the stream registered for a topic. -/
theorem registered_owner {h : SubHub} (hi : HubInv h) {t : Topic} (hg : (AMap.get h.ps.streams t).isSome = true) :
    t ∈ h.ps.drops ∨ ∃ o i, Owns h o i t ∧ AMap.get h.ps.streams t = some i := by
  obtain ⟨i, hx⟩ := Option.isSome_iff_exists.1 hg
  obtain ⟨st, h1, h2, -⟩ := hi.streams.pub.core.owner t i hx
  cases ha : st.alive with
  | false => exact .inl (hi.streams.pub.notice t i st hx h1 ha)
  | true =>
    obtain ⟨o, ho⟩ := hi.streams.owned i st h1 ha
    exact .inr ⟨o, i, h2 ▸ ho, hx⟩

/-- The first request for a topic panics ("new subscriptions shouldn't fail while holding the lock") only in this
case: the notice of an older stream is still to be handled, or its shovel has left but not dropped it yet. -/
theorem C62_refused (h : SubHub) (hr : HubReach h) (i : Nat) (r : SubReq) (hi : h.reqs[i]? = some r) (hp : r.pc = .asking)
    (hn : (pubAsk h.ps r.topic).2 = none) : r.topic ∈ h.ps.drops ∨
      ∃ (k : Nat) (s : Shovel), h.shovels[k]? = some s ∧ s.topic = r.topic ∧ s.pc = .leaving := by
  obtain ⟨done, hall⟩ := hr.all
  have hinv := hall.inv
  have hvac := hinv.shape.vacant i r hi (by rw [hp]; rfl)
  have hg : (AMap.get h.ps.streams r.topic).isSome = true := by
    cases hx : AMap.get h.ps.streams r.topic with
    | some j => rfl
    | none => rw [(pubAsk_some hinv.streams.pub hx).1] at hn; cases hn
  rcases registered_owner hinv hg with h1 | ⟨o, j, ho, -⟩
  · exact .inl h1
  · right
    cases o with
    | shovel k =>
      obtain ⟨s, h1, h2, -, h4⟩ := ho
      refine ⟨k, s, h1, h4, ?_⟩
      have hne : ShovelPc.engaged s.pc ≠ true := fun e => by
        have := hinv.shape.engaged k s h1 e
        rw [h4, hvac] at this; cases this
      have hnf : ShovelPc.failed s.pc ≠ true := fun e => by
        have := hall.failed k s h1 e
        rw [h4, hvac] at this; cases this
      cases hpc : s.pc <;> simp_all [ShovelPc.engaged, ShovelPc.failed, ShovelPc.lives]
    | next k =>
      obtain ⟨s, h1, h2, -⟩ := ho
      exact (hinv.shape.notBoth i k r s hi h1 (by rw [hp]; rfl) (by rw [h2]; rfl)).elim
    | req a =>
      obtain ⟨r', h1, h2, -⟩ := ho
      have e := hinv.shape.oneReq i a r r' hi h1 (by rw [hp]; rfl) (by rw [h2]; rfl)
      subst e
      rw [hi] at h1; cases h1
      rw [hp] at h2; cases h2

/-- A shovel that wants to subscribe again panics ("we have the lock so no one else should subscribe") only in one
of these cases, of which the first is that its own stream is still registered. -/
theorem C62_shovel_refused (h : SubHub) (hr : HubReach h) (k : Nat) (s : Shovel) (hk : h.shovels[k]? = some s)
    (hp : s.pc = .asking) (hn : (pubAsk h.ps s.topic).2 = none) : AMap.get h.ps.streams s.topic = some s.stream ∨
      s.topic ∈ h.ps.drops ∨ ∃ (a : Nat) (x : Shovel), h.shovels[a]? = some x ∧ x.topic = s.topic ∧ x.pc = .leaving := by
  obtain ⟨done, hall⟩ := hr.all
  have hinv := hall.inv
  have hent := hinv.shape.engaged k s hk (by rw [hp]; rfl)
  have hg : (AMap.get h.ps.streams s.topic).isSome = true := by
    cases hx : AMap.get h.ps.streams s.topic with
    | some j => rfl
    | none => rw [(pubAsk_some hinv.streams.pub hx).1] at hn; cases hn
  rcases registered_owner hinv hg with h1 | ⟨o, j, ho, hreg⟩
  · exact .inr (.inl h1)
  · cases o with
    | shovel a =>
      obtain ⟨x, h1, h2, h3, h4⟩ := ho
      by_cases hak : a = k
      · subst hak
        rw [hk] at h1; cases h1
        exact .inl (h3 ▸ hreg)
      · refine .inr (.inr ⟨a, x, h1, h4, ?_⟩)
        have hsame : AMap.get h.table x.topic = some x.chan → False := fun e => by
          rw [h4, hent] at e
          exact hak (hinv.shape.chanInj a k x s h1 hk (Option.some.inj e).symm)
        have hne : ShovelPc.engaged x.pc ≠ true := fun e => hsame (hinv.shape.engaged a x h1 e)
        have hnf : ShovelPc.failed x.pc ≠ true := fun e => hsame (hall.failed a x h1 e)
        cases hpc : x.pc <;> simp_all [ShovelPc.engaged, ShovelPc.failed, ShovelPc.lives]
    | next a =>
      obtain ⟨x, h1, h2, -⟩ := ho
      have e := hinv.shape.oneShovel k a s x hk h1 (by rw [hp]; rfl) (by rw [h2]; rfl)
      subst e
      rw [hk] at h1; cases h1
      rw [hp] at h2; cases h2
    | req a =>
      obtain ⟨r', h1, h2, -⟩ := ho
      exact (hinv.shape.notBoth a k r' s h1 hk (by rw [h2]; rfl) (by rw [hp]; rfl)).elim

/-- Once a shovel has panicked its topic is deaf for good: its entry stays, nothing is sent on the channel any more,
and every later request for the topic gets nothing and waits for ever. -/
theorem C62_deaf (h : SubHub) (hr : HubReach h) (k : Nat) (s : Shovel) (hk : h.shovels[k]? = some s)
    (hp : s.pc = .failing ∨ s.pc = .panicked) (ops : List SubOp) :
    AMap.get (h.run ops).table s.topic = some s.chan ∧ (h.run ops).sent s.chan = h.sent s.chan ∧
    ∀ (i : Nat) (r : SubReq), h.reqs.length ≤ i → (h.run ops).reqs[i]? = some r → r.topic = s.topic →
      r.out = [] ∧ (r.pc = .waiting ∨ r.pc = .streaming s.chan (h.sent s.chan).length ∨ r.pc = .gone) := by
  obtain ⟨done, hall⟩ := hr.all
  have hfl : ShovelPc.failed s.pc = true := by rcases hp with hp | hp <;> rw [hp] <;> rfl
  have h0 : Deaf h k s.topic s.chan := ⟨⟨s, hk, rfl, rfl, hfl⟩, hall.failed k s hk hfl⟩
  suffices hx : Deaf (h.run ops) k s.topic s.chan ∧ (h.run ops).sent s.chan = h.sent s.chan ∧
      ∀ (i : Nat) (r : SubReq), h.reqs.length ≤ i → (h.run ops).reqs[i]? = some r → r.topic = s.topic →
        r.out = [] ∧ (r.pc = .waiting ∨ r.pc = .streaming s.chan (h.sent s.chan).length ∨ r.pc = .gone) from
    ⟨hx.1.entry, hx.2.1, hx.2.2⟩
  induction ops using snocInd with
  | nil =>
    refine ⟨h0, rfl, fun i r hle hi _ => ?_⟩
    have := (List.getElem?_eq_some_iff.1 hi).1
    simp only [SubHub.run, List.foldl_nil] at this
    omega
  | snoc ops op ih =>
    obtain ⟨d1, d2, d3⟩ := ih
    have hinv := (hr.run ops).inv
    rw [run_snoc]
    obtain ⟨e1, e2⟩ := d1.step hinv op
    refine ⟨e1, e2.trans d2, fun i r' hle hi ht => ?_⟩
    rcases req_back op hi with ⟨r, b1, b2⟩ | ⟨-, b1, b2, -⟩
    · obtain ⟨c1, c2⟩ := d3 i r hle b1 (b2.topic ▸ ht)
      rcases c2 with c2 | c2 | c2
      · obtain ⟨f1, f2⟩ := b2.start (by simp [c2])
        refine ⟨by rw [f1, c1], ?_⟩
        have hnot : SubPc.holds r'.pc ≠ true := fun hx => by
          have := hinv.step op |>.shape.vacant i r' hi hx
          rw [ht, e1.entry] at this; cases this
        by_cases hst : ∃ c pos, r'.pc = .streaming c pos
        · obtain ⟨c, pos, hst⟩ := hst
          obtain ⟨g1, g2⟩ := f2 c pos hst
          rcases g2 with ⟨-, -, g2⟩ | ⟨⟨j, g2⟩, -⟩
          · rw [b2.topic.symm.trans ht, d1.entry] at g2
            cases g2
            rw [d2] at g1
            subst g1
            exact .inr (.inl hst)
          · rw [c2] at g2; cases g2
        · rcases waiting_step op b1 hi c2 with g | g | g | g
          · exact .inl g
          · exact .inr (.inr g)
          · exact absurd g hst
          · exact absurd g hnot
      · rcases b2.streaming _ _ c2 with e | ⟨m, g1, -⟩ | ⟨-, -, g1⟩ | ⟨g1, g2⟩ | ⟨g1, -⟩
        · subst e; exact ⟨c1, .inr (.inl c2)⟩
        · rw [d2] at g1; simp at g1
        · rw [d2] at g1; omega
        · exact ⟨by rw [g2, c1], .inr (.inr g1)⟩
        · exact absurd g1 (hinv.step op |>.shape.notClosed i r' hi)
      · have e := b2.over (.inl c2)
        subst e
        exact ⟨c1, .inr (.inr c2)⟩
    · exact ⟨b2, .inl b1⟩

/-! ## Two races, and examples -/

/-- The last listener goes away, the shovel notices after its 50 ms, and before it has the mutex somebody else asks
for the same topic. -/
def exRaceDeaf : List SubOp :=
  [.request exTopicA, .goReq 0, .answerReq 0, .goReq 0, .hangUp 0, .timeout 0,
   .request exTopicA, .goReq 1, .goShovel 0, .answerShovel 0, .goShovel 0]

/-- The code says that the shovel may subscribe again if it had to unsubscribe. It does not: after the timeout it has
not unsubscribed at all, is refused, and panics. The second client has an open response on which nothing ever
comes, whatever is published, and so has each one after it. -/
theorem C62_race_deaf : (SubHub.init.run exRaceDeaf).shovels.map (·.pc) = [.failing] ∧
    ∀ ops, (∃ r : SubReq, (SubHub.init.run (exRaceDeaf ++ ops)).reqs[1]? = some r ∧ r.out = [] ∧
      (r.pc = .streaming 0 0 ∨ r.pc = .gone)) ∧
    ∀ (i : Nat) (r : SubReq), 2 ≤ i → (SubHub.init.run (exRaceDeaf ++ ops)).reqs[i]? = some r → r.topic = exTopicA → r.out = [] := by
  refine ⟨by decide, fun ops => ?_⟩
  have hr : HubReach (SubHub.init.run exRaceDeaf) := ⟨_, rfl⟩
  have e : SubHub.init.run (exRaceDeaf ++ ops) = (SubHub.init.run exRaceDeaf).run ops := by simp [SubHub.run]
  have hk : (SubHub.init.run exRaceDeaf).shovels[0]? = some ⟨exTopicA, 0, 0, .failing⟩ := by decide
  have hi : (SubHub.init.run exRaceDeaf).reqs[1]? = some ⟨exTopicA, .streaming 0 0, []⟩ := by decide
  obtain ⟨-, h2, h3⟩ := C62_deaf _ hr 0 _ hk (.inl rfl) ops
  have h0 : (SubHub.init.run exRaceDeaf).sent 0 = [] := by decide
  have h2' : ((SubHub.init.run exRaceDeaf).run ops).sent 0 = [] := h2.trans h0
  rw [e]
  refine ⟨?_, fun i r hle hx ht => (h3 i r (by rw [show (SubHub.init.run exRaceDeaf).reqs.length = 2 by decide]; exact hle) hx ht).1⟩
  obtain ⟨r, k, a1, -, -, a2, a3, a4⟩ := C62_segment _ hr 1 _ 0 0 hi rfl ops
  rw [h2'] at a2 a3 a4
  refine ⟨r, a1, by rw [a3]; simp, ?_⟩
  simp only [List.length_nil, Nat.zero_add, Nat.le_zero] at a2
  subst a2
  rcases a4 with a4 | ⟨-, a4⟩ | a4
  · exact .inl a4
  · simp at a4
  · exact .inr a4

/-- The last listener goes away and the shovel leaves and drops its stream. Before the node handles the notice of
that, the next request for the topic is refused, and panics. -/
def exRaceRefused : List SubOp :=
  [.request exTopicA, .goReq 0, .answerReq 0, .goReq 0, .hangUp 0, .timeout 0, .goShovel 0, .goShovel 0,
   .request exTopicA, .goReq 1, .answerReq 1, .goReq 1]

theorem C62_race_refused : (SubHub.init.run exRaceRefused).reqs.map (·.pc) = [.gone, .panicked] ∧
    (SubHub.init.run exRaceRefused).ps.drops = [exTopicA] ∧ (SubHub.init.run exRaceRefused).locked = false ∧
    (SubHub.init.run exRaceRefused).table = [] := by decide

def exSub : List SubOp := [.request exTopicA, .goReq 0, .answerReq 0, .goReq 0, .request exTopicA, .goReq 1]

def exSubGoes : List SubOp :=
  [.node (.arrive (.message (exNote [exTopicB, exTopicA]))), .node (.arrive (.message (exNote [exTopicB]))), .node .serve,
   .goShovel 0, .goReq 0, .node .serve, .node (.arrive (.message (exNote [exTopicA]))), .node .serve, .hangUp 1, .timeout 0]

/-- One shovel for two requests; the first is at work and has got a message, the second has not read it. -/
example : (SubHub.init.run (exSub ++ exSubGoes)).reqs =
    [⟨exTopicA, .streaming 0 1, [exNote [exTopicB, exTopicA]]⟩, ⟨exTopicA, .gone, []⟩] := by decide

def exShovel : Shovel := ⟨exTopicA, 0, 0, .reading⟩

theorem exSub_reach : HubReach (SubHub.init.run exSub) := ⟨_, rfl⟩

theorem exSub_healthy : Healthy (SubHub.init.run exSub) 0 exShovel := by
  refine ⟨by decide, rfl, by decide, by decide, fun a x ha hx => ?_⟩
  have : (SubHub.init.run exSub).shovels = [exShovel] := by decide
  rw [this] at ha
  match a, ha with
  | 0, ha => cases ha; decide
  | n + 1, ha => simp at ha

example : ∃ (r' : SubReq) (k : Nat), ((SubHub.init.run exSub).run exSubGoes).reqs[0]? = some r' ∧ r'.topic = exTopicA ∧
    (∃ more, ((SubHub.init.run exSub).run exSubGoes).sent 0 = (SubHub.init.run exSub).sent 0 ++ more) ∧
    0 + k ≤ (((SubHub.init.run exSub).run exSubGoes).sent 0).length ∧
    r'.out = [] ++ ((((SubHub.init.run exSub).run exSubGoes).sent 0).drop 0).take k ∧
    (r'.pc = .streaming 0 (0 + k) ∨ r'.pc = .lagged ∧ 0 + k + 16 < (((SubHub.init.run exSub).run exSubGoes).sent 0).length ∨ r'.pc = .gone) :=
  C62_segment _ exSub_reach 0 ⟨exTopicA, .streaming 0 0, []⟩ 0 0 (by decide) rfl exSubGoes

example : Healthy ((SubHub.init.run exSub).run exSubGoes) 0 exShovel ∧ ∃ done,
    (SubHub.init.run exSub).ps.queue ++ subArrivals exSubGoes = done ++ ((SubHub.init.run exSub).run exSubGoes).ps.queue ∧
    [exNote [exTopicB, exTopicA]] ++ awaiting ((SubHub.init.run exSub).run exSubGoes) exShovel 1 =
      [] ++ awaiting (SubHub.init.run exSub) exShovel 0 ++ mentions exTopicA done :=
  C62_complete _ exSub_reach 0 exShovel exSub_healthy 0 ⟨exTopicA, .streaming 0 0, []⟩ 0 (by decide) rfl exSubGoes (by decide)
    ⟨exTopicA, .streaming 0 1, [exNote [exTopicB, exTopicA]]⟩ 1 (by decide) rfl

example : ∃ k, Healthy ((SubHub.init.run (exSub.take 3)).step (.goReq 0)) k ⟨exTopicA, 0, 0, .reading⟩ ∧
    ((SubHub.init.run (exSub.take 3)).step (.goReq 0)).reqs[0]? = some ⟨exTopicA, .streaming 0 0, []⟩ ∧
    awaiting ((SubHub.init.run (exSub.take 3)).step (.goReq 0)) ⟨exTopicA, 0, 0, .reading⟩ 0 = [] :=
  C62_starts (SubHub.init.run (exSub.take 3)) ⟨_, rfl⟩ 0 0 ⟨exTopicA, .answered (some 0), []⟩ (by decide) rfl (by decide) (by decide)
    (fun a x ha => absurd ha (by rw [show (SubHub.init.run (exSub.take 3)).shovels = [] by decide]; simp))

example : ∃ ops, ops.length ≤ 2 ∧ ((SubHub.init.run (exSub.take 2)).run ops).locked = false ∧
    ((∃ i, ∀ op ∈ ops, op = .answerReq i ∨ op = .goReq i) ∨ ∃ k, ∀ op ∈ ops, op = .answerShovel k ∨ op = .goShovel k) :=
  C62_lock _ ⟨_, rfl⟩ (by decide)

/-- The race above is the case of `C62_refused` where the notice is pending. -/
example : exTopicA ∈ (SubHub.init.run (exRaceRefused.take 10)).ps.drops ∨ ∃ (k : Nat) (s : Shovel),
    (SubHub.init.run (exRaceRefused.take 10)).shovels[k]? = some s ∧ s.topic = exTopicA ∧ s.pc = .leaving :=
  C62_refused _ ⟨_, rfl⟩ 1 ⟨exTopicA, .asking, []⟩ (by decide) rfl (by decide)

example : AMap.get (SubHub.init.run (exRaceDeaf.take 9)).ps.streams exTopicA = some 0 ∨
    exTopicA ∈ (SubHub.init.run (exRaceDeaf.take 9)).ps.drops ∨ ∃ (a : Nat) (x : Shovel),
    (SubHub.init.run (exRaceDeaf.take 9)).shovels[a]? = some x ∧ x.topic = exTopicA ∧ x.pc = .leaving :=
  C62_shovel_refused _ ⟨_, rfl⟩ 0 ⟨exTopicA, 0, 0, .asking⟩ (by decide) rfl (by decide)

end Verif.Props
