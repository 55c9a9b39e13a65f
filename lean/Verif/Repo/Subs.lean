import Verif.Base.AMap

/-!
# Subscriptions

Model of `src/subscription.rs`: a registry of waiters, shared between threads. Every step is what happens
while the lock is held, or one access to the flag; the scheduler picks the next step freely.

* The registry is `HashMap<RequestKind, HashMap<SubscriptionId, Subscription>>`; here it is one map with
  pairs as keys. An inner map is removed as soon as it is empty (subscription.rs:380-384, 411-413), so
  there being one is the same as there being an entry of the kind.
* A waker is a flag: some task registered its waker. `wakes` lists the waiters whose waker was called.
* A cancel notifier is a flag, and `unwants` lists the messages sent. `try_send` does not fail for want of
  room: every subscription has its own clone of the sender, used once.
* The counter of identifiers does not wrap around.
* `RepoEvent::try_from` fails for other kinds than blocks, but only those have a notifier.
-/

namespace Verif.Repo.Subs

open Verif

/-- `Subscription` (src/subscription.rs:232-244). -/
inductive Sub (R : Type) where
  | ready (r : R)
  | pending (waker notifier : Bool)
  | cancelled
deriving DecidableEq, Repr

/-- What is left to do for a `SubscriptionFuture`. -/
inductive Stage (R : Type) where
  /-- in `create_subscription`, before the lock (line 109) -/
  | creating (sub : Sub R)
  /-- with its field `cleanup_complete` -/
  | live (cleanup : Bool)
  /-- in `drop`, after the lock (line 421) -/
  | dropping (sub : Option (Sub R)) (isLast : Bool)
  | gone
deriving DecidableEq, Repr

/-- `SubscriptionFuture` (src/subscription.rs:333-344). -/
structure Fut (K R : Type) where
  kind : K
  stage : Stage R
deriving DecidableEq, Repr

/-- The registry, the futures made from it, and what they did. -/
structure Reg (K R : Type) where
  subs : AMap (K × Nat) (Sub R)
  shut : Bool
  nextId : Nat
  futs : Nat → Option (Fut K R)
  /-- the map that `shutdown` took, as far as it has not been gone through -/
  taken : AMap (K × Nat) (Sub R)
  wakes : List Nat
  unwants : List K

variable {K R : Type} [DecidableEq K]

/-- `SubscriptionRegistry::default()` (src/subscription.rs:190-197). -/
def Reg.init : Reg K R := ⟨[], false, 0, fun _ => none, [], [], []⟩

/-- `SubscriptionFuture::poll` gives `Poll::Pending`, `Ready(result)` or `Ready(Err(Cancelled))`;
`finish_subscription` may panic. -/
inductive Out (R : Type) where
  | nothing
  | pending
  | done (r : R)
  | cancelled
  | panic
deriving DecidableEq, Repr

/-- Some subscription to the kind is registered. -/
def hasKind (subs : AMap (K × Nat) (Sub R)) (k : K) : Bool := subs.any (fun e => decide (e.1.1 = k))

/-- `Subscription::cancel` (src/subscription.rs:307-329): the waiters woken and the messages sent. -/
def Sub.cancelEffect (sub : Sub R) (k : K) (i : Nat) (isLast : Bool) : List Nat × List K :=
  match sub with
  | .pending waker notifier =>
    (if waker then [i] else [], if isLast && notifier then [k] else [])
  | _ => ([], [])

/-- Sets the future `i`. -/
def Reg.setFut (s : Reg K R) (i : Nat) (f : Fut K R) : Reg K R :=
  { s with futs := fun j => if j = i then some f else s.futs j }

/-- `create_subscription` up to the lock (src/subscription.rs:101-107). -/
def Reg.create (s : Reg K R) (k : K) (notifier : Bool) : Reg K R :=
  let sub : Sub R := .pending false notifier
  let i := s.nextId
  if s.shut then
    let eff := sub.cancelEffect k i true
    { s with nextId := i + 1, wakes := s.wakes ++ eff.1, unwants := s.unwants ++ eff.2 }.setFut i
      ⟨k, .creating .cancelled⟩
  else { s with nextId := i + 1 }.setFut i ⟨k, .creating sub⟩

/-- The rest of `create_subscription` (src/subscription.rs:109-123). -/
def Reg.insert (s : Reg K R) (i : Nat) : Option (Reg K R) :=
  match s.futs i with
  | some ⟨k, .creating sub⟩ =>
    some ({ s with subs := AMap.set s.subs (k, i) sub }.setFut i ⟨k, .live false⟩)
  | _ => none

/-- The waiters of the kind that are pending. -/
def pendingOf (subs : AMap (K × Nat) (Sub R)) (k : K) : List (Nat × Bool) :=
  subs.filterMap (fun e => match e with
    | ((k', i), .pending waker _) => if k' = k then some (i, waker) else none
    | _ => none)

/-- The loop of `finish_subscription` (src/subscription.rs:138-143). -/
def wakeAll (subs : AMap (K × Nat) (Sub R)) (k : K) (r : R) : AMap (K × Nat) (Sub R) :=
  subs.map (fun e => match e with
    | ((k', i), .pending w n) => if k' = k then ((k', i), .ready r) else ((k', i), .pending w n)
    | e => e)

/-- `finish_subscription` (src/subscription.rs:127-164); `debug` is `cfg(debug_assertions)`. -/
def Reg.finish (s : Reg K R) (debug : Bool) (k : K) (r : R) : Reg K R × Out R :=
  if hasKind s.subs k then
    let awoken := pendingOf s.subs k
    if debug && awoken.isEmpty then (s, .panic)
    else ({ s with subs := wakeAll s.subs k r,
                   wakes := s.wakes ++ (awoken.filter (fun e => e.2)).map Prod.fst }, .nothing)
  else (s, .nothing)

/-- `SubscriptionFuture::poll` (src/subscription.rs:348-392). -/
def Reg.poll (s : Reg K R) (i : Nat) : Option (Reg K R × Out R) :=
  match s.futs i with
  | some ⟨k, .live _⟩ =>
    match AMap.get s.subs (k, i) with
    | none => some (s, .cancelled)
    | some (.pending _ n) => some ({ s with subs := AMap.set s.subs (k, i) (.pending true n) }, .pending)
    | some .cancelled =>
      let subs := AMap.erase s.subs (k, i)
      some ({ s with subs := subs }.setFut i ⟨k, .live (!hasKind subs k)⟩, .cancelled)
    | some (.ready r) =>
      let subs := AMap.erase s.subs (k, i)
      some ({ s with subs := subs }.setFut i ⟨k, .live (!hasKind subs k)⟩, .done r)
  | _ => none

/-- `drop` up to the end of the lock (src/subscription.rs:396-419). -/
def Reg.dropLocked (s : Reg K R) (i : Nat) : Option (Reg K R) :=
  match s.futs i with
  | some ⟨k, .live cleanup⟩ =>
    if cleanup then some (s.setFut i ⟨k, .gone⟩)
    else if hasKind s.subs k then
      let subs := AMap.erase s.subs (k, i)
      some ({ s with subs := subs }.setFut i ⟨k, .dropping (AMap.get s.subs (k, i)) (!hasKind subs k)⟩)
    else some (s.setFut i ⟨k, .dropping none false⟩)
  | _ => none

/-- The rest of `drop` (src/subscription.rs:421-423). -/
def Reg.dropNotify (s : Reg K R) (i : Nat) : Option (Reg K R) :=
  match s.futs i with
  | some ⟨k, .dropping sub isLast⟩ =>
    let eff := match sub with
      | some sub => sub.cancelEffect k i isLast
      | none => ([], [])
    some ({ s with wakes := s.wakes ++ eff.1, unwants := s.unwants ++ eff.2 }.setFut i ⟨k, .gone⟩)
  | _ => none

/-- The first line of `shutdown` (src/subscription.rs:168); `none` if it returns there. -/
def Reg.shutFlag (s : Reg K R) : Option (Reg K R) := if s.shut then none else some { s with shut := true }

/-- `mem::take` of the map (src/subscription.rs:175). -/
def Reg.shutTake (s : Reg K R) : Reg K R := { s with taken := s.taken ++ s.subs, subs := [] }

/-- One round of the loop, over any entry (src/subscription.rs:177-182). -/
def Reg.shutCancel (s : Reg K R) (k : K) (i : Nat) : Option (Reg K R) :=
  match AMap.get s.taken (k, i) with
  | none => none
  | some sub =>
    let eff := sub.cancelEffect k i true
    some { s with taken := AMap.erase s.taken (k, i), wakes := s.wakes ++ eff.1, unwants := s.unwants ++ eff.2 }

/-- What may happen next. -/
inductive Op (K R : Type) where
  | create (k : K) (notifier : Bool)
  | insert (i : Nat)
  | finish (k : K) (r : R)
  | poll (i : Nat)
  | dropLocked (i : Nat)
  | dropNotify (i : Nat)
  | shutFlag
  | shutTake
  | shutCancel (k : K) (i : Nat)
deriving DecidableEq, Repr

/-- Its effect and result. -/
def Reg.step (debug : Bool) (s : Reg K R) : Op K R → Option (Reg K R × Out R)
  | .create k n => some (s.create k n, .nothing)
  | .insert i => (s.insert i).map (fun s => (s, .nothing))
  | .finish k r => some (s.finish debug k r)
  | .poll i => s.poll i
  | .dropLocked i => (s.dropLocked i).map (fun s => (s, .nothing))
  | .dropNotify i => (s.dropNotify i).map (fun s => (s, .nothing))
  | .shutFlag => s.shutFlag.map (fun s => (s, .nothing))
  | .shutTake => some (s.shutTake, .nothing)
  | .shutCancel k i => (s.shutCancel k i).map (fun s => (s, .nothing))

/-- A schedule. -/
def Reg.run (debug : Bool) : Reg K R → List (Op K R) → Option (Reg K R)
  | s, [] => some s
  | s, op :: ops =>
    match s.step debug op with
    | none => none
    | some (s', _) => Reg.run debug s' ops

end Verif.Repo.Subs
