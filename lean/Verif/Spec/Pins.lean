import Verif.Base.Cid

/-!
# What a pin store is for

Independent of any store: the user's successful operations decide which cids are pinned. `refs`
gives the descendants of every root; blocks are immutable, so it never changes.
-/

namespace Verif.Spec

open Verif

/-- What the user asked to keep. -/
structure Pins where
  direct : Cid → Bool
  root : Cid → Bool

/-- Nothing is pinned. -/
def Pins.none : Pins := ⟨fun _ => false, fun _ => false⟩

/-- The four operations. -/
inductive PinOp where
  | insertDirect (c : Cid)
  | removeDirect (c : Cid)
  | insertRecursive (c : Cid)
  | removeRecursive (c : Cid)
deriving DecidableEq, Repr

/-- The root a recursive operation is about. -/
def PinOp.root? : PinOp → Option Cid
  | .insertRecursive c => some c
  | .removeRecursive c => some c
  | _ => Option.none

/-- What a successful operation means: pinning recursively replaces a direct pin, unpinning
recursively removes either. -/
def Pins.after (s : Pins) : PinOp → Pins
  | .insertDirect c => { s with direct := fun a => if a = c then true else s.direct a }
  | .removeDirect c => { s with direct := fun a => if a = c then false else s.direct a }
  | .insertRecursive c =>
    ⟨fun a => if a = c then false else s.direct a, fun a => if a = c then true else s.root a⟩
  | .removeRecursive c =>
    ⟨fun a => if a = c then false else s.direct a, fun a => if a = c then false else s.root a⟩

/-- `c` is kept because some recursive root needs it. -/
def Pins.Indirect (refs : Cid → List Cid) (s : Pins) (c : Cid) : Prop :=
  ∃ r, s.root r = true ∧ c ∈ refs r

/-- `c` must be kept. -/
def Pins.Pinned (refs : Cid → List Cid) (s : Pins) (c : Cid) : Prop :=
  s.direct c = true ∨ s.root c = true ∨ s.Indirect refs c

/-- Runs a store (given by its step function) along with the specification: successful operations
count, failed ones do not. -/
def trackBy {σ ε : Type} (after : Pins → PinOp → Pins) (step : σ → PinOp → Except ε Unit × σ)
    (g : σ) (s : Pins) : List PinOp → σ × Pins
  | [] => (g, s)
  | op :: ops =>
    match step g op with
    | (.ok _, g') => trackBy after step g' (after s op) ops
    | (.error _, g') => trackBy after step g' s ops

/-- With the usual meaning of the operations. -/
abbrev track {σ ε : Type} (step : σ → PinOp → Except ε Unit × σ) (g : σ) (s : Pins)
    (ops : List PinOp) : σ × Pins := trackBy Pins.after step g s ops

/-- An invariant of single steps holds after any history. -/
theorem track_inv {σ ε : Type} {after : Pins → PinOp → Pins}
    {step : σ → PinOp → Except ε Unit × σ} {P : σ → Pins → Prop} {A : PinOp → Prop}
    (hs : ∀ g s op, A op → P g s → (∀ u g', step g op = (.ok u, g') → P g' (after s op)) ∧
      (∀ e g', step g op = (.error e, g') → P g' s))
    {ops : List PinOp} (ha : ∀ op ∈ ops, A op) {g : σ} {s : Pins} (h : P g s) :
    P (trackBy after step g s ops).1 (trackBy after step g s ops).2 := by
  induction ops generalizing g s with
  | nil => exact h
  | cons op ops ih =>
    simp only [trackBy]
    have h1 := hs g s op (ha op (by simp)) h
    split
    · rename_i e
      exact ih (fun o ho => ha o (by simp [ho])) (h1.1 _ _ e)
    · rename_i e
      exact ih (fun o ho => ha o (by simp [ho])) (h1.2 _ _ e)

/-- How an operation ended. -/
inductive Outcome where
  | ok
  | failed
  | crashed
deriving DecidableEq, Repr

/-- The specification states that explain a history (latest operation first): an operation cut
short by a crash has happened or has not. -/
inductive Explains : List (PinOp × Outcome) → Pins → Prop where
  | nil : Explains [] Pins.none
  | ok {h : List (PinOp × Outcome)} {s : Pins} {op : PinOp} :
      Explains h s → Explains ((op, .ok) :: h) (s.after op)
  | failed {h : List (PinOp × Outcome)} {s : Pins} {op : PinOp} :
      Explains h s → Explains ((op, .failed) :: h) s
  | crashedBefore {h : List (PinOp × Outcome)} {s : Pins} {op : PinOp} :
      Explains h s → Explains ((op, .crashed) :: h) s
  | crashedAfter {h : List (PinOp × Outcome)} {s : Pins} {op : PinOp} :
      Explains h s → Explains ((op, .crashed) :: h) (s.after op)

end Verif.Spec
