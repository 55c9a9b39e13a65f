import Verif.Base.Cid
import Verif.Base.AMap

/-! # Pin modes and kinds (src/repo/mod.rs) -/

namespace Verif.Repo

open Verif

/-- `PinMode` (src/repo/mod.rs:237-242). -/
inductive PinMode where
  | indirect
  | direct
  | recursive
deriving DecidableEq, Repr

/-- `PinKind` (src/repo/mod.rs:306-311). -/
inductive PinKind where
  | indirectFrom (c : Cid)
  | direct
  | recursive (n : Nat)
  | recursiveIntention
deriving DecidableEq, Repr

/-- `PartialEq<PinMode> for PinKind` (src/repo/mod.rs:290-300). -/
def PinKind.eqMode : PinKind → PinMode → Bool
  | .indirectFrom _, .indirect => true
  | .direct, .direct => true
  | .recursive _, .recursive => true
  | .recursiveIntention, .recursive => true
  | _, _ => false

/-- `PinModeRequirement::matches` (src/repo/mod.rs:270-277), against a mode; `none` is `Any`. -/
def reqMode (req : Option PinMode) (m : PinMode) : Bool :=
  match req with
  | some one => m == one
  | none => true

/-- `PinModeRequirement::matches`, against a kind. -/
def reqKind (req : Option PinMode) (k : PinKind) : Bool :=
  match req with
  | some one => k.eqMode one
  | none => true

/-- `PinModeRequirement::is_indirect_or_any` (src/repo/mod.rs:262-268). -/
def reqIndirectOrAny (req : Option PinMode) : Bool :=
  match req with
  | some .indirect => true
  | none => true
  | some _ => false

/-- Errors of the pin stores. `refs` is an error of the stream of descendants, `panic` a failing
`unwrap`. -/
inductive PinErr where
  | unexpectedNumberOfDescendants (found expected : Nat)
  | notPinnedRecursive
  | alreadyPinnedRecursive
  | cannotUnpinUnpinned
  | cannotUnpinDirectOnRecursivelyPinned
  | notPinned
  | notPinnedOrIndirect
  | pinnedIndirectlyThrough (c : Cid)
  | isNotPinned (c : Cid)
  | isNotPinnedAs (c : Cid) (m : PinMode)
  | invalidMode
  | refs
  | panic
deriving DecidableEq, Repr

/-- `if version == V1 { cid } else { Cid::new_v1(cid.codec(), cid.hash()) }`
(src/repo/mem.rs:226-231, 487-492). -/
def Cid.asV1 (c : Cid) : Cid := { c with version := .v1 }

/-- What the stream of descendants yields: cids, or an error (`none`) after which nothing more is
read. -/
abbrev Refs := List (Option Cid)

end Verif.Repo
