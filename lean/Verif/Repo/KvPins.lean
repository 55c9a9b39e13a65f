import Verif.Repo.FsPins

/-!
# The key-value (sled) pin store

Model of `src/repo/kv.rs`. The key `pin.{d|r|i}.{cid}` is the pair of mode and cid, the value the
root through which a cid is pinned indirectly (`none` for the empty value of direct and recursive
pins). `Cid::to_string` is trusted to be injective and to be read back by `Cid::from_str`. Every
operation is one sled transaction, which is trusted to be atomic; storage errors are not modelled.
-/

namespace Verif.Repo

open Verif

/-- The sled tree. -/
abbrev KvPins := AMap (PinMode × Cid) (Option Cid)

/-- `get_pinned_mode` (src/repo/kv.rs:500-513); the key is the mode and the cid. -/
def KvPins.getPinnedMode (t : KvPins) (c : Cid) : Option PinMode :=
  if (t.get (.direct, c)).isSome then some .direct
  else if (t.get (.recursive, c)).isSome then some .recursive
  else if (t.get (.indirect, c)).isSome then some .indirect
  else none

/-- `is_not_pinned_or_pinned_indirectly` (src/repo/kv.rs:515-523). -/
def KvPins.notPinnedOrIndirect (t : KvPins) (c : Cid) : Bool :=
  match t.getPinnedMode c with
  | some .indirect => true
  | none => true
  | _ => false

/-- `is_pinned` (src/repo/kv.rs:101-113). -/
def KvPins.isPinned (t : KvPins) (c : Cid) : Bool := (t.getPinnedMode c).isSome

/-- `insert_direct_pin` (src/repo/kv.rs:115-152). -/
def KvPins.insertDirect (t : KvPins) (c : Cid) : Except PinErr Unit × KvPins :=
  match t.getPinnedMode c with
  | some .direct => (.ok (), t)
  | some .recursive => (.error .alreadyPinnedRecursive, t)
  | some .indirect => (.ok (), AMap.set (t.erase (.indirect, c)) (.direct, c) none)
  | none => (.ok (), t.set (.direct, c) none)

/-- The loop of `insert_recursive_pin` (src/repo/kv.rs:191-203). -/
def KvPins.insertIndirects (target : Cid) : KvPins → List Cid → KvPins
  | t, [] => t
  | t, c :: cs =>
    if t.isPinned c then KvPins.insertIndirects target t cs
    else KvPins.insertIndirects target (t.set (.indirect, c) (some target)) cs

/-- `insert_recursive_pin` (src/repo/kv.rs:154-212). -/
def KvPins.insertRecursive (le : Cid → Cid → Bool) (t : KvPins) (c : Cid) (refs : Refs) :
    Except PinErr Unit × KvPins :=
  match collectRefs le refs with
  | .error e => (.error e, t)
  | .ok set =>
    let go (t : KvPins) : Except PinErr Unit × KvPins :=
      (.ok (), KvPins.insertIndirects c (t.set (.recursive, c) none) set)
    match t.getPinnedMode c with
    | some .recursive => (.ok (), t)
    | some m => go (t.erase (m, c))
    | none => go t

/-- `remove_direct_pin` (src/repo/kv.rs:214-239). -/
def KvPins.removeDirect (t : KvPins) (c : Cid) : Except PinErr Unit × KvPins :=
  if t.notPinnedOrIndirect c then (.error .notPinnedOrIndirect, t)
  else (.ok (), t.erase (.direct, c))

/-- The loop of `remove_recursive_pin` (src/repo/kv.rs:267-279). -/
def KvPins.removeIndirects : KvPins → List Cid → KvPins
  | t, [] => t
  | t, c :: cs =>
    match t.getPinnedMode c with
    | some .indirect => KvPins.removeIndirects (t.erase (.indirect, c)) cs
    | _ => KvPins.removeIndirects t cs

/-- `remove_recursive_pin` (src/repo/kv.rs:241-288). -/
def KvPins.removeRecursive (le : Cid → Cid → Bool) (t : KvPins) (c : Cid) (refs : Refs) :
    Except PinErr Unit × KvPins :=
  match collectRefs le refs with
  | .error e => (.error e, t)
  | .ok set =>
    if t.notPinnedOrIndirect c then (.error .notPinnedOrIndirect, t)
    else (.ok (), KvPins.removeIndirects (t.erase (.recursive, c)) set)

/-- `list` (src/repo/kv.rs:290-381). -/
def KvPins.list (t : KvPins) (req : Option PinMode) : List (Cid × PinMode) :=
  t.filterMap (fun (e : (PinMode × Cid) × Option Cid) =>
    if reqMode req e.1.1 then some (e.1.2, e.1.1) else none)

/-- The loop body of `query` (src/repo/kv.rs:403-430). -/
def KvPins.queryOne (t : KvPins) (req : Option PinMode) (c : Cid) : Option PinKind :=
  match t.getPinnedMode c with
  | some m =>
    if reqMode req m then
      match m with
      | .direct => some .direct
      | .recursive => some (.recursive 0)
      | .indirect => ((t.get (.indirect, c)).getD none).map .indirectFrom
    else none
  | none => none

/-- `query` (src/repo/kv.rs:383-444). -/
def KvPins.query (t : KvPins) (ids : List Cid) (req : Option PinMode) : List (Cid × PinKind) :=
  ids.filterMap (fun c => (t.queryOne req c).map (fun k => (c, k)))

end Verif.Repo
