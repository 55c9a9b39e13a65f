import Verif.Repo.PinCommon

/-!
# The in-memory pin store

Model of the pin part of `src/repo/mem.rs`. The map from cid bytes to JSON documents is a map from
cids to documents: `Cid::to_bytes` is injective on valid cids (`Cid.toBytes_injective`), `serde_json`
is trusted to read back what it wrote. The fields `version` and `cid_version` of the document are
never read and left out. Every operation holds the mutex until it returns, so operations are
atomic. `indirect_by` holds the texts of version 1 cids in the order of a `BTreeSet<String>`; here
they are the cids themselves, and the order of their texts is the parameter `le`.
-/

namespace Verif.Repo

open Verif

/-- `Recursive` (src/repo/mem.rs:446-457). -/
inductive Recursive where
  | count (n : Nat)
  | intent
  | not
deriving DecidableEq, Repr

/-- `Recursive::is_set` (src/repo/mem.rs:460-465). -/
def Recursive.isSet : Recursive → Bool
  | .count _ => true
  | .intent => true
  | .not => false

/-- `PinDocument` (src/repo/mem.rs:469-478). -/
structure PinDocument where
  direct : Bool := false
  recursive : Recursive := .not
  indirectBy : List Cid := []
deriving DecidableEq, Repr

/-- Insertion into an ordered set kept as a list. -/
def insertSorted (le : Cid → Cid → Bool) (x : Cid) : List Cid → List Cid
  | [] => [x]
  | y :: ys =>
    if x = y then y :: ys
    else if le x y then x :: y :: ys
    else y :: insertSorted le x ys

/-- `collect::<BTreeSet<_>>()`. -/
def toSet (le : Cid → Cid → Bool) (l : List Cid) : List Cid :=
  l.foldl (fun s x => insertSorted le x s) []

/-- `PinDocument::update` (src/repo/mem.rs:481-604): whether it was modified and the new document. -/
def PinDocument.update (le : Cid → Cid → Bool) (d : PinDocument) (add : Bool) (kind : PinKind) :
    Except PinErr (Bool × PinDocument) :=
  match kind with
  | .indirectFrom root =>
    let root := Cid.asV1 root
    if d.indirectBy.isEmpty then
      if add then .ok (true, { d with indirectBy := [root] }) else .ok (false, d)
    else
      let set := toSet le d.indirectBy
      if add then
        .ok (!set.contains root, { d with indirectBy := insertSorted le root set })
      else
        .ok (set.contains root, { d with indirectBy := set.filter (fun x => decide (x ≠ root)) })
  | .direct =>
    if d.recursive.isSet && !d.direct && add then .error .alreadyPinnedRecursive
    else if !add && !d.direct then
      if !d.recursive.isSet then .error .cannotUnpinUnpinned
      else .error .cannotUnpinDirectOnRecursivelyPinned
    else .ok (d.direct != add, { d with direct := add })
  | .recursiveIntention =>
    if add then
      match d.recursive with
      | .count _ => .error .alreadyPinnedRecursive
      | .intent => .ok (false, d)
      | .not => .ok (true, { d with recursive := .intent, direct := false })
    else
      match d.recursive with
      | .count _ => .ok (true, { d with recursive := .not })
      | .intent => .ok (true, { d with recursive := .not })
      | .not => .ok (false, d)
  | .recursive n =>
    if add then
      match d.recursive with
      | .count other =>
        if other ≠ n then .error (.unexpectedNumberOfDescendants other n) else .ok (false, d)
      | .intent => .ok (true, { d with recursive := .count n, direct := false })
      | .not => .ok (true, { d with recursive := .count n, direct := false })
    else
      match d.recursive with
      | .count other =>
        if other ≠ n then .error (.unexpectedNumberOfDescendants other n)
        else .ok (true, { d with recursive := .not })
      | .intent => .ok (true, { d with recursive := .not })
      | .not => .error .notPinnedRecursive

/-- `PinDocument::can_remove` (src/repo/mem.rs:606-608). -/
def PinDocument.canRemove (d : PinDocument) : Bool :=
  !d.direct && !d.recursive.isSet && d.indirectBy.isEmpty

/-- `PinDocument::mode` (src/repo/mem.rs:610-620). -/
def PinDocument.mode (d : PinDocument) : Option PinMode :=
  if d.recursive.isSet then some .recursive
  else if !d.indirectBy.isEmpty then some .indirect
  else if d.direct then some .direct
  else none

/-- `PinDocument::pick_kind` (src/repo/mem.rs:622-640). The texts in `indirect_by` are those of
cids, so parsing them does not fail. -/
def PinDocument.pickKind (d : PinDocument) : Option PinKind :=
  match d.mode with
  | none => none
  | some .recursive =>
    match d.recursive with
    | .count n => some (.recursive n)
    | _ => some .recursiveIntention
  | some .indirect => d.indirectBy.head?.map .indirectFrom
  | some .direct => some .direct

/-- `MemDataStore::pin` (src/repo/mem.rs:104). -/
abbrev MemPins := AMap Cid PinDocument

/-- `MemDataStore::insert_pin` (src/repo/mem.rs:109-152). -/
def MemPins.insertPin (le : Cid → Cid → Bool) (g : MemPins) (target : Cid) (kind : PinKind) :
    Except PinErr (Bool × MemPins) :=
  match g.get target with
  | some doc =>
    match doc.update le true kind with
    | .error e => .error e
    | .ok (true, doc) => .ok (true, g.set target doc)
    | .ok (false, _) => .ok (false, g)
  | none =>
    match PinDocument.update le {} true kind with
    | .error _ => .error .panic
    | .ok (_, doc) => .ok (true, g.set target doc)

/-- `MemDataStore::remove_pin` (src/repo/mem.rs:155-183). -/
def MemPins.removePin (le : Cid → Cid → Bool) (g : MemPins) (target : Cid) (kind : PinKind) :
    Except PinErr (Bool × MemPins) :=
  match g.get target with
  | some doc =>
    match doc.update le false kind with
    | .error e => .error e
    | .ok (false, _) => .ok (false, g)
    | .ok (true, doc) =>
      if doc.canRemove then .ok (true, g.erase target) else .ok (true, g.set target doc)
  | none => .error .notPinned

/-- `is_pinned` (src/repo/mem.rs:188-201). -/
def MemPins.isPinned (g : MemPins) (c : Cid) : Bool := (g.get c).isSome

/-- `insert_direct_pin` (src/repo/mem.rs:203-207): the result and the store left behind. -/
def MemPins.insertDirect (le : Cid → Cid → Bool) (g : MemPins) (target : Cid) :
    Except PinErr Unit × MemPins :=
  match g.insertPin le target .direct with
  | .error e => (.error e, g)
  | .ok (_, g) => (.ok (), g)

/-- `remove_direct_pin` (src/repo/mem.rs:209-213). -/
def MemPins.removeDirect (le : Cid → Cid → Bool) (g : MemPins) (target : Cid) :
    Except PinErr Unit × MemPins :=
  match g.removePin le target .direct with
  | .error e => (.error e, g)
  | .ok (_, g) => (.ok (), g)

/-- The loop of `insert_recursive_pin` (src/repo/mem.rs:238-244): the count and the store. -/
def MemPins.insertRefs (le : Cid → Cid → Bool) (kind : PinKind) :
    MemPins → Refs → Nat → Except PinErr Nat × MemPins
  | g, [], count => (.ok count, g)
  | g, none :: _, _ => (.error .refs, g)
  | g, some next :: rest, count =>
    match g.insertPin le next kind with
    | .error e => (.error e, g)
    | .ok (_, g) => MemPins.insertRefs le kind g rest (count + 1)

/-- `insert_recursive_pin` (src/repo/mem.rs:215-250). -/
def MemPins.insertRecursive (le : Cid → Cid → Bool) (g : MemPins) (target : Cid) (refs : Refs) :
    Except PinErr Unit × MemPins :=
  match g.insertPin le target .recursiveIntention with
  | .error e => (.error e, g)
  | .ok (_, g) =>
    match MemPins.insertRefs le (.indirectFrom (Cid.asV1 target)) g refs 0 with
    | (.error e, g) => (.error e, g)
    | (.ok count, g) =>
      match g.insertPin le target (.recursive count) with
      | .error e => (.error e, g)
      | .ok (_, g) => (.ok (), g)

/-- The loop of `remove_recursive_pin` (src/repo/mem.rs:294-298). -/
def MemPins.removeRefs (le : Cid → Cid → Bool) (kind : PinKind) :
    MemPins → Refs → Except PinErr Unit × MemPins
  | g, [] => (.ok (), g)
  | g, none :: _ => (.error .refs, g)
  | g, some next :: rest =>
    match g.removePin le next kind with
    | .error e => (.error e, g)
    | .ok (_, g) => MemPins.removeRefs le kind g rest

/-- `remove_recursive_pin` (src/repo/mem.rs:252-301). -/
def MemPins.removeRecursive (le : Cid → Cid → Bool) (g : MemPins) (target : Cid) (refs : Refs) :
    Except PinErr Unit × MemPins :=
  match g.get target with
  | none => (.error .notPinnedOrIndirect, g)
  | some doc =>
    let continue_ (kind : PinKind) : Except PinErr Unit × MemPins :=
      match g.removePin le target kind with
      | .error e => (.error e, g)
      | .ok (_, g) => MemPins.removeRefs le (.indirectFrom (Cid.asV1 target)) g refs
    match doc.pickKind with
    | some (.recursive n) => continue_ (.recursive n)
    | some .recursiveIntention => continue_ .recursiveIntention
    | some .direct =>
      match g.removePin le target .direct with
      | .error e => (.error e, g)
      | .ok (_, g) => (.ok (), g)
    | some (.indirectFrom c) => (.error (.pinnedIndirectlyThrough c), g)
    | none => (.error .notPinnedOrIndirect, g)

/-- The mapping closure of `list` (src/repo/mem.rs:315-321). -/
def MemPins.listItem (e : Cid × PinDocument) : Except PinErr (Cid × PinMode) :=
  match e.2.mode with
  | none => .error .invalidMode
  | some m => .ok (e.1, m)

/-- The filter closure of `list` (src/repo/mem.rs:322-328). -/
def MemPins.listKeep (req : Option PinMode) : Except PinErr (Cid × PinMode) → Bool
  | .ok (_, m) => reqMode req m
  | .error _ => true

/-- `list` (src/repo/mem.rs:303-332): the items of the stream. -/
def MemPins.list (g : MemPins) (req : Option PinMode) : List (Except PinErr (Cid × PinMode)) :=
  (g.map MemPins.listItem).filter (MemPins.listKeep req)

/-- The closure of `query` for one cid (src/repo/mem.rs:344-388). -/
def MemPins.queryOne (g : MemPins) (req : Option PinMode) (cid : Cid) :
    Except PinErr (Cid × PinKind) :=
  match g.get cid with
  | none => .error (.isNotPinned cid)
  | some doc =>
    match doc.pickKind with
    | none => .error (.isNotPinned cid)
    | some kind =>
      if reqKind req kind then .ok (cid, kind)
      else
        match req with
        | some m => .error (.isNotPinnedAs cid m)
        | none => .error .panic

/-- `query` (src/repo/mem.rs:334-390): `collect` stops at the first error. -/
def MemPins.query (g : MemPins) (cids : List Cid) (req : Option PinMode) :
    Except PinErr (List (Cid × PinKind)) :=
  cids.mapM (MemPins.queryOne g req)

end Verif.Repo
