import Verif.Repo.MemPins

/-!
# The filesystem pin store

Model of `src/repo/fs/pinstore.rs`. A pin file is named by its cid and an extension (`pin_path`
determines the cid, see `Verif.Props.Paths`), so the directory tree is a map from (cid, extension)
to contents. The JSON array of a recursive pin file is the list of its cids; a file which was
created but not completely written is `torn`, and reading it is an error. The order of the map is
the order in which directories are read, on which no statement depends. Every modifying operation
holds the semaphore, so operations are atomic except for crashes; I/O errors are not modelled.
`HashedSet`s are lists of their elements. The streams of `list` and `is_pinned` read the directory
while it could be changed by others; here they read one state.
-/

namespace Verif.Repo

open Verif

/-- The extensions of pin files. -/
inductive PinExt where
  | direct
  | recursive
  | recursiveTemp
deriving DecidableEq, Repr

/-- Contents of pin files. -/
inductive PinFile where
  | empty
  | json (l : List Cid)
  | torn
deriving DecidableEq, Repr

/-- The directory of pin files. -/
abbrev FsPins := AMap (Cid × PinExt) PinFile

/-- `Path::is_file`. -/
def FsPins.isFile (g : FsPins) (c : Cid) (e : PinExt) : Bool := (g.get (c, e)).isSome

/-- `sync_read_direct_or_recursive` (src/repo/fs/pinstore.rs:523-537). -/
def FsPins.readDirectOrRecursive (g : FsPins) (c : Cid) : Option PinMode :=
  if g.isFile c .recursive then some .recursive
  else if g.isFile c .direct then some .direct
  else none

/-- `list_pinfiles` (src/repo/fs/pinstore.rs:444-484). -/
def FsPins.listPinfiles (g : FsPins) : List (Cid × PinMode) :=
  g.filterMap (fun (e : (Cid × PinExt) × PinFile) =>
    match e.1.2 with
    | .recursive => some (e.1.1, PinMode.recursive)
    | .direct => some (e.1.1, PinMode.direct)
    | .recursiveTemp => none)

/-- `read_recursively_pinned` (src/repo/fs/pinstore.rs:492-517). -/
def FsPins.readRecursivelyPinned (g : FsPins) (c : Cid) : Except PinErr (List Cid) :=
  match g.get (c, .recursive) with
  | some (.json l) => .ok l
  | some _ => .error .panic
  | none => .ok []

/-- The roots yielded by `list_pinfiles().try_filter_map(..)` (src/repo/fs/pinstore.rs:30-36,
401-410). -/
def FsPins.listRecursive (g : FsPins) : List Cid :=
  g.listPinfiles.filterMap (fun (e : Cid × PinMode) =>
    if e.2 = .recursive then some e.1 else none)

/-- The set `direct` collected by `list` (src/repo/fs/pinstore.rs:281-283). -/
def FsPins.listDirect (g : FsPins) (req : Option PinMode) : List Cid :=
  g.listPinfiles.filterMap (fun (e : Cid × PinMode) =>
    if e.2 = .direct ∧ reqMode req .direct then some e.1 else none)

/-- The loop of `is_pinned` (src/repo/fs/pinstore.rs:40-49). -/
def FsPins.anyRefers (g : FsPins) (c : Cid) : List Cid → Except PinErr Bool
  | [] => .ok false
  | r :: rs =>
    match g.readRecursivelyPinned r with
    | .error e => .error e
    | .ok l => if l.contains c then .ok true else FsPins.anyRefers g c rs

/-- `is_pinned` (src/repo/fs/pinstore.rs:23-52). -/
def FsPins.isPinned (g : FsPins) (c : Cid) : Except PinErr Bool :=
  match g.readDirectOrRecursive c with
  | some _ => .ok true
  | none => FsPins.anyRefers g c g.listRecursive

/-- `try_collect::<BTreeSet<_>>()`. -/
def collectRefs (le : Cid → Cid → Bool) (refs : Refs) : Except PinErr (List Cid) :=
  match refs.mapM id with
  | none => .error .refs
  | some l => .ok (toSet le l)

/-- One change of the directory. -/
inductive DiskStep where
  | create (c : Cid) (e : PinExt) (f : PinFile)
  | write (c : Cid) (e : PinExt) (f : PinFile)
  | rename (c : Cid) (src dst : PinExt)
  | remove (c : Cid) (e : PinExt)
deriving DecidableEq, Repr

/-- Its effect. -/
def DiskStep.run (g : FsPins) : DiskStep → FsPins
  | .create c e f => g.set (c, e) f
  | .write c e f => g.set (c, e) f
  | .rename c src dst =>
    match g.get (c, src) with
    | none => g
    | some f => AMap.set (g.erase (c, src)) (c, dst) f
  | .remove c e => g.erase (c, e)

/-- `insert_direct_pin` (src/repo/fs/pinstore.rs:54-80): the changes it makes in order. -/
def FsPins.insertDirect (g : FsPins) (c : Cid) : Except PinErr (List DiskStep) :=
  if g.isFile c .recursive then .error .alreadyPinnedRecursive
  else .ok [.create c .direct .empty]

/-- `insert_recursive_pin` (src/repo/fs/pinstore.rs:82-147). -/
def FsPins.insertRecursive (le : Cid → Cid → Bool) (_g : FsPins) (c : Cid) (refs : Refs) :
    Except PinErr (List DiskStep) :=
  match collectRefs le refs with
  | .error e => .error e
  | .ok set =>
    .ok [.create c .recursiveTemp .torn, .write c .recursiveTemp (.json set),
      .rename c .recursiveTemp .recursive, .remove c .direct]

/-- `insert_recursive_pin` when writing the file fails (src/repo/fs/pinstore.rs:107-123): what it
does before returning the error. -/
def FsPins.botchedInsert (c : Cid) : List DiskStep :=
  [.create c .recursiveTemp .torn, .remove c .recursiveTemp]

/-- `remove_direct_pin` (src/repo/fs/pinstore.rs:149-182). -/
def FsPins.removeDirect (g : FsPins) (c : Cid) : Except PinErr (List DiskStep) :=
  if g.isFile c .recursive then .error .cannotUnpinDirectOnRecursivelyPinned
  else if g.isFile c .direct then .ok [.remove c .direct]
  else .error .notPinnedOrIndirect

/-- `remove_recursive_pin` (src/repo/fs/pinstore.rs:184-235). -/
def FsPins.removeRecursive (g : FsPins) (c : Cid) : Except PinErr (List DiskStep) :=
  if g.isFile c .direct || g.isFile c .recursive then
    .ok [.remove c .direct, .remove c .recursive]
  else .error .notPinnedOrIndirect

/-- The first `k` changes of an operation, or all of them when it is not interrupted. -/
def runSteps (g : FsPins) (steps : List DiskStep) : FsPins := steps.foldl DiskStep.run g

/-- `HashSet::insert` on `returned`, yielding what was new (src/repo/fs/pinstore.rs:291-295,
311-315). -/
def yieldNew (mode : PinMode) : List Cid → List Cid → List (Cid × PinMode) × List Cid
  | [], returned => ([], returned)
  | c :: cs, returned =>
    if c ∈ returned then yieldNew mode cs returned
    else
      let r := yieldNew mode cs (c :: returned)
      ((c, mode) :: r.1, r.2)

/-- `read_recursively_pinned` of every root in turn. -/
def FsPins.readAll (g : FsPins) (roots : List Cid) : Except PinErr (List (Cid × List Cid)) :=
  roots.mapM (fun r => (g.readRecursivelyPinned r).map (fun l => (r, l)))

/-- `list` (src/repo/fs/pinstore.rs:237-322). The whole stream at once: items yielded before an
error are not represented. -/
def FsPins.list (g : FsPins) (req : Option PinMode) : Except PinErr (List (Cid × PinMode)) :=
  let roots := g.listRecursive
  let out1 := yieldNew .recursive (if reqMode req .recursive then roots else []) []
  let out2 := yieldNew .direct (g.listDirect req) out1.2
  if !reqIndirectOrAny req then .ok (out1.1 ++ out2.1)
  else
    match g.readAll roots with
    | .error e => .error e
    | .ok batches =>
      let out3 := yieldNew .indirect (batches.map Prod.snd).flatten out2.2
      .ok (out1.1 ++ out2.1 ++ out3.1)

/-- What `query` has found for each position, and the positions still to be found. -/
structure FsQuery where
  response : List (Option (Cid × PinKind))
  remaining : AMap Cid Nat

/-- The first loop of `query` (src/repo/fs/pinstore.rs:350-378); `direct` is `check_direct`,
`suffix` is `searched_suffix`. -/
def FsPins.queryFiles (g : FsPins) (direct : Bool) (suffix : Option PinMode) (indirect : Bool) :
    List Cid → Nat → FsQuery → Except PinErr FsQuery
  | [], _, q => .ok q
  | c :: cs, i, q =>
    let found : Option PinKind :=
      if direct then
        match g.readDirectOrRecursive c with
        | some m =>
          if reqMode suffix m then
            some (match m with
              | .direct => .direct
              | _ => .recursive 0)
          else none
        | none => none
      else none
    match found with
    | some k => FsPins.queryFiles g direct suffix indirect cs (i + 1)
        { q with response := q.response.set i (some (c, k)) }
    | none =>
      if direct && !indirect then .error (.isNotPinned c)
      else FsPins.queryFiles g direct suffix indirect cs (i + 1)
        { q with remaining := if (q.remaining.get c).isSome then q.remaining else q.remaining.set c i }

/-- One recursive pin's references in the second loop of `query` (src/repo/fs/pinstore.rs:420-428).
Stopping early when nothing remains changes nothing, as then no reference is remaining. -/
def queryRefs (referring : Cid) : List Cid → FsQuery → FsQuery
  | [], q => q
  | c :: cs, q =>
    match q.remaining.get c with
    | some i => queryRefs referring cs
        ⟨q.response.set i (some (c, .indirectFrom referring)), q.remaining.erase c⟩
    | none => queryRefs referring cs q

/-- `check_direct`, `searched_suffix` and `gather_indirect` of `query`
(src/repo/fs/pinstore.rs:333-338). -/
def queryParams : Option PinMode → Bool × Option PinMode × Bool
  | some .direct => (true, some .direct, false)
  | some .recursive => (true, some .recursive, false)
  | some .indirect => (false, none, true)
  | none => (true, none, true)

/-- `query` (src/repo/fs/pinstore.rs:324-440). -/
def FsPins.query (g : FsPins) (ids : List Cid) (req : Option PinMode) :
    Except PinErr (List (Cid × PinKind)) :=
  let p := queryParams req
  match g.queryFiles p.1 p.2.1 p.2.2 ids 0 ⟨List.replicate ids.length none, []⟩ with
  | .error e => .error e
  | .ok q =>
    if q.remaining.isEmpty then .ok (q.response.filterMap id)
    else
      match g.readAll g.listRecursive with
      | .error e => .error e
      | .ok batches =>
        let q := batches.foldl (fun q (b : Cid × List Cid) => queryRefs b.1 b.2 q) q
        match q.remaining with
        | (c, _) :: _ => .error (.isNotPinned c)
        | [] => .ok (q.response.filterMap id)

end Verif.Repo
