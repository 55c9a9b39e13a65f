import Verif.Ipld.Codec

/-!
# References

Model of `src/refs.rs`: listing the links of documents, breadth first.

* Blocks are looked up in a store that does not change meanwhile; `get_block` gives the block or an
  error, it does not wait.
* The stream is the list of its items and the way it ended; `fuel` bounds the rounds of its loop.
* `depth + 1` does not overflow: there are less than `2^64` blocks.
-/

namespace Verif.Ipfs.Refs

open Verif Verif.Ipld

/-- `Edge` (src/refs.rs:15-22). -/
structure Edge where
  source : Cid
  destination : Cid
  name : Option Bytes
deriving DecidableEq, Repr

/-- `BTreeMap::values`. -/
def values (m : List (Bytes × Ipld)) : List Ipld := m.map Prod.snd

theorem sizeOf_values (m : List (Bytes × Ipld)) : sizeOf (values m) ≤ sizeOf m := by
  induction m with
  | nil => simp [values]
  | cons e m ih => obtain ⟨k, x⟩ := e; simp [values] at ih ⊢; omega

/-- `IpldIter::next` until it gives nothing (src/ipld/mod.rs:146-171); the stack has its top first. -/
def iterGo : List (List Ipld) → List Ipld
  | [] => []
  | [] :: stack => iterGo stack
  | (x :: xs) :: stack =>
    match x with
    | .list l => .list l :: iterGo (l :: xs :: stack)
    | .map m => .map m :: iterGo (values m :: xs :: stack)
    | x => x :: iterGo (xs :: stack)
termination_by s => sizeOf s
decreasing_by
  · simp
  · simp; omega
  · have := sizeOf_values m; simp; omega
  · simp; omega

/-- `Ipld::iter` (src/ipld/mod.rs:134-138). -/
def iter (d : Ipld) : List Ipld := iterGo [[d]]

/-- A link of `dagpb_links` (src/refs.rs:297-333): `none` is a panic, `some none` no link. -/
def dagPbLink : Ipld → Option (Option (Option Bytes × Cid))
  | .map m =>
    match AMap.get m kHash with
    | some (.link c) =>
      match AMap.get m kName with
      | some (.str s) => if s = [0x2F] then none else some (some (some s, c))
      | _ => none
    | some _ => none
    | none => some none
  | _ => none

/-- `collect` of the `filter_map`. -/
def dagPbLinkList : List Ipld → Option (List (Option Bytes × Cid))
  | [] => some []
  | d :: ds =>
    match dagPbLink d with
    | none => none
    | some l => (dagPbLinkList ds).map (fun ls => l.toList ++ ls)

/-- `dagpb_links` (src/refs.rs:284-336); `none` is a panic. -/
def dagPbLinks : Ipld → Option (List (Option Bytes × Cid))
  | .map m =>
    match AMap.get m kLinks with
    | some (.list v) => dagPbLinkList v
    | _ => none
  | _ => some []

/-- `ipld_links` (src/refs.rs:253-276); `none` is a panic. -/
def ipldLinks (c : Cid) (d : Ipld) : Option (List (Option Bytes × Cid)) :=
  if c.codec = codecDagPb then dagPbLinks d
  else some ((iter d).filterMap (fun x => match x with
    | .link c => some (none, c)
    | _ => none))

/-- What comes of a block. -/
inductive Look where
  | missing
  | broken (e : BlockErr)
  | links (ls : List (Option Bytes × Cid))
  | panic
deriving DecidableEq, Repr

/-- Loading, decoding and listing the links of a block (src/refs.rs:196-232). -/
def look (e : Env) (size : Nat) (fetch : Cid → Option Bytes) (c : Cid) : Look :=
  match fetch c with
  | none => .missing
  | some data =>
    match decodeIpld e size c data with
    | .error x => .broken x
    | .ok d =>
      match ipldLinks c d with
      | none => .panic
      | some ls => .links ls

/-- An item of the stream. -/
inductive Item where
  | edge (e : Edge)
  | blockErr (e : BlockErr)
  | notFound (c : Cid)
deriving DecidableEq, Repr

/-- How the stream ended. -/
inductive Ending where
  | done
  | stopped
  | panic
deriving DecidableEq, Repr

/-- `IpldRefs` (src/refs.rs:43-47), and whether overflow checks are on. -/
structure Opts where
  maxDepth : Option Nat := none
  unique : Bool := false
  download : Bool := true
  debug : Bool := true
deriving DecidableEq, Repr

/-- An entry of the queue. -/
structure Work where
  depth : Nat
  edge : Edge
deriving DecidableEq, Repr

/-- Both loops that fill the queue (src/refs.rs:167-173, 233-240): what is added to it, and the set
`queued_or_visited` afterwards. -/
def enqueue (unique : Bool) (depth : Nat) (source : Cid) :
    List (Option Bytes × Cid) → List Cid → List Work × List Cid
  | [], vis => ([], vis)
  | (name, c) :: ls, vis =>
    if unique && vis.contains c then enqueue unique depth source ls vis
    else
      let r := enqueue unique depth source ls (if unique then c :: vis else vis)
      (⟨depth, ⟨source, c, name⟩⟩ :: r.1, r.2)

/-- Filling the queue with the links of the roots (src/refs.rs:166-174). -/
def enqueueRoots (unique : Bool) : List (Cid × List (Option Bytes × Cid)) → List Cid → List Work × List Cid
  | [], vis => ([], vis)
  | (c, ls) :: roots, vis =>
    let a := enqueue unique 0 c ls vis
    let b := enqueueRoots unique roots a.2
    (a.1 ++ b.1, b.2)

/-- What is done with an entry of some depth. -/
inductive Traverse where
  | skip
  | leaf
  | go
  | overflow
deriving DecidableEq, Repr

/-- `traverse_links` (src/refs.rs:182-190). -/
def traverse (debug : Bool) (maxDepth : Option Nat) (depth : Nat) : Traverse :=
  match maxDepth with
  | none => .go
  | some d =>
    if d ≤ depth then .skip
    else if d + 1 = 2 ^ 64 then
      if debug then .overflow else if 0 = depth then .leaf else .go
    else if d + 1 = depth then .leaf
    else .go

/-- `while let Some(..) = work.pop_front()` (src/refs.rs:181-245). -/
def loop (o : Opts) (look : Cid → Look) : Nat → List Work → List Cid → Option (List Item × Ending)
  | 0, _, _ => none
  | _ + 1, [], _ => some ([], .done)
  | fuel + 1, w :: work, vis =>
    match traverse o.debug o.maxDepth w.depth with
    | .skip => loop o look fuel work vis
    | .overflow => some ([], .panic)
    | t =>
      match look w.edge.destination with
      | .missing =>
        if o.download then loop o look fuel work vis
        else some ([.notFound w.edge.destination], .stopped)
      | .broken x => (loop o look fuel work vis).map (fun r => (.blockErr x :: r.1, r.2))
      | .panic =>
        if t = .leaf then (loop o look fuel work vis).map (fun r => (.edge w.edge :: r.1, r.2))
        else some ([], .panic)
      | .links ls =>
        if t = .leaf then (loop o look fuel work vis).map (fun r => (.edge w.edge :: r.1, r.2))
        else
          let q := enqueue o.unique (w.depth + 1) w.edge.destination ls vis
          (loop o look fuel (work ++ q.1) q.2).map (fun r => (.edge w.edge :: r.1, r.2))

/-- `iplds_refs_inner` (src/refs.rs:141-248) with the links of the roots. -/
def refs (o : Opts) (look : Cid → Look) (fuel : Nat) (roots : List (Cid × List (Option Bytes × Cid))) :
    Option (List Item × Ending) :=
  if o.maxDepth = some 0 then some ([], .done)
  else
    let q := enqueueRoots o.unique roots []
    loop o look fuel q.1 q.2

end Verif.Ipfs.Refs
