import Verif.Net.Prog
import Verif.Ipfs.DagStored
import Verif.Ipfs.Refs
import Verif.Http.Cat

/-!
# What reads blocks, as programs that load them

The functions of src/dag.rs, src/refs.rs, src/unixfs/cat.rs and http/src/v0/root_files.rs that load blocks, as programs of
`Verif.Net.Prog`. They are the models of `Verif.Ipfs.DagResolve`, `Verif.Ipfs.Refs`, `Verif.Unixfs.Reader`, `Verif.Unixfs.Walk` and
`Verif.Http.Cat` with the calls of `get_block` in view; what `resolve0` does with a block uses the cid the block came with.
The field `fetch` of `Served` is not used.
-/

namespace Verif.Net

open Verif Verif.Repo Verif.Unixfs Verif.Ipfs Verif.Ipld Verif.Http

/-- `resolve_hamt` (src/dag.rs:320-339). -/
def feedProg (needle : Bytes) : Nat → List Cid → Prog Lookup
  | 0, _ => .ret .running
  | _ + 1, [] => .ret .notFound
  | fuel + 1, c :: queue =>
    .load c (fun b =>
      match continueWalk needle queue b.data with
      | .error e => .ret (.failed (.lookup e))
      | .ok (.found c) => .ret (.found c)
      | .ok .notFound => .ret .notFound
      | .ok (.more queue) => feedProg needle fuel queue)
    (.ret (.missing c))

/-- `resolve0` (src/dag.rs:266-315). -/
def resolveProg (e : Env) (size : Nat) (follow : Bool) :
    Nat → Cid → List Bytes → Nat → Prog (Option (Except RawErr (Node × Nat)))
  | 0, _, _, _ => .ret none
  | fuel + 1, current, segs, total =>
    .load current (fun b =>
      match resolveLocal e size b.cid b.data segs with
      | .error x => .ret (some (.error (x.addStart total)))
      | .ok (.complete (.link src dest), matched, rest) =>
        if follow then resolveProg e size follow fuel dest rest (total + matched)
        else .ret (some (.ok (.link src dest, total + matched)))
      | .ok (.incomplete src needle queue, matched, rest) =>
        (feedProg needle fuel queue).bind (fun r =>
          match r with
          | .found dest =>
            if follow then resolveProg e size follow fuel dest rest (total + matched)
            else .ret (some (.ok (.link src dest, total + matched)))
          | .running => .ret none
          | .failed (.lookup .panic) => .ret (some (.error .panic))
          | _ => .ret (some (.error (.unsupported src))))
      | .ok (.complete other, _, _) => .ret (some (.ok (other, total))))
    (.ret (some (.error (.loading current))))

/-- `IpldDag::get` (src/dag.rs:194-218). -/
def dagGetProg (e : Env) (size : Nat) (fuel : Nat) (c : Cid) (path : List Bytes) : Prog (Option (Except DagErr Ipld)) :=
  (resolveProg e size true fuel c path 0).map (fun r =>
    match r with
    | none => none
    | some (.error x) => some (.error (x.withPath ⟨.ipld c, path⟩))
    | some (.ok (node, _)) => some (node.toIpld e size))

/-- `IpldDag::resolve` (src/dag.rs:230-263) for a path with the cid as its root. -/
def dagResolveProg (e : Env) (size : Nat) (follow : Bool) (fuel : Nat) (c : Cid) (path : List Bytes) :
    Prog (Option (Except DagErr (Node × List Bytes))) :=
  (resolveProg e size follow fuel c path 0).map (fun r =>
    match r with
    | none => none
    | some (.error x) => some (.error (x.withPath ⟨.ipld c, path⟩))
    | some (.ok (node, matched)) =>
      match IpfsPath.shifted ⟨.ipld c, path⟩ matched with
      | some rest => some (.ok (node, rest))
      | none => some (.error .panic))

/-- The same for any path. -/
def resolveAnyProg (mb : UInt8 → Bytes → Option Bytes) (s : Served) (path : IpfsPath) : Prog (Option (Except AnyErr Node)) :=
  match resolveIpns mb s.txt s.fuel path true with
  | none => .ret none
  | some (.error _) => .ret (some (.error (.ipnsResolutionFailed path)))
  | some (.ok resolved) =>
    match resolved.root with
    | .ipld c =>
      (dagResolveProg s.env s.size true s.fuel c resolved.path).map (fun r =>
        match r with
        | none => none
        | some (.error e) => some (.error (.dag e))
        | some (.ok (node, _)) => some (.ok node))
    | _ => .ret (some (.error (.noCid resolved)))

/-- The first block (root_files.rs:69-72, 107-112; src/unixfs/cat.rs:34-48). -/
def locateProg (mb : UInt8 → Bytes → Option Bytes) (s : Served) (path : IpfsPath) (timeout : Option Nat) : Prog Located :=
  if s.timedOut timeout then .ret (.failed .elapsed)
  else (resolveAnyProg mb s path).map (fun r =>
    match r with
    | none => .running
    | some (.error (.dag .panic)) => .panic
    | some (.error e) => .failed (.resolving e)
    | some (.ok node) =>
      match intoUnixfsBlock node with
      | .error e => .failed (.path e)
      | .ok (c, data) => .at c data)

/-- The loop of `cat` (src/unixfs/cat.rs:83-117), after some chunks. -/
def catLoopProg : Nat → Visit → List Bytes → Prog (List Bytes × CatEnd)
  | 0, _, out => .ret (out, .outOfFuel)
  | fuel + 1, v, out =>
    match v.pending with
    | [] => .ret (out, .panic .noPending)
    | (next, _) :: _ =>
      .load next (fun b =>
        match v.continueWalk b.data with
        | .error (.panic p) => .ret (out, .panic p)
        | .error e => .ret (out, .walking e)
        | .ok (bytes, more) =>
          let out := out ++ if bytes.isEmpty then [] else [bytes]
          match more with
          | none => .ret (out, .done)
          | some v' => catLoopProg fuel v' out)
      (.ret (out, .loading next))

/-- `cat_inner` (root_files.rs:59-88) with `cat` (src/unixfs/cat.rs:18-119). -/
def catInnerProg (mb : UInt8 → Bytes → Option Bytes) (s : Served) (args : CatArgs) : Prog (Reply CatEnd) :=
  match wantedRange s.debug args.offset args.length with
  | .notImplemented => .ret .notImplemented
  | .panic => .ret .panic
  | .range range =>
    (locateProg mb s args.arg args.timeout).bind (fun r =>
      match r with
      | .running => .ret .running
      | .panic => .ret .panic
      | .failed e => .ret (.failed e)
      | .at c data =>
        match visitStart range data with
        | .error (.panic _) => .ret .panic
        | .error e => .ret (.failed (.walking c e))
        | .ok (bytes, _, _, visit) =>
          let out := if bytes.isEmpty then [] else [bytes]
          match visit with
          | none => .ret (.stream out .done)
          | some v => (catLoopProg s.fuel v out).map (fun r => .stream r.1 r.2))

/-- A request to `cat`. -/
def catRequestProg (q : QueryEnv) (s : Served) (query : Bytes) : Prog (Reply CatEnd) :=
  match catQuery q query with
  | .error () => .ret .invalidQuery
  | .ok args => catInnerProg q.mb s args

/-- The loop of `walk` (root_files.rs:145-205), after some chunks: a report of the walker is turned into chunks before the next block is
loaded. -/
def walkProg : Nat → Walker → TarHelper → List Bytes → Prog (List Bytes × GetEnd)
  | 0, w, _, out => .ret (out, if w.shouldContinue then .walk .outOfFuel else .done)
  | fuel + 1, w, t, out =>
    if w.shouldContinue then
      match w.wanted with
      | none => .ret (out, .walk (.failed .panic))
      | some c =>
        .load c (fun b =>
          match w.step b.data with
          | .error e => .ret (out, .walk (.failed e))
          | .ok (item, w) =>
            match t.item item with
            | .error e => .ret (out, .tar e)
            | .ok (t, chunks) => walkProg fuel w t (out ++ chunks))
        (.ret (out, .walk (.missing c)))
    else .ret (out, .done)

/-- `walk` (root_files.rs:125-205) from the first block. -/
def getStreamProg (debug : Bool) (fuel : Nat) (c : Cid) (first : Bytes) : Prog (List Bytes × GetEnd) :=
  match (Walker.new debug c c.toText).step first with
  | .error e => .ret ([], .walk (.failed e))
  | .ok (item, w) =>
    match (TarHelper.withCapacity (16 * 1024)).item item with
    | .error e => .ret ([], .tar e)
    | .ok (t, chunks) => walkProg fuel w t chunks

/-- `get_inner` (root_files.rs:102-115). -/
def getInnerProg (mb : UInt8 → Bytes → Option Bytes) (s : Served) (arg : IpfsPath) (timeout : Option Nat) : Prog (Reply GetEnd) :=
  (locateProg mb s arg timeout).bind (fun r =>
    match r with
    | .running => .ret .running
    | .panic => .ret .panic
    | .failed e => .ret (.failed e)
    | .at c data => (getStreamProg s.debug s.fuel c data).map (fun r => .stream r.1 r.2))

/-- A request to `get`. -/
def getRequestProg (q : QueryEnv) (s : Served) (query : Bytes) : Prog (Reply GetEnd) :=
  match getQuery q query with
  | .error () => .ret .invalidQuery
  | .ok (arg, timeout) => getInnerProg q.mb s arg timeout

/-- `while let Some(..) = work.pop_front()` (src/refs.rs:181-245), after some items, with blocks being downloaded. -/
def refsLoopProg (e : Env) (size : Nat) (o : Refs.Opts) : Nat → List Refs.Work → List Cid → List Refs.Item →
    Prog (Option (List Refs.Item × Refs.Ending))
  | 0, _, _, _ => .ret none
  | _ + 1, [], _, out => .ret (some (out, .done))
  | fuel + 1, w :: work, vis, out =>
    match Refs.traverse o.debug o.maxDepth w.depth with
    | .skip => refsLoopProg e size o fuel work vis out
    | .overflow => .ret (some (out, .panic))
    | t =>
      .load w.edge.destination (fun b =>
        match decodeIpld e size w.edge.destination b.data with
        | .error x => refsLoopProg e size o fuel work vis (out ++ [.blockErr x])
        | .ok d =>
          if t = .leaf then refsLoopProg e size o fuel work vis (out ++ [.edge w.edge])
          else
            match Refs.ipldLinks w.edge.destination d with
            | none => .ret (some (out, .panic))
            | some ls =>
              let q := Refs.enqueue o.unique (w.depth + 1) w.edge.destination ls vis
              refsLoopProg e size o fuel (work ++ q.1) q.2 (out ++ [.edge w.edge]))
      (refsLoopProg e size o fuel work vis out)

/-- `iplds_refs_inner` (src/refs.rs:141-248) with the links of the roots, with blocks being downloaded. -/
def refsProg (e : Env) (size : Nat) (o : Refs.Opts) (fuel : Nat) (roots : List (Cid × List (Option Bytes × Cid))) :
    Prog (Option (List Refs.Item × Refs.Ending)) :=
  if o.maxDepth = some 0 then .ret (some ([], .done))
  else
    let q := Refs.enqueueRoots o.unique roots []
    refsLoopProg e size o fuel q.1 q.2 []

end Verif.Net
