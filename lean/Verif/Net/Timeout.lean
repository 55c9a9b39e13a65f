import Verif.Net.Readers
import Verif.Http.Refs
import Verif.Http.Node
import Verif.Http.Bootstrap

/-!
# Requests over HTTP that were given a timeout

Model of http/src/v0/support/timeout.rs and of its uses in http/src/v0/block.rs, dag.rs, root_files.rs, refs.rs, dht.rs and bootstrap.rs: which part of
a request is awaited under the timeout, and which is not.

* Time is counted in the smallest unit of durations. Only waiting for blocks and for the answers of the node takes time.
* When a block comes depends on when it was asked for (`Arrival`) and is free otherwise.
* `tokio::time::timeout` polls the future before it looks at the clock: what is there at the very end of the duration is in time.
* The status is sent once the handler is done. The body of a `StreamResponse` is made after that.
-/

namespace Verif.Net

open Verif Verif.Repo Verif.Unixfs Verif.Ipfs Verif.Ipld Verif.Http

/-- How long it takes until `get_block` answers when it is called at a time, and the data, or that it fails; `none` if it never answers. -/
abbrev Arrival := Nat → Cid → Option (Nat × Option Bytes)

/-- When a program that is started at a time is done, and its result; `none` if it waits for ever. -/
def Prog.timed {α : Type} (w : Arrival) : Prog α → Nat → Option (Nat × α)
  | .ret a, t => some (t, a)
  | .load c k e, t =>
    match w t c with
    | none => none
    | some (d, some data) => (k ⟨c, data⟩).timed w (t + d)
    | some (d, none) => e.timed w (t + d)

/-- What is awaited is over, or the timeout elapsed, or neither ever happens. -/
inductive Waited (α : Type) where
  | over (t : Nat) (a : α)
  | elapsed (t : Nat)
  | never

/-- `maybe_timeout` (http/src/v0/support/timeout.rs:19-37). -/
def maybeTimeout {α : Type} (timeout : Option Nat) (start : Nat) (r : Option (Nat × α)) : Waited α :=
  match timeout with
  | none =>
    match r with
    | some (t, a) => .over t a
    | none => .never
  | some d =>
    match r with
    | some (t, a) => if t ≤ start + d then .over t a else .elapsed (start + d)
    | none => .elapsed (start + d)

/-- When the status of an answer is sent, and when the answer is over and what it was then. -/
structure Timing (ρ : Type) where
  head : Option Nat
  last : Option (Nat × ρ)

/-- An answer that needs nothing. -/
def Timing.now {ρ : Type} (t : Nat) (r : ρ) : Timing ρ := ⟨some t, some (t, r)⟩

/-- `.maybe_timeout(..).await.map_err(..)?`, and what follows. -/
def guarded {β ρ : Type} (w : Arrival) (timeout : Option Nat) (start : Nat) (first : Option (Nat × β)) (elapsed : ρ)
    (rest : β → Prog ρ) : Timing ρ :=
  match maybeTimeout timeout start first with
  | .never => ⟨none, none⟩
  | .elapsed t => .now t elapsed
  | .over t b => ⟨some t, (rest b).timed w t⟩

/-! ### `cat` -/

/-- What is under the timeout (root_files.rs:69-70; src/unixfs/cat.rs:18-76): the first block, and what is read of it. -/
def catFirst (mb : UInt8 → Bytes → Option Bytes) (s : Served) (path : IpfsPath) (range : Option Rng) :
    Prog (Except (Reply CatEnd) (List Bytes × Option Visit)) :=
  (locateProg mb s path none).map (fun r =>
    match r with
    | .running => .error .running
    | .panic => .error .panic
    | .failed e => .error (.failed e)
    | .at c data =>
      match visitStart range data with
      | .error (.panic _) => .error .panic
      | .error e => .error (.failed (.walking c e))
      | .ok (bytes, _, _, visit) => .ok (if bytes.isEmpty then [] else [bytes], visit))

/-- The body (src/unixfs/cat.rs:78-118). -/
def catRest (fuel : Nat) : Except (Reply CatEnd) (List Bytes × Option Visit) → Prog (Reply CatEnd)
  | .error r => .ret r
  | .ok (out, none) => .ret (.stream out .done)
  | .ok (out, some v) => (catLoopProg fuel v out).map (fun r => .stream r.1 r.2)

/-- `cat_inner` (root_files.rs:59-88). -/
def catTimed (mb : UInt8 → Bytes → Option Bytes) (s : Served) (args : CatArgs) (w : Arrival) (start : Nat) : Timing (Reply CatEnd) :=
  match wantedRange s.debug args.offset args.length with
  | .notImplemented => .now start .notImplemented
  | .panic => .now start .panic
  | .range range =>
    guarded w args.timeout start ((catFirst mb s args.arg range).timed w start) (.failed .elapsed) (catRest s.fuel)

/-! ### `get` -/

/-- The body (root_files.rs:114, 125-205). -/
def getRest (debug : Bool) (fuel : Nat) : Located → Prog (Reply GetEnd)
  | .running => .ret .running
  | .panic => .ret .panic
  | .failed e => .ret (.failed e)
  | .at c data => (getStreamProg debug fuel c data).map (fun r => .stream r.1 r.2)

/-- `get_inner` (root_files.rs:102-115). -/
def getTimed (mb : UInt8 → Bytes → Option Bytes) (s : Served) (arg : IpfsPath) (timeout : Option Nat) (w : Arrival) (start : Nat) :
    Timing (Reply GetEnd) :=
  guarded w timeout start ((locateProg mb s arg none).timed w start) (.failed .elapsed) (getRest s.debug s.fuel)

/-! ### `dag/resolve` -/

/-- `IpldDag::resolve` (src/dag.rs:230-263) for any path, as a program. -/
def resolveNodeProg (mb : UInt8 → Bytes → Option Bytes) (s : Served) (follow : Bool) (path : IpfsPath) :
    Prog (Option (Except AnyErr (Node × List Bytes))) :=
  match resolveIpns mb s.txt s.fuel path true with
  | none => .ret none
  | some (.error _) => .ret (some (.error (.ipnsResolutionFailed path)))
  | some (.ok resolved) =>
    match resolved.root with
    | .ipld c =>
      (dagResolveProg s.env s.size follow s.fuel c resolved.path).map (fun r =>
        match r with
        | none => none
        | some (.error e) => some (.error (.dag e))
        | some (.ok r) => some (.ok r))
    | _ => .ret (some (.error (.noCid resolved)))

/-- What is answered (dag.rs:140-147). -/
def resolveRest : Option (Except AnyErr (Node × List Bytes)) → ResolveReply
  | none => .running
  | some (.error (.dag .panic)) => .panic
  | some (.error e) => .failed (.resolving e)
  | some (.ok (node, rem)) => .ok (resolvedObject (nodeSource node) rem).write

/-- `inner_resolve` (dag.rs:121-148). -/
def resolveTimed (mb : UInt8 → Bytes → Option Bytes) (s : Served) (o : ResolveQuery) (w : Arrival) (start : Nat) : Timing ResolveReply :=
  match IpfsPath.parse mb o.arg with
  | none => .now start (.failed (.path o.arg))
  | some path =>
    guarded w o.timeout start ((resolveNodeProg mb s (!o.localResolve) path).timed w start) (.failed .elapsed)
      (fun r => .ret (resolveRest r))

/-! ### `refs` -/

/-- The paths are resolved at the same time and their results are taken in order, up to the first that fails (refs.rs:133-168). -/
def rootsTimed (mb : UInt8 → Bytes → Option Bytes) (s : Served) (w : Arrival) (start : Nat) : List IpfsPath → Nat → Option (Nat × Roots)
  | [], t => some (t, .ok [])
  | p :: ps, t =>
    match (resolveNodeProg mb s true p).timed w start with
    | none => none
    | some (t', r) =>
      match r with
      | none => some (max t t', .running)
      | some (.error (.dag .panic)) => some (max t t', .panic)
      | some (.error e) => some (max t t', .failed (.resolving e))
      | some (.ok (node, _)) =>
        match rootDoc s.env s.size node with
        | .panic => some (max t t', .panic)
        | .failed e => some (max t t', .failed e)
        | .noLinks => rootsTimed mb s w start ps (max t t')
        | .doc c d => (rootsTimed mb s w start ps (max t t')).map (fun x => (x.1, x.2.cons (some (c, d))))

/-- The body (refs.rs:63-97; src/refs.rs:111-248). -/
def refsRest (blockText : BlockErr → Bytes) (s : Served) (f : RefsFormat.Formatter) (maxDepth : Option Nat) (unique : Bool) :
    Roots → Prog RefsReply
  | .failed e => .ret (.failed e)
  | .panic => .ret .panic
  | .running => .ret .running
  | .ok docs =>
    match (if maxDepth = some 0 then some [] else rootLinks docs) with
    | none => .ret .panic
    | some roots =>
      (refsProg s.env s.size ⟨maxDepth, unique, true, s.debug⟩ s.fuel roots).map (fun r =>
        match r with
        | none => .running
        | some (items, ending) => .stream (items.map (edgeLine blockText f)) ending)

/-- `refs_inner` (refs.rs:31-97). -/
def refsTimed (blockText : BlockErr → Bytes) (mb : UInt8 → Bytes → Option Bytes) (s : Served) (o : RefsOptions.RefsOptions Nat) (w : Arrival)
    (start : Nat) : Timing RefsReply :=
  match RefsFormat.fromOptions o.edges o.format with
  | .error e => .now start (.failed (.format e))
  | .ok f =>
    match parsePaths mb o.arg with
    | .error t => .now start (.failed (.path t))
    | .ok paths => guarded w o.timeout start (rootsTimed mb s w start paths start) (.failed .elapsed) (refsRest blockText s f o.depth o.unique)

/-! ### `block/get` and `block/stat` -/

/-- `get_block`, as a program. -/
def blockProg (c : Cid) : Prog (Option Repo.Block) := .load c (fun b => .ret (some b)) (.ret none)

/-- `get_query` and `stat_query` (block.rs:28-43, 226-243): the answer is made of the argument and the block; `none` is the error of `get_block`. -/
def blockTimed (env : BlockEnv) (query : Option Bytes) (reply : Bytes → Repo.Block → BlockReply) (w : Arrival) (start : Nat) :
    Timing (Option BlockReply) :=
  match getStatQuery env.q (query.getD []) with
  | .error () => .now start (some (.failed .badQuery))
  | .ok (arg, timeout) =>
    match Cid.ofText env.q.mb arg with
    | none => .now start (some (.failed (.cidText arg)))
    | some c => guarded w timeout start ((blockProg c).timed w start) (some (.failed .elapsed)) (fun r => .ret (r.map (reply arg)))

/-! ### `dht` -/

/-- `findpeer`, `findprovs`, `provide` and `query` (dht.rs:47-54, 98-105, 149-156, 193-200): the node answers at some time, or never. -/
def dhtTimed {α : Type} (timeout : Option Nat) (answer : Option (Nat × DhtRes α)) (reply : α → Json) (start : Nat) : Timing NodeReply :=
  guarded (fun _ _ => none) timeout start answer (.failed .elapsed) (fun r => .ret (awaited none false r reply))

/-! ### `bootstrap` -/

/-- The requests of `bootstrap` (bootstrap.rs:17-34, 53-66, 75-87, 118-131, 162-176): the node answers at some time, or never. -/
def bootTimed {α : Type} (timeout : Option Nat) (answer : Option (Nat × α)) (reply : α → BootReply) (start : Nat) : Timing BootReply :=
  guarded (fun _ _ => none) timeout start answer (.failed .elapsed) (fun a => .ret (reply a))

end Verif.Net
