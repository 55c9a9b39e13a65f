import Verif.Net.Exchange
import Verif.Unixfs.Reader

/-!
# Reading a file over the network

Model of `cat` (src/unixfs/cat.rs:18-119) at a node of the network of `Verif.Net.Exchange`: every block is asked for with
`get_block`, which answers at once or gives a future that is polled. What happens at the nodes and between them in the
meantime is free.

* The path is a cid without further segments: `dag.resolve` asks for that block and gives it back (src/dag.rs:280-303, 436-438).
* Somebody who takes the stream polls it now and then; one poll goes on to the next call of `get_block`, to the next answer,
  or to the end.
-/

namespace Verif.Net

open Verif Verif.Repo Verif.Repo.Subs Verif.Unixfs

/-- What the next block is for. -/
inductive Seek where
  /-- the root, before `visit.start` (src/unixfs/cat.rs:30-48) -/
  | root (c : Cid) (range : Option Rng)
  /-- a block of the loop (src/unixfs/cat.rs:83-117) -/
  | walk (v : Visit)
  /-- `into_unixfs_block` (src/dag.rs:372-384) does not take the block -/
  | refused (b : Block)
  | ended (e : CatEnd)

/-- `cat` under way: what the next block is for, the future that is awaited, and the chunks yielded. -/
structure Reader where
  seek : Seek
  wait : Option Nat
  out : List Bytes

/-- `cat` is called. -/
def Reader.start (c : Cid) (range : Option Rng) : Reader := ⟨.root c range, none, []⟩

/-- The block that is asked for: the root, or the first one of `pending_links` (src/unixfs/cat.rs:89, unixfs/src/file/visit.rs:139-146). -/
def Seek.next : Seek → Option Cid
  | .root c _ => some c
  | .walk v => v.pending.head?.map Prod.fst
  | _ => none

/-- A chunk that is not empty is yielded (src/unixfs/cat.rs:53-57, 102-105). -/
def yielded (bytes : Bytes) : List Bytes := if bytes.isEmpty then [] else [bytes]

/-- What is done next after a step of the visit. -/
def Seek.more : Option Visit → Seek
  | none => .ended .done
  | some v => .walk v

/-- What is done with the block (src/unixfs/cat.rs:38-66, 99-116). -/
def Seek.take (b : Block) : Seek → List Bytes × Seek
  | .root _ range =>
    if b.cid.codec ≠ codecDagPb then ([], .refused b)
    else
      match visitStart range b.data with
      | .error (.panic p) => ([], .ended (.panic p))
      | .error e => ([], .ended (.walking e))
      | .ok (bytes, _, _, visit) => (yielded bytes, .more visit)
  | .walk v =>
    match v.continueWalk b.data with
    | .error (.panic p) => ([], .ended (.panic p))
    | .error e => ([], .ended (.walking e))
    | .ok (bytes, visit) => (yielded bytes, .more visit)
  | seek => ([], seek)

/-- The block is there. -/
def Reader.take (r : Reader) (b : Block) : Reader := ⟨(r.seek.take b).2, none, r.out ++ (r.seek.take b).1⟩

variable {P : Type} [DecidableEq P]

/-- `get_block` is called: it answers, or there is a future to wait for. -/
def Reader.ask (x : P) (s : NetSt P) (r : Reader) (c : Cid) : NetSt P × Reader :=
  match (s.node x).get c with
  | (some b, n) => (s.upd x n, r.take b)
  | (none, n) => (s.upd x n, { r with wait := some (s.node x).reg.nextId })

/-- The future is polled; one that has answered is dropped. -/
def Reader.poll (x : P) (s : NetSt P) (r : Reader) (i : Nat) : NetSt P × Reader :=
  match (s.node x).reg.poll i with
  | none => (s, r)
  | some (reg, out) =>
    let n := { s.node x with reg := reg }
    match out with
    | .done b => (s.upd x (n.drop i), r.take b)
    | .cancelled => (s.upd x (n.drop i), { r with seek := .ended (.loading (r.seek.next.getD (Cid.v0 []))), wait := none })
    | _ => (s.upd x n, r)

/-- The reader at `x` goes on. -/
def Reader.go (x : P) (s : NetSt P) (r : Reader) : NetSt P × Reader :=
  match r.wait with
  | some i => r.poll x s i
  | none =>
    match r.seek with
    | .root c _ => r.ask x s c
    | .walk v =>
      match v.pending with
      | [] => (s, { r with seek := .ended (.panic .noPending) })
      | (c, _) :: _ => r.ask x s c
    | _ => (s, r)

end Verif.Net
