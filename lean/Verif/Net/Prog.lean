import Verif.Net.Exchange

/-!
# Programs that load blocks over the network

What reads blocks (src/dag.rs, src/refs.rs, src/unixfs/cat.rs, http/src/v0/root_files.rs) is a program that calls `get_block`
again and again. Here such a program runs at a node of the network of `Verif.Net.Exchange`: every call answers at once or gives
a future that is polled. What happens at the nodes and between them in the meantime is free.

* What a program yields on its way is part of its result.
* A poll goes on to the next call of `get_block`, to the next answer, or to the end.
-/

namespace Verif.Net

open Verif Verif.Repo Verif.Repo.Subs

/-- A program that loads blocks: it ends, or calls `get_block` and goes on with the block, or without it. -/
inductive Prog (α : Type) where
  | ret (a : α)
  | load (c : Cid) (k : Block → Prog α) (without : Prog α)

/-- One program after the other. -/
def Prog.bind {α β : Type} (f : α → Prog β) : Prog α → Prog β
  | .ret a => f a
  | .load c k e => .load c (fun b => (k b).bind f) (e.bind f)

/-- What is made of the result. -/
def Prog.map {α β : Type} (f : α → β) (p : Prog α) : Prog β := p.bind (fun a => .ret (f a))

/-- The result when every block is there at once, or known not to be there. -/
def Prog.eval {α : Type} (fetch : Cid → Option Bytes) : Prog α → α
  | .ret a => a
  | .load c k e =>
    match fetch c with
    | some d => (k ⟨c, d⟩).eval fetch
    | none => e.eval fetch

/-- A program under way, and the future that is awaited. -/
structure Loader (α : Type) where
  prog : Prog α
  wait : Option Nat

variable {P : Type} [DecidableEq P] {α : Type}

/-- `get_block` is called (src/repo/mod.rs:314-357): it answers, or there is a future to wait for. -/
def Loader.ask (x : P) (s : NetSt P) (l : Loader α) (c : Cid) (k : Block → Prog α) : NetSt P × Loader α :=
  match (s.node x).get c with
  | (some b, n) => (s.upd x n, ⟨k b, none⟩)
  | (none, n) => (s.upd x n, { l with wait := some (s.node x).reg.nextId })

/-- The future is polled; one that has answered is dropped. -/
def Loader.poll (x : P) (s : NetSt P) (l : Loader α) (i : Nat) (k : Block → Prog α) (e : Prog α) : NetSt P × Loader α :=
  match (s.node x).reg.poll i with
  | none => (s, l)
  | some (reg, out) =>
    let n := { s.node x with reg := reg }
    match out with
    | .done b => (s.upd x (n.drop i), ⟨k b, none⟩)
    | .cancelled => (s.upd x (n.drop i), ⟨e, none⟩)
    | _ => (s.upd x n, l)

/-- The program at `x` goes on. -/
def Loader.go (x : P) (s : NetSt P) (l : Loader α) : NetSt P × Loader α :=
  match l.prog with
  | .ret _ => (s, l)
  | .load c k e =>
    match l.wait with
    | some i => l.poll x s i k e
    | none => l.ask x s c k

end Verif.Net
