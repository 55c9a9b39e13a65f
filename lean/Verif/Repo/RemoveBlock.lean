import Verif.Repo.MemBlocks
import Verif.Spec.Pins

/-!
# `Repo::remove_block`

Model of `src/repo/mod.rs:489-515` over the in-memory block store and any pin store, given by its
`is_pinned` and its operations. `remove_block` is two steps, the pin check and the removal; other
calls may come in between. The events sent to the swarm are left out.
-/

namespace Verif.Repo

open Verif Verif.Spec

/-- A pin store seen from the repo. -/
structure PinApi (σ ε : Type) where
  isPinned : σ → Cid → Bool
  step : σ → PinOp → Except ε Unit × σ

/-- The repo, and the cids whose removal has passed the pin check. -/
structure RepoState (σ : Type) where
  blocks : MemBlocks
  pins : σ
  removing : List Cid := []

/-- What can happen. -/
inductive RepoOp where
  | put (b : Block)
  | pin (op : PinOp)
  /-- `if self.is_pinned(cid).await?` (src/repo/mod.rs:491-493) -/
  | removeCheck (c : Cid)
  /-- `self.block_store.remove(cid).await?` (src/repo/mod.rs:499) of the `i`-th removal under way -/
  | removeNow (i : Nat)
deriving DecidableEq, Repr

/-- How a step of a removal ends. -/
inductive RemoveAns where
  | pinned
  | goesOn
  | removed (c : Cid)
  | notFound
  | none
deriving DecidableEq, Repr

variable {σ ε : Type}

/-- One step. -/
def RepoState.step (api : PinApi σ ε) (s : RepoState σ) : RepoOp → RepoState σ × RemoveAns
  | .put b => ({ s with blocks := (s.blocks.put b).1 }, .none)
  | .pin op => ({ s with pins := (api.step s.pins op).2 }, .none)
  | .removeCheck c =>
    if api.isPinned s.pins c then (s, .pinned)
    else ({ s with removing := s.removing ++ [c] }, .goesOn)
  | .removeNow i =>
    match s.removing[i]? with
    | none => (s, .none)
    | some c =>
      ({ s with blocks := (s.blocks.remove c).1, removing := s.removing.eraseIdx i },
        if (s.blocks.remove c).2 then .removed c else .notFound)

/-- Any number of steps. -/
def RepoState.run (api : PinApi σ ε) (s : RepoState σ) (ops : List RepoOp) : RepoState σ :=
  ops.foldl (fun s op => (s.step api op).1) s

/-- A whole `remove_block` with nothing in between. -/
def RepoState.removeBlock (api : PinApi σ ε) (s : RepoState σ) (c : Cid) : RepoState σ × RemoveAns :=
  match s.step api (.removeCheck c) with
  | (s1, .goesOn) => s1.step api (.removeNow s.removing.length)
  | r => r

end Verif.Repo
