import Verif.Net.Readers
import Verif.Ipfs.Pin

/-!
# Pinning at a node of the network

Model of `Ipfs::insert_pin` and `Ipfs::remove_pin` (src/lib.rs:468-535) with the in-memory store of pins (src/repo/mem.rs:186-301) at a
node of `Verif.Net.Exchange`: requests to pin go on side by side, each waits for blocks that come over the network, and everything else
at the nodes goes on meanwhile.

* The root is loaded before the store of pins is locked. A recursive pin then holds the lock until its walk has ended
  (src/repo/mem.rs:222). Whatever else looks at the pins waits for the lock: there is no such step while it is held.
* Unpinning is one step, and so is the removal of a block with the look at the pins before it (`Verif.Repo.RemoveBlock` has what can
  happen between the two).
* A request can be dropped while it waits. This is what happens to it when a client of the http api goes away, and when another of those
  asked for together fails (`try_join_all`, http/src/v0/pin/add.rs:38-47). What a walk has pinned so far stays pinned (src/repo/mem.rs:240).
* The node is not shut down.
* `fuel` bounds the rounds of the walk. A walk that is out of fuel does not end.
-/

namespace Verif.Net

open Verif Verif.Repo Verif.Ipld Verif.Ipfs Verif.Ipfs.Pin

/-- `get_block(cid).await?` (src/lib.rs:475): the data, or an error. -/
def rootProg (c : Cid) : Prog (Option Bytes) := .load c (fun b => .ret (some b.data)) (.ret none)

/-- What a walk leaves behind: what the store of pins answers, and the pins. -/
abbrev PinWalk := Option (Except PinErr Unit × MemPins)

/-- `while let Some(next_cid) = referenced.try_next().await?` (src/repo/mem.rs:238-244) over the stream of references (src/refs.rs:181-245,
src/lib.rs:481-487), which loads a block before it is reported. A block that cannot be read ends it, and so does a panic. -/
def pinLoopProg (env : PinEnv) (le : Cid → Cid → Bool) (kind : PinKind) : Nat → List Refs.Work → List Cid → MemPins → Nat →
    Prog (Option (Except PinErr Nat × MemPins))
  | 0, _, _, _, _ => .ret none
  | _ + 1, [], _, g, count => .ret (some (.ok count, g))
  | fuel + 1, w :: work, vis, g, count =>
    .load w.edge.destination (fun b =>
      match decodeIpld env.ipld env.size w.edge.destination b.data with
      | .error _ => .ret (some (.error .refs, g))
      | .ok d =>
        match Refs.ipldLinks w.edge.destination d with
        | none => .ret (some (.error .refs, g))
        | some ls =>
          match g.insertPin le w.edge.destination kind with
          | .error e => .ret (some (.error e, g))
          | .ok (_, g) =>
            let q := Refs.enqueue true (w.depth + 1) w.edge.destination ls vis
            pinLoopProg env le kind fuel (work ++ q.1) q.2 g (count + 1))
    (pinLoopProg env le kind fuel work vis g count)

/-- `insert_recursive_pin` (src/repo/mem.rs:215-250) for a root with these links. -/
def pinProg (env : PinEnv) (le : Cid → Cid → Bool) (g : MemPins) (c : Cid) (ls : List (Option Bytes × Cid)) : Prog PinWalk :=
  match g.insertPin le c .recursiveIntention with
  | .error e => .ret (some (.error e, g))
  | .ok (_, g) =>
    let q := Refs.enqueueRoots true [(c, ls)] []
    (pinLoopProg env le (.indirectFrom (Cid.asV1 c)) env.fuel q.1 q.2 g 0).map (fun r =>
      match r with
      | none => none
      | some (.error e, g) => some (.error e, g)
      | some (.ok count, g) =>
        match g.insertPin le c (.recursive count) with
        | .error e => some (.error e, g)
        | .ok (_, g) => some (.ok (), g))

/-- How far a request to pin is. -/
inductive PinStage where
  /-- the root is asked for -/
  | root (l : Loader (Option Bytes))
  /-- the store of pins is locked and everything below is asked for; what has come so far -/
  | walk (l : Loader PinWalk) (got : List Cid)

/-- The future that is awaited. -/
def PinStage.wait : PinStage → Option Nat
  | .root l => l.wait
  | .walk l _ => l.wait

/-- The block a program gets when it goes on at `x`, if it gets one. -/
def Loader.gets {P α : Type} (x : P) (s : NetSt P) (l : Loader α) : List Cid :=
  match l.prog with
  | .ret _ => []
  | .load c _ _ =>
    match l.wait with
    | none => if ((s.node x).get c).1.isSome then [c] else []
    | some i =>
      match (s.node x).reg.poll i with
      | some (_, .done _) => [c]
      | _ => []

/-- A request to pin. -/
structure PinJob where
  cid : Cid
  recursive : Bool
  stage : PinStage

/-- The nodes, the pins of one of them, its requests to pin, and the one that holds the lock of the pins. -/
structure PinNet (P : Type) where
  net : NetSt P
  pins : MemPins := []
  jobs : Nat → Option PinJob := fun _ => none
  lock : Option Nat := none

/-- What can happen. -/
inductive PinEv (P : Type) where
  /-- anything but a removal at the node with the pins -/
  | net (e : NetEv P)
  /-- a new request to pin -/
  | ask (id : Nat) (c : Cid) (recursive : Bool)
  /-- a request is polled -/
  | go (id : Nat)
  /-- the root is there, the pins are locked -/
  | next (id : Nat)
  /-- the walk has ended, the pins are unlocked -/
  | done (id : Nat)
  /-- a request that waits is dropped -/
  | drop (id : Nat)
  | unpin (c : Cid) (recursive : Bool)
  | remove (c : Cid)

variable {P : Type} [DecidableEq P]

/-- Whether it is a removal at this node. -/
def removesAt (x : P) : NetEv P → Bool
  | .remove y _ => decide (y = x)
  | _ => false

/-- With another request, or none, under this number. -/
def PinNet.setJob (s : PinNet P) (id : Nat) (j : Option PinJob) : PinNet P := { s with jobs := fun i => if i = id then j else s.jobs i }

/-- The repo of the node. -/
def PinNet.repo (s : PinNet P) (x : P) : RepoState MemPins := ⟨(s.net.node x).store, s.pins, []⟩

/-- The links of the root (src/lib.rs:480, src/refs.rs:165-174). A panic in the listing of the links is an error here. -/
def rootLinks (env : PinEnv) (c : Cid) (data : Bytes) : Option (List (Option Bytes × Cid)) :=
  match decodeIpld env.ipld env.size c data with
  | .error _ => none
  | .ok d => Refs.ipldLinks c d

/-- The future that is awaited is dropped, see `Peer.drop`. -/
def NetSt.dropWait (s : NetSt P) (x : P) : Option Nat → NetSt P
  | none => s
  | some i => s.upd x ((s.node x).drop i)

/-- The pins when `insert_recursive_pin` is dropped at its `try_next().await` (src/repo/mem.rs:238): the intention and what came is pinned. -/
def _root_.Verif.Repo.MemPins.pinnedSoFar (le : Cid → Cid → Bool) (g : MemPins) (c : Cid) (got : List Cid) : MemPins :=
  (g.insertRecursive le c (got.map some ++ [none])).2

/-- One thing happens, and which request was answered, if any, and whether it went well. -/
def PinNet.step (H : Bitswap.Hashes) (debug : Bool) (env : PinEnv) (le : Cid → Cid → Bool) (x : P) (s : PinNet P) :
    PinEv P → Option (PinNet P × Option (NodeOp × Bool))
  | .net e => if removesAt x e then none else (s.net.step H debug e).map (fun n => ({ s with net := n }, none))
  | .ask id c r =>
    match s.jobs id with
    | some _ => none
    | none => some (s.setJob id (some ⟨c, r, .root ⟨rootProg c, none⟩⟩), none)
  | .go id =>
    match s.jobs id with
    | none => none
    | some ⟨c, r, .root l⟩ => some ({ s with net := (l.go x s.net).1 }.setJob id (some ⟨c, r, .root (l.go x s.net).2⟩), none)
    | some ⟨c, r, .walk l got⟩ =>
      some ({ s with net := (l.go x s.net).1 }.setJob id (some ⟨c, r, .walk (l.go x s.net).2 (got ++ l.gets x s.net)⟩), none)
  | .next id =>
    match s.jobs id with
    | some ⟨c, r, .root ⟨.ret none, _⟩⟩ => some (s.setJob id none, some (.pin c r, false))
    | some ⟨c, true, .root ⟨.ret (some data), _⟩⟩ =>
      match rootLinks env c data with
      | none => some (s.setJob id none, some (.pin c true, false))
      | some ls =>
        if s.lock.isSome then none
        else some ({ s with lock := some id }.setJob id (some ⟨c, true, .walk ⟨pinProg env le s.pins c ls, none⟩ []⟩), none)
    | some ⟨c, false, .root ⟨.ret (some _), _⟩⟩ =>
      if s.lock.isSome then none
      else
        let r := s.pins.insertDirect le c
        some ({ s with pins := r.2 }.setJob id none, some (.pin c false, r.1.isOk))
    | _ => none
  | .done id =>
    match s.jobs id with
    | some ⟨c, _, .walk ⟨.ret (some (r, g)), _⟩ _⟩ => some ({ s with pins := g, lock := none }.setJob id none, some (.pin c true, r.isOk))
    | _ => none
  | .drop id =>
    match s.jobs id with
    | some ⟨_, _, .root l⟩ => some ({ s with net := s.net.dropWait x l.wait }.setJob id none, none)
    | some ⟨c, _, .walk ⟨.load _ _ _, w⟩ got⟩ =>
      some ({ s with net := s.net.dropWait x w, pins := s.pins.pinnedSoFar le c got, lock := none }.setJob id none, some (.pin c true, false))
    | _ => none
  | .unpin c r =>
    if s.lock.isSome then none
    else
      let a := nodeStep env (memStore le) (s.repo x) (.unpin c r)
      some ({ s with pins := a.2.pins }, some (.unpin c r, a.1))
  | .remove c =>
    if s.lock.isSome then none
    else if s.pins.isPinned c then some (s, some (.remove c, false))
    else (s.net.step H debug (.remove x c)).map (fun n => ({ s with net := n }, some (.remove c, ((s.net.node x).store.remove c).2)))

end Verif.Net
