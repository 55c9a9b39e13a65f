import Verif.Unixfs.Builder
import Verif.Unixfs.Pb

/-!
# Rendering a directory tree into blocks

Model of `unixfs/src/dir/builder/custom_pb.rs` and `unixfs/src/dir/builder/iter.rs`.

* `Sha256::digest` is the parameter `H`.
* `usize` arithmetic in `get_size` does not overflow; the sums of total sizes are `u64` and may.
* The iterator is run by its consumer until it ends; one round of the loop in `next_borrowed` is `visit`.
  The stack has its top first.
* Capacities of buffers are left out.
-/

namespace Verif.Unixfs

open Verif

/-- `NamedLeaf` (unixfs/src/dir/builder.rs:150-151). -/
structure NamedLeaf where
  name : Bytes
  cid : Cid
  total : Nat
deriving DecidableEq, Repr

/-! ## Encoding -/

/-- `WriteableCid::get_size` (unixfs/src/dir/builder/custom_pb.rs:72-86). -/
def cidSize (c : Cid) : Nat :=
  let hashLen := (mhBytes c.mhCode c.digest).length
  match c.version with
  | .v0 => hashLen
  | .v1 => 1 + sizeofVarint c.codec + hashLen

/-- `WriteableCid::write_message` (unixfs/src/dir/builder/custom_pb.rs:88-108). -/
def cidWrite (c : Cid) : Bytes :=
  match c.version with
  | .v0 => mhBytes c.mhCode c.digest
  | .v1 => 1 :: (writeVarint c.codec ++ mhBytes c.mhCode c.digest)

/-- `NamedLeafAsPBLink::get_size` (unixfs/src/dir/builder/custom_pb.rs:47-57). -/
def NamedLeaf.getSize (l : NamedLeaf) : Nat :=
  1 + sizeofLen l.name.length + 1 + sizeofLen (cidSize l.cid) + 1 + sizeofVarint l.total

/-- `NamedLeafAsPBLink::write_message` (unixfs/src/dir/builder/custom_pb.rs:59-65). -/
def NamedLeaf.write (l : NamedLeaf) : Bytes :=
  msgField 10 (cidSize l.cid) (cidWrite l.cid) ++ (lenField 18 l.name ++ varintField 24 l.total)

/-- `mapped` (unixfs/src/dir/builder/custom_pb.rs:15-22); `none` is a panic. -/
def mapped : List (Option NamedLeaf) → Option (List NamedLeaf)
  | [] => some []
  | none :: _ => none
  | some l :: ls => (mapped ls).map (l :: ·)

/-- `CustomFlatUnixFs::get_size` (unixfs/src/dir/builder/custom_pb.rs:26-35). -/
def customSize (links : List NamedLeaf) (data : UnixFs) : Nat :=
  (links.map (fun l => 1 + sizeofLen l.getSize)).sum + 1 + sizeofLen data.getSize

/-- `CustomFlatUnixFs::write_message` (unixfs/src/dir/builder/custom_pb.rs:37-41). -/
def customWrite (links : List NamedLeaf) (data : UnixFs) : Bytes :=
  (links.map (fun l => msgField 18 l.getSize l.write)).flatten ++ msgField 10 data.getSize data.write

/-! ## Rendering one directory -/

/-- How building stops. -/
inductive BuildErr where
  /-- `TreeConstructionFailed::Protobuf` -/
  | protobuf
  /-- `TreeConstructionFailed::TooLargeBlock` -/
  | tooLargeBlock (size : Nat)
  | panic
deriving DecidableEq, Repr

/-- Addition of `u64`s. -/
def addU64 (debug : Bool) (a b : Nat) : Option Nat :=
  if a + b < 2 ^ 64 then some (a + b) else if debug then none else some ((a + b) % 2 ^ 64)

/-- `sum::<u64>()`. -/
def sumU64 (debug : Bool) : Nat → List Nat → Option Nat
  | acc, [] => some acc
  | acc, x :: xs =>
    match addU64 debug acc x with
    | none => none
    | some acc => sumU64 debug acc xs

/-- Writing at the front of a slice; `none` when it is too short. -/
def overwrite (buffer msg : Bytes) : Option Bytes :=
  if msg.length ≤ buffer.length then some (msg ++ buffer.drop msg.length) else none

/-- The limit is exceeded (unixfs/src/dir/builder/iter.rs:113-119). -/
def tooLarge (limit : Option Nat) (size : Nat) : Bool :=
  match limit with
  | none => false
  | some limit => limit < size

/-- `render_directory` (unixfs/src/dir/builder/iter.rs:80-160): the leaf and the buffer. -/
def renderDirectory (H : Bytes → Bytes) (opts : TreeOpts) (links : List (Option NamedLeaf)) (buffer : Bytes) :
    Except BuildErr (Leaf × Bytes) :=
  match mapped links with
  | none => .error .panic
  | some ls =>
    let data : UnixFs := { type := .directory }
    let size := customSize ls data
    if tooLarge opts.blockSizeLimit size then .error (.tooLargeBlock size)
    else
      match overwrite (buffer ++ List.replicate (size - buffer.length) 0) (customWrite ls data) with
      | none => .error .protobuf
      | some buffer =>
        let block := buffer.take size
        match sumU64 opts.debug 0 (ls.map NamedLeaf.total) with
        | none => .error .panic
        | some combined =>
          match addU64 opts.debug block.length combined with
          | none => .error .panic
          | some total => .ok (⟨Cid.v0 (H block), total⟩, block)

/-! ## The full path -/

/-- The bytes before and after the last slash. -/
def cutLast : Bytes → Option (Bytes × Bytes)
  | [] => none
  | c :: s =>
    match cutLast s with
    | some (a, b) => some (c :: a, b)
    | none => if c = 47 then some ([], s) else none

/-- The loop of `update_full_path` (unixfs/src/dir/builder/iter.rs:369-389), counting the old depth
down: `none` is a panic, the flag says that the function returned. -/
def popPath (name : Option Bytes) (depth : Nat) : Nat → Bytes → Option (Bytes × Nat × Bool)
  | 0, path => some (path, 0, false)
  | old + 1, path =>
    if depth ≤ old + 1 then
      match cutLast path with
      | none => none
      | some (front, back) =>
        if old + 1 = depth ∧ some back = name then some (path, old + 1, true)
        else popPath name depth old front
    else some (path, old + 1, false)

/-- `update_full_path` (unixfs/src/dir/builder/iter.rs:358-403); `none` is a panic. -/
def updateFullPath (path : Bytes) (old : Nat) (name : Option Bytes) (depth : Nat) : Option (Bytes × Nat) :=
  match if depth < 2 then some ([], 0, false) else popPath name depth old path with
  | none => none
  | some (path, old, true) => some (path, old)
  | some (path, old, false) =>
    match name with
    | none => if old = depth then some (path, old) else none
    | some n =>
      if old + 1 = depth then some ((if path = [] then n else path ++ 47 :: n), old + 1) else none

/-! ## The iterator -/

/-- `LeafStorage` (unixfs/src/dir/builder/iter.rs:435-439). -/
inductive LeafStorage where
  | direct (ls : List (Option NamedLeaf))
  | stashed (id : Nat)
deriving DecidableEq, Repr

/-- `Visited` (unixfs/src/dir/builder/iter.rs:39-62). -/
inductive Visited where
  | descentRoot (d : DirBuilder)
  | descent (node : DirBuilder) (name : Bytes) (depth index : Nat)
  | post (parentId depth : Nat) (name : Bytes) (index : Nat) (leaves : LeafStorage)
  | postRoot (leaves : LeafStorage)

/-- `PostOrderIterator` (unixfs/src/dir/builder/iter.rs:12-26); `reused_children` is empty between
rounds, `cid` and `total_size` are only read in the round that sets them. -/
structure TreeIter where
  fullPath : Bytes
  oldDepth : Nat
  buffer : Bytes
  pending : List Visited
  persisted : AMap Nat (List (Option NamedLeaf))
  opts : TreeOpts

/-- `PostOrderIterator::new` (unixfs/src/dir/builder/iter.rs:65-78) and `build`
(unixfs/src/dir/builder/buffered.rs:181-183). -/
def Builder.build (b : Builder) : TreeIter := ⟨[], 0, [], [.descentRoot b.root], [], b.opts⟩

/-- `OwnedTreeNode` (unixfs/src/dir/builder/iter.rs:347-356). -/
structure TreeNode where
  path : Bytes
  cid : Cid
  total : Nat
  block : Bytes
deriving DecidableEq, Repr

/-- `LeafStorage::into_inner` (unixfs/src/dir/builder/iter.rs:442-453). -/
def LeafStorage.intoInner (s : LeafStorage) (stash : AMap Nat (List (Option NamedLeaf))) :
    Option (List (Option NamedLeaf) × AMap Nat (List (Option NamedLeaf))) :=
  match s with
  | .direct ls => some (ls, stash)
  | .stashed id =>
    match AMap.get stash id with
    | none => none
    | some ls => some (ls, AMap.erase stash id)

/-- `partition_children_leaves` (unixfs/src/dir/builder/iter.rs:407-433): the leaves, and the children
in order. -/
def partitionChildren (depth : Nat) : Nat → List (Bytes × Entry) → List (Option NamedLeaf) × List Visited
  | _, [] => ([], [])
  | i, (k, .directory d) :: es =>
    let r := partitionChildren depth (i + 1) es
    (none :: r.1, .descent d k (depth + 1) i :: r.2)
  | i, (k, .leaf l) :: es =>
    let r := partitionChildren depth (i + 1) es
    (some ⟨k, l.link, l.total⟩ :: r.1, r.2)

/-- What both descents do after the children are known (unixfs/src/dir/builder/iter.rs:180-187,
201-208): the storage and the stash. -/
def stash (id : Nat) (leaves : List (Option NamedLeaf)) (children : List Visited)
    (persisted : AMap Nat (List (Option NamedLeaf))) : LeafStorage × AMap Nat (List (Option NamedLeaf)) :=
  if children.isEmpty then (.direct leaves, persisted) else (.stashed id, AMap.set persisted id leaves)

/-- What comes of one round of the loop. -/
inductive Round where
  | next (it : TreeIter)
  | emit (node : TreeNode) (it : TreeIter)
  | stop (it : TreeIter)
  | fail (e : BuildErr) (it : TreeIter)

/-- Filling in a cell of the parent (unixfs/src/dir/builder/iter.rs:244-261); `none` is a panic. -/
def fillCell (persisted : AMap Nat (List (Option NamedLeaf))) (parentId index : Nat) (l : NamedLeaf) :
    Option (AMap Nat (List (Option NamedLeaf))) :=
  match AMap.get persisted parentId with
  | none => none
  | some vec =>
    match vec[index]? with
    | some none => some (AMap.set persisted parentId (vec.set index (some l)))
    | _ => none

/-- The name and the depth of what is visited (unixfs/src/dir/builder/iter.rs:167-172). -/
def Visited.place : Visited → Option Bytes × Nat
  | .descentRoot _ => (none, 0)
  | .descent _ name depth _ => (some name, depth)
  | .post _ depth name _ _ => (some name, depth)
  | .postRoot _ => (none, 0)

/-- The round for one thing visited, after the full path was updated
(unixfs/src/dir/builder/iter.rs:176-296); the iterator lacks it already. -/
def TreeIter.visit (H : Bytes → Bytes) (it : TreeIter) : Visited → Round
  | .descentRoot d =>
    let r := partitionChildren 0 0 d.nodes
    let s := stash d.id r.1 r.2 it.persisted
    .next { it with pending := r.2.reverse ++ .postRoot s.1 :: it.pending, persisted := s.2 }
  | .descent d name depth index =>
    let r := partitionChildren depth 0 d.nodes
    match d.parentId with
    | none => .fail .panic it
    | some parentId =>
      let s := stash d.id r.1 r.2 it.persisted
      .next { it with pending := r.2.reverse ++ .post parentId depth name index s.1 :: it.pending, persisted := s.2 }
  | .post parentId _ name index leaves =>
    match leaves.intoInner it.persisted with
    | none => .fail .panic it
    | some (leaves, persisted) =>
      match renderDirectory H it.opts leaves it.buffer with
      | .error e => .fail e { it with persisted }
      | .ok (leaf, buffer) =>
        match fillCell persisted parentId index ⟨name, leaf.link, leaf.total⟩ with
        | none => .fail .panic { it with persisted, buffer }
        | some persisted =>
          .emit ⟨it.fullPath, leaf.link, leaf.total, buffer⟩ { it with persisted, buffer }
  | .postRoot leaves =>
    match leaves.intoInner it.persisted with
    | none => .fail .panic it
    | some (leaves, persisted) =>
      if it.opts.wrapWithDirectory = false then .stop { it with persisted }
      else
        match renderDirectory H it.opts leaves it.buffer with
        | .error e => .fail e { it with persisted }
        | .ok (leaf, buffer) =>
          .emit ⟨it.fullPath, leaf.link, leaf.total, buffer⟩ { it with persisted, buffer }

/-- One round of the loop of `next_borrowed` (unixfs/src/dir/builder/iter.rs:166-299). -/
def TreeIter.round (H : Bytes → Bytes) (it : TreeIter) : Round :=
  match it.pending with
  | [] => .stop it
  | v :: pending =>
    match updateFullPath it.fullPath it.oldDepth v.place.1 v.place.2 with
    | none => .fail .panic { it with pending }
    | some (fullPath, oldDepth) => TreeIter.visit H { it with pending, fullPath, oldDepth } v

/-! ## Termination -/

/-- The rounds something visited takes, at most. -/
noncomputable def Visited.weight : Visited → Nat
  | .descentRoot d => 2 * sizeOf d
  | .descent d .. => 2 * sizeOf d
  | .post .. => 1
  | .postRoot .. => 1

/-- The rounds the stack takes, at most. -/
noncomputable def weights (vs : List Visited) : Nat := (vs.map Visited.weight).sum

theorem weights_partition (depth i : Nat) (es : List (Bytes × Entry)) :
    weights (partitionChildren depth i es).2 ≤ 2 * sizeOf es := by
  induction es generalizing i with
  | nil => simp [partitionChildren, weights]
  | cons e es ih =>
    obtain ⟨k, e⟩ := e
    have h := ih (i + 1)
    cases e with
    | leaf l => simp [partitionChildren]; omega
    | directory d =>
      simp only [partitionChildren, weights, List.map_cons, List.sum_cons, Visited.weight] at h ⊢
      simp
      omega

theorem weights_append (a b : List Visited) : weights (a ++ b) = weights a + weights b := by
  simp [weights]

theorem weights_reverse (a : List Visited) : weights a.reverse = weights a := by
  simp [weights, List.map_reverse, List.sum_reverse]

theorem sizeOf_nodes (d : DirBuilder) : sizeOf d.nodes + 1 ≤ sizeOf d := by
  obtain ⟨nodes, m, p, id⟩ := d
  simp
  omega

/-- The stack of the iterator a round goes on with. -/
noncomputable def Round.weight : Round → Nat
  | .next it => weights it.pending
  | .emit _ it => weights it.pending
  | .stop _ => 0
  | .fail _ _ => 0

theorem round_weight (H : Bytes → Bytes) (it : TreeIter) (hne : it.pending ≠ []) :
    (it.round H).weight < weights it.pending := by
  obtain ⟨path, old, buffer, pending, persisted, opts⟩ := it
  cases pending with
  | nil => exact absurd rfl hne
  | cons v pending =>
    have hw : 0 < v.weight := by
      cases v with
      | descentRoot d => have := sizeOf_nodes d; simp only [Visited.weight]; omega
      | descent d _ _ _ => have := sizeOf_nodes d; simp only [Visited.weight]; omega
      | post => simp [Visited.weight]
      | postRoot => simp [Visited.weight]
    simp only [TreeIter.round]
    have hcons : weights (v :: pending) = v.weight + weights pending := by simp [weights]
    rw [hcons]
    split
    · simp only [Round.weight]; omega
    · cases v with
      | descentRoot d =>
        have h1 := sizeOf_nodes d
        have h2 := weights_partition 0 0 d.nodes
        simp only [TreeIter.visit, Round.weight, weights_append, weights_reverse]
        have h3 : ∀ s, weights (Visited.postRoot s :: pending) = 1 + weights pending := by
          intro s; simp [weights, Visited.weight]
        rw [h3]
        simp only [Visited.weight]
        omega
      | descent d name depth index =>
        have h1 := sizeOf_nodes d
        have h2 := weights_partition depth 0 d.nodes
        simp only [TreeIter.visit]
        split
        · simp only [Round.weight]; omega
        · simp only [Round.weight, weights_append, weights_reverse]
          have h3 : ∀ s p, weights (Visited.post p depth name index s :: pending) = 1 + weights pending := by
            intro s; simp [weights, Visited.weight]
          rw [h3]
          simp only [Visited.weight]
          omega
      | post =>
        simp only [TreeIter.visit]
        (repeat' split) <;> simp only [Round.weight] <;> omega
      | postRoot =>
        simp only [TreeIter.visit]
        (repeat' split) <;> simp only [Round.weight] <;> omega

/-- How the iteration ended. -/
inductive BuildEnd where
  | done
  | failed (e : BuildErr)
deriving DecidableEq, Repr

/-- `next` (unixfs/src/dir/builder/iter.rs:305-308) until it gives `None` or an error: what it gave. -/
def TreeIter.run (H : Bytes → Bytes) (it : TreeIter) : List TreeNode × BuildEnd :=
  if _hne : it.pending = [] then ([], .done)
  else
    match _hr : it.round H with
    | .next it' => TreeIter.run H it'
    | .emit n it' => let r := TreeIter.run H it'; (n :: r.1, r.2)
    | .stop _ => ([], .done)
    | .fail e _ => ([], .failed e)
termination_by weights it.pending
decreasing_by
  · have h := round_weight H it _hne; rw [_hr] at h; exact h
  · have h := round_weight H it _hne; rw [_hr] at h; exact h

end Verif.Unixfs
