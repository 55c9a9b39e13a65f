import Verif.Base.Cid
import Verif.Unixfs.Pb

/-!
# What a file stored as a dag is

This is specification, not model: `T d` is a file tree of depth exactly `d`, where `T 0`
is the bytes of a leaf and `T (d+1)` a list of trees of depth `d`. Trees of this type are
balanced by construction. `FileDag` says which blocks in a store represent such a tree,
only by decoding their bytes.
-/

namespace Verif.Unixfs

open Verif

/-- A file tree in which every leaf has depth `d`. -/
def T : Nat → Type
  | 0 => Bytes
  | d + 1 => List (T d)

/-- The children of an inner tree. -/
def T.kids {d : Nat} (t : T (d + 1)) : List (T d) := t

/-- Make an inner tree. -/
def T.node {d : Nat} (ts : List (T d)) : T (d + 1) := ts

/-- Make a leaf. -/
def T.leaf (b : Bytes) : T 0 := b

@[simp] theorem T.kids_node {d : Nat} (ts : List (T d)) : (T.node ts).kids = ts := rfl
@[simp] theorem T.node_kids {d : Nat} (t : T (d + 1)) : T.node t.kids = t := rfl

/-- The file bytes below a tree, left to right. -/
def T.content : {d : Nat} → T d → Bytes
  | 0, b => b
  | _ + 1, t => (t.kids.map T.content).flatten

/-- The leaves of a tree, left to right. -/
def T.leafs : {d : Nat} → T d → List Bytes
  | 0, b => [b]
  | _ + 1, t => (t.kids.map T.leafs).flatten

/-- The number of children of every node `k` levels below the top, left to right. -/
def T.widths : {d : Nat} → T d → Nat → List Nat
  | 0, _, _ => []
  | _ + 1, t, 0 => [t.kids.length]
  | _ + 1, t, k + 1 => (t.kids.map (fun s => T.widths s k)).flatten

/-- All entries between 1 and `n`, and all but the last exactly `n`. -/
def AlmostFull (n : Nat) (l : List Nat) : Prop :=
  (∀ x ∈ l, 1 ≤ x ∧ x ≤ n) ∧ ∀ x ∈ l.dropLast, x = n

/-- In the store `fetch`, the cid `c` is the top of a dag of files nodes for the tree `t`, whose
blocks (counted as often as they are linked) have `total` bytes. Every node's recorded file
size, block sizes and link sizes are the true ones. -/
def FileDag (fetch : Cid → Option Bytes) : (d : Nat) → Cid → T d → Nat → Prop
  | 0, c, t, total => ∃ (bytes : Bytes) (f : Flat), fetch c = some bytes ∧ Flat.parse bytes = .ok f ∧
      f.links = [] ∧ f.data.type = .file ∧ f.data.blocksizes = [] ∧
      f.data.data.getD [] = t.content ∧ f.data.filesize = some t.content.length ∧
      total = bytes.length
  | d + 1, c, t, total => ∃ (bytes : Bytes) (f : Flat) (totals : List Nat), fetch c = some bytes ∧ Flat.parse bytes = .ok f ∧
      f.data.type = .file ∧ f.data.data = none ∧
      f.data.filesize = some t.content.length ∧
      f.data.blocksizes = t.kids.map (fun k => k.content.length) ∧
      f.data.blocksizes.sum = t.content.length ∧
      f.links.length = t.kids.length ∧ totals.length = t.kids.length ∧
      f.links.map PBLink.tsize = totals.map some ∧
      (∀ (i : Nat) (l : PBLink) (k : T d) (n : Nat), f.links[i]? = some l → t.kids[i]? = some k → totals[i]? = some n →
        ∃ c', Cid.ofBytes (l.hash.getD []) = some c' ∧ FileDag fetch d c' k n) ∧
      total = bytes.length + totals.sum

/-- A store holding exactly these blocks; the first one given for a cid is found. -/
def storeOf (blocks : List (Cid × Bytes)) (c : Cid) : Option Bytes :=
  (blocks.find? (fun b => b.1 == c)).map Prod.snd

/-- `l` is a link of the encoded node `bytes`, pointing at `c`. -/
def HasLink (bytes : Bytes) (c : Cid) : Prop :=
  ∃ f l, Flat.parse bytes = .ok f ∧ l ∈ f.links ∧ Cid.ofBytes (l.hash.getD []) = some c

/-- The block `b` can be reached from the block `t` by following links within `blocks`. -/
inductive Below (blocks : List (Cid × Bytes)) (b : Cid × Bytes) : Cid × Bytes → Prop where
  | refl : Below blocks b b
  | step {k t : Cid × Bytes} : Below blocks b k → k ∈ blocks → HasLink t.2 k.1 → Below blocks b t

end Verif.Unixfs
