import Verif.Base.CidText
import Verif.Base.Split

/-!
# `IpfsPath`

Model of `src/path.rs`. A `String` is its UTF-8 bytes; '/' is ASCII, so splitting characters and
splitting bytes agree.
-/

namespace Verif.Ipfs

open Verif

/-- `PathRoot` (src/path.rs:242-249). -/
inductive PathRoot where
  | ipld (c : Cid)
  | ipns (p : PeerId)
  | dns (name : Bytes)
deriving DecidableEq, Repr

/-- `IpfsPath` with its `SlashedPath` (src/path.rs:37-40, 158-160). -/
structure IpfsPath where
  root : PathRoot
  path : List Bytes
deriving DecidableEq, Repr

/-- `SlashedPath::push_split` (src/path.rs:172-190): the path afterwards, also on failure, and
whether it succeeded. -/
def pushSplit (path : List Bytes) : List Bytes → List Bytes × Bool
  | [] => (path, true)
  | sub :: rest =>
    if sub = [] then (path, rest.isEmpty)
    else pushSplit (path ++ [sub]) rest

/-- `SlashedPath::push_path` (src/path.rs:163-170). -/
def pushPath (path : List Bytes) (s : Bytes) : List Bytes × Bool :=
  if s = [] then (path, true) else pushSplit path (splitSlash s)

/-- "ipfs", "ipld" and "ipns". -/
def sIpfs : Bytes := [105, 112, 102, 115]
def sIpld : Bytes := [105, 112, 108, 100]
def sIpns : Bytes := [105, 112, 110, 115]

/-- The root and the remaining parts (src/path.rs:46-67). -/
def parseRoot (mb : UInt8 → Bytes → Option Bytes) : List Bytes → Option (PathRoot × List Bytes)
  | [] => none
  | first :: rest =>
    if first ≠ [] then (Cid.ofText mb first).map (fun c => (.ipld c, rest))
    else match rest with
      | ty :: key :: rest =>
        if ty = sIpfs ∨ ty = sIpld then (Cid.ofText mb key).map (fun c => (.ipld c, rest))
        else if ty = sIpns then
          match PeerId.ofText key with
          | some p => some (.ipns p, rest)
          | none => some (.dns key, rest)
        else none
      | _ => none

/-- `IpfsPath::from_str` (src/path.rs:45-74). -/
def IpfsPath.parse (mb : UInt8 → Bytes → Option Bytes) (s : Bytes) : Option IpfsPath :=
  match parseRoot mb (splitSlash s) with
  | none => none
  | some (root, rest) =>
    match pushSplit [] rest with
    | (path, true) => some ⟨root, path⟩
    | (_, false) => none

/-- `Display for PathRoot` (src/path.rs:273-282). -/
def PathRoot.text : PathRoot → Bytes
  | .ipld c => 47 :: sIpfs ++ 47 :: c.toText
  | .ipns p => 47 :: sIpns ++ 47 :: p.toText
  | .dns d => 47 :: sIpns ++ 47 :: d

/-- `Display for SlashedPath` (src/path.rs:217-230): the slash is written before all but the first
segment. -/
def slashedText : List Bytes → Bytes
  | [] => []
  | x :: xs => x ++ xs.flatMap (fun y => 47 :: y)

/-- `Display for IpfsPath` (src/path.rs:126-136). -/
def IpfsPath.text (p : IpfsPath) : Bytes :=
  p.root.text ++ if p.path = [] then [] else 47 :: slashedText p.path

/-- `IpfsPath::sub_path` (src/path.rs:98-102): on a copy. -/
def IpfsPath.subPath (p : IpfsPath) (s : Bytes) : Option IpfsPath :=
  match pushPath p.path s with
  | (path, true) => some { p with path := path }
  | (_, false) => none

/-- `IpfsPath::push_str` (src/path.rs:91-94): in place. -/
def IpfsPath.pushStr (p : IpfsPath) (s : Bytes) : IpfsPath × Bool :=
  ({ p with path := (pushPath p.path s).1 }, (pushPath p.path s).2)

/-- `IpfsPath::into_shifted` (src/path.rs:109-115); `none` is the failing assertion. -/
def IpfsPath.shifted (p : IpfsPath) (n : Nat) : Option (List Bytes) :=
  if n ≤ p.path.length then some (p.path.drop n) else none

/-- `IpfsPath::into_truncated` (src/path.rs:117-123). -/
def IpfsPath.truncated (p : IpfsPath) (n : Nat) : Option (List Bytes) :=
  if n ≤ p.path.length then some (p.path.take n) else none

/-- `PartialEq<[&str]> for SlashedPath` (src/path.rs:232-238). -/
def eqSegments (path other : List Bytes) : Bool := (path.zip other).all (fun e => e.1 == e.2)

end Verif.Ipfs
