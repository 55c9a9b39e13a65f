import Verif.Base.CidText
import Verif.Base.Split

/-!
# File names of blocks and pins

Model of `src/repo/fs/paths.rs` and of the name filters of `src/repo/fs/blocks.rs:373-415` and
`src/repo/fs/pinstore.rs:450-485`. A path is the list of its components as bytes.
-/

namespace Verif.Repo.FsPaths

open Verif

/-- `PathBuf::push`: an absolute path replaces, a relative one is appended, and '/' separates
components; empty components and `.` vanish. -/
def push (p : List Bytes) (name : Bytes) : List Bytes :=
  let comps := (splitSlash name).filter (fun c => c ≠ [] && c ≠ [46])
  if name.head? = some 47 then comps else p ++ comps

/-- The parts before and after the last '.'. -/
def lastDot : Bytes → Option (Bytes × Bytes)
  | [] => none
  | c :: s =>
    match lastDot s with
    | some (a, b) => some (c :: a, b)
    | none => if c = 46 then some ([], s) else none

/-- `rsplit_file_at_dot` of the standard library: file stem and extension. -/
def stemExt (name : Bytes) : Bytes × Option Bytes :=
  if name = [46, 46] then (name, none)
  else match lastDot name with
    | none => (name, none)
    | some (a, b) => if a = [] then (name, none) else (a, some b)

/-- `PathBuf::set_extension` (and `with_extension`), for extensions that are not empty. -/
def setExtension (p : List Bytes) (ext : Bytes) : List Bytes :=
  match p.getLast? with
  | none => p
  | some name => p.dropLast ++ [(stemExt name).1 ++ 46 :: ext]

/-- `shard` (src/repo/fs/paths.rs:69-75); `none` when `key.len() - 3` overflows. -/
def shard (p : List Bytes) (key : Bytes) : Option (List Bytes) :=
  if key.length < 3 then none
  else some (push (push p ((key.drop (key.length - 3)).take 2)) key)

/-- The cid as version 1. -/
def toV1 (c : Cid) : Cid := { c with version := .v1 }

/-- `data`, `recursive`, `direct`, `tmp`, `recursive_temp`. -/
def extData : Bytes := [100, 97, 116, 97]
def extRecursive : Bytes := [114, 101, 99, 117, 114, 115, 105, 118, 101]
def extDirect : Bytes := [100, 105, 114, 101, 99, 116]
def extTmp : Bytes := [116, 109, 112]
def extRecursiveTemp : Bytes :=
  [114, 101, 99, 117, 114, 115, 105, 118, 101, 95, 116, 101, 109, 112]

/-- `block_path` (src/repo/fs/paths.rs:5-18). -/
def blockPath (base : List Bytes) (c : Cid) : Option (List Bytes) :=
  let key := if c.version = .v1 then c.toText else (toV1 c).toText
  (shard base key).map (fun p => setExtension p extData)

/-- `filestem_to_block_cid` (src/repo/fs/paths.rs:20-37); `to_str` is the UTF-8 check. -/
def stemToBlockCid (mb : UInt8 → Bytes → Option Bytes) (stem : Bytes) : Option Cid :=
  if utf8Ok stem then Cid.ofText mb stem else none

/-- `pin_path` (src/repo/fs/paths.rs:41-46). -/
def pinPath (base : List Bytes) (c : Cid) : Option (List Bytes) := shard base (base32 c.toBytes)

/-- `filestem_to_pin_cid` (src/repo/fs/paths.rs:49-58). -/
def stemToPinCid (stem : Bytes) : Option Cid :=
  if utf8Ok stem then (unbase32 stem).bind Cid.ofBytes else none

/-- What `FsBlockStore::list` makes of a file name (src/repo/fs/blocks.rs:395-404). -/
def listBlock (mb : UInt8 → Bytes → Option Bytes) (name : Bytes) : Option Cid :=
  if (stemExt name).2 = some extData then stemToBlockCid mb (stemExt name).1 else none

/-- `PinMode` of a file name in the pin store listing: `true` for recursive
(src/repo/fs/pinstore.rs:466-482). -/
def listPin (name : Bytes) : Option (Cid × Bool) :=
  match (stemExt name).2 with
  | some e =>
    if e = extRecursive then (stemToPinCid (stemExt name).1).map (·, true)
    else if e = extDirect then (stemToPinCid (stemExt name).1).map (·, false)
    else none
  | none => none

end Verif.Repo.FsPaths
