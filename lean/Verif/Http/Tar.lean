import Verif.Base.Utf8
import Verif.Unixfs.Walk

/-!
# The tar stream of the get endpoint

Model of `http/src/v0/root_files/tar_helper.rs` and of `walk` in `http/src/v0/root_files.rs:125-205`.

The crate `tar` (0.4) is not part of the repository. Modelled of it, after its source: the layout of a
GNU header, `set_path`, `set_link_name`, the numeric setters and `set_cksum`, with what they leave behind in a
header that is used again. `Path::components` is modelled as documented in std for unix.

The buffer `bytes` is empty between the calls.
-/

namespace Verif.Http

open Verif Verif.Unixfs

/-! ## Headers -/

/-- A GNU header; what follows `version` stays zero. -/
structure TarHeader where
  name : Bytes
  mode : Bytes
  uid : Bytes
  gid : Bytes
  size : Bytes
  mtime : Bytes
  cksum : Bytes
  typeflag : UInt8
  linkname : Bytes
deriving DecidableEq, Repr

/-- `magic` and `version` of a GNU header: `ustar`, two spaces and a zero. -/
def gnuMagic : Bytes := [117, 115, 116, 97, 114, 32, 32, 0]

/-- `Header::as_bytes`. -/
def TarHeader.toBytes (h : TarHeader) : Bytes :=
  h.name ++ (h.mode ++ (h.uid ++ (h.gid ++ (h.size ++ (h.mtime ++ (h.cksum ++ ([h.typeflag] ++
    (h.linkname ++ (gnuMagic ++ List.replicate 247 0)))))))))

/-- `octal_into`: digits for all but the last byte, which is left as it is. -/
def octalField : Nat → Nat → Bytes
  | 0, _ => []
  | w + 1, v => octalField w (v / 8) ++ [UInt8.ofNat (48 + v % 8)]

def octalInto (dst : Bytes) (v : Nat) : Bytes := octalField (dst.length - 1) v ++ dst.drop (dst.length - 1)

/-- The eight bytes of a number, the highest first. -/
def be64 (v : Nat) : Bytes := (List.range 8).map (fun x => UInt8.ofNat (v / 256 ^ (7 - x)))

/-- `num_field_wrapper_into`: octal, or binary with a mark in the first bit for large numbers. -/
def numericInto (dst : Bytes) (v : Nat) : Bytes :=
  if v ≥ 2 ^ 33 ∨ (v ≥ 2 ^ 21 ∧ dst.length = 8) then
    match List.replicate (dst.length - 8) 0 ++ be64 v with
    | [] => []
    | b :: bs => (b ||| 128) :: bs
  else octalInto dst v

/-- `calculate_cksum`: the sum of the bytes, with spaces for the checksum. -/
def sumBytes (bs : Bytes) : Nat := (bs.map UInt8.toNat).sum

def TarHeader.sum (h : TarHeader) : Nat := sumBytes { h with cksum := List.replicate 8 32 }.toBytes

/-- `set_cksum`. -/
def TarHeader.setCksum (h : TarHeader) : TarHeader := { h with cksum := octalInto h.cksum h.sum }

/-! ## Paths -/

/-- `Component`. -/
inductive Comp where
  | rootDir
  | curDir
  | parentDir
  | normal (name : Bytes)
deriving DecidableEq, Repr

/-- `Component::as_os_str`. -/
def Comp.bytes : Comp → Bytes
  | .rootDir => [47]
  | .curDir => [46]
  | .parentDir => [46, 46]
  | .normal n => n

/-- A segment that is not skipped. -/
def Comp.ofSegment (s : Bytes) : Comp := if s = [46, 46] then .parentDir else .normal s

/-- `Path::components`. -/
def components (p : Bytes) : List Comp :=
  match splitSlash p with
  | [] => []
  | s :: ss =>
    let rest := (ss.filter (fun c => !isJunk c)).map Comp.ofSegment
    if s = [] then (if ss = [] then [] else .rootDir :: rest)
    else if s = [46] then .curDir :: rest
    else .ofSegment s :: rest

/-- `copy_into`: the bytes and a zero, when there is room for one. -/
def copyInto (slot bytes : Bytes) : Option Bytes :=
  if bytes.length > slot.length then none
  else if bytes.contains 0 then none
  else if bytes.length < slot.length then some (bytes ++ 0 :: slot.drop (bytes.length + 1))
  else some bytes

/-- What the loop of `copy_path_into` copies, one after the other; `none` is an error. `single` is whether there
is only one component. -/
def pathPieces (isLink single : Bool) : Bool → List Comp → List (Option Bytes)
  | _, [] => []
  | needsSlash, c :: cs =>
    let emit : List (Option Bytes) :=
      (if needsSlash then [some [47]] else []) ++
      some c.bytes :: pathPieces isLink single (needsSlash || c.bytes ≠ [47]) cs
    match c, isLink with
    | .rootDir, false => [none]
    | .parentDir, false => [none]
    | .curDir, false => if single then emit else pathPieces isLink single needsSlash cs
    | _, _ => emit

/-- Copying piece by piece: the slot afterwards, and whether it worked. -/
def copyPieces : Bytes → List (Option Bytes) → Bytes × Bool
  | slot, [] => (slot, true)
  | slot, none :: _ => (slot, false)
  | slot, some p :: ps =>
    match copyInto slot p with
    | none => (slot, false)
    | some s =>
      let r := copyPieces (s.drop p.length) ps
      (s.take p.length ++ r.1, r.2)

/-- `copy_path_into`. -/
def copyPathInto (slot path : Bytes) (isLink : Bool) : Bytes × Bool :=
  let cs := components path
  let pieces := pathPieces isLink (cs.length = 1) false cs
  copyPieces slot (pieces ++ (if pieces = [] then [none] else []) ++ (if path.getLast? = some 47 then [some [47]] else []))

/-- `set_path`, for GNU headers, and whether it worked. -/
def TarHeader.setPath (h : TarHeader) (path : Bytes) : TarHeader × Bool :=
  let r := copyPathInto h.name path false
  ({ h with name := r.1 }, r.2)

/-- `set_link_name`. -/
def TarHeader.setLinkName (h : TarHeader) (target : Bytes) : TarHeader × Bool :=
  let r := copyPathInto h.linkname target true
  ({ h with linkname := r.1 }, r.2)

/-! ## `TarHelper` -/

/-- `GetError` (http/src/v0/root_files.rs:207-214), and panics. -/
inductive GetErr where
  | nonUtf8Symlink
  | invalidFileName (name : Bytes)
  | invalidLinkName (name : Bytes)
  | panic
deriving DecidableEq, Repr

/-- `Header::new_gnu` with the time and the owner set to zero. -/
def newHeader : TarHeader :=
  { name := List.replicate 100 0, mode := List.replicate 8 0,
    uid := numericInto (List.replicate 8 0) 0, gid := numericInto (List.replicate 8 0) 0,
    size := List.replicate 12 0, mtime := numericInto (List.replicate 12 0) 0,
    cksum := List.replicate 8 0, typeflag := 0, linkname := List.replicate 100 0 }

/-- `././@LongLink`. -/
def longLink : Bytes := [46, 47, 46, 47, 64, 76, 111, 110, 103, 76, 105, 110, 107]

/-- `new_long_filename_header` (http/src/v0/root_files/tar_helper.rs:58-83). -/
def newLongHeader : TarHeader :=
  { newHeader with mode := octalInto (List.replicate 8 0) 0o644, name := longLink ++ List.replicate 87 0 }

/-- `TarHelper` (http/src/v0/root_files/tar_helper.rs:18-24). -/
structure TarHelper where
  bufsize : Nat
  header : TarHeader
  longHeader : TarHeader
deriving DecidableEq, Repr

/-- `with_capacity` (http/src/v0/root_files/tar_helper.rs:27-47). -/
def TarHelper.withCapacity (n : Nat) : TarHelper := ⟨n, newHeader, newLongHeader⟩

/-- `pad` (http/src/v0/root_files/tar_helper.rs:212-219). -/
def tarPad (total : Nat) : Option Bytes :=
  let padding := 512 - total % 512
  if padding < 512 then some (List.replicate padding 0) else none

/-- `set_metadata` (http/src/v0/root_files/tar_helper.rs:221-241). -/
def TarHeader.setMetadata (h : TarHeader) (m : Metadata) (defaultMode : Nat) : TarHeader :=
  let seconds := match m.mtime with
    | some (s, _) => if s ≥ 0 then s.toNat else 0
    | none => 0
  { h with
    mode := octalInto h.mode ((m.mode.map (fun x => x % 0o10000)).getD defaultMode),
    mtime := numericInto h.mtime seconds }

/-- The entry for a long name: its header, the name with a zero, and the padding. -/
def longEntry (long : TarHeader) (flag : UInt8) (data : Bytes) : TarHeader × List Bytes :=
  let long := { long with size := numericInto long.size (data.length + 1), typeflag := flag }.setCksum
  (long, (long.toBytes ++ data ++ [0]) :: (tarPad (data.length + 1)).toList)

/-- The beginning of `apply_file`, `apply_directory` and `apply_symlink`, with `prepare_long_header`
(http/src/v0/root_files/tar_helper.rs:93-103, 245-318). -/
def TarHelper.putPath (t : TarHelper) (path : Bytes) : Except GetErr (TarHelper × List Bytes) :=
  let r := t.header.setPath path
  if r.2 then .ok ({ t with header := r.1 }, [])
  else if path.length < 100 then .error (.invalidFileName path)
  else
    let e := longEntry t.longHeader 76 path
    let r := r.1.setPath (path.take 100)
    if r.2 then .ok ({ t with header := r.1, longHeader := e.1 }, e.2) else .error .panic

/-- The end of `apply_file` and `apply_directory` (http/src/v0/root_files/tar_helper.rs:105-112, 145-152). -/
def TarHelper.putHeader (t : TarHelper) (size : Nat) (flag : UInt8) (m : Metadata) (mode : Nat) : TarHelper × List Bytes :=
  let h := { t.header with size := numericInto t.header.size size, typeflag := flag }
  let h := (h.setMetadata m mode).setCksum
  ({ t with header := h }, [h.toBytes])

/-- `apply_file` (http/src/v0/root_files/tar_helper.rs:85-114). -/
def TarHelper.applyFile (t : TarHelper) (path : Bytes) (m : Metadata) (size : Nat) :
    Except GetErr (TarHelper × List Bytes) :=
  match t.putPath path with
  | .error e => .error e
  | .ok (t, out) => let r := t.putHeader size 48 m 0o644; .ok (r.1, out ++ r.2)

/-- `apply_directory` (http/src/v0/root_files/tar_helper.rs:127-155). -/
def TarHelper.applyDirectory (t : TarHelper) (path : Bytes) (m : Metadata) :
    Except GetErr (TarHelper × List Bytes) :=
  match t.putPath path with
  | .error e => .error e
  | .ok (t, out) => let r := t.putHeader 0 53 m 0o755; .ok (r.1, out ++ r.2)

/-- `apply_symlink` (http/src/v0/root_files/tar_helper.rs:157-209). -/
def TarHelper.applySymlink (t : TarHelper) (path target : Bytes) (m : Metadata) :
    Except GetErr (TarHelper × List Bytes) :=
  match t.putPath path with
  | .error e => .error e
  | .ok (t, out) =>
    let r := t.header.setLinkName target
    if r.2 then
      let q := { t with header := r.1 }.putHeader 0 50 m 0o644
      .ok (q.1, out ++ q.2)
    else if target.length < 100 then .error (.invalidLinkName target)
    else
      let e := longEntry t.longHeader 75 target
      let q := { t with header := r.1, longHeader := e.1 }.putHeader 0 50 m 0o644
      .ok (q.1, out ++ e.2 ++ q.2)

/-! ## The stream -/

/-- The loop over the contents with `buffer_file_contents` (http/src/v0/root_files.rs:167-177,
http/src/v0/root_files/tar_helper.rs:116-125). With a `bufsize` of 0 it would not end; `walk` has 16384. -/
def bufferContents (bufsize : Nat) (slice : Bytes) : List Bytes :=
  if slice = [] then []
  else if bufsize = 0 then [slice]
  else slice.take bufsize :: bufferContents bufsize (slice.drop bufsize)
termination_by slice.length
decreasing_by
  simp only [List.length_drop]
  cases slice with
  | nil => contradiction
  | cons c s => simp only [List.length_cons]; omega

/-- What is yielded for what the walker reports (http/src/v0/root_files.rs:157-202). -/
def TarHelper.item (t : TarHelper) : WItem → Except GetErr (TarHelper × List Bytes)
  | .bucket _ _ => .ok (t, [])
  | .file bytes first last _ path m size =>
    let body := bufferContents t.bufsize bytes ++ (if last then (tarPad size).toList else [])
    if first then
      match t.applyFile path m size with
      | .error e => .error e
      | .ok (t, out) => .ok (t, out ++ body)
    else .ok (t, body)
  | .directory _ path m => t.applyDirectory path m
  | .rootDirectory _ path m => t.applyDirectory path m
  | .symlink target _ path m => if utf8Ok target then t.applySymlink path target m else .error .nonUtf8Symlink

/-- The stream for what the walker reports: what is yielded, and the error it ends with. -/
def TarHelper.items (t : TarHelper) : List WItem → List Bytes × Option GetErr
  | [] => ([], none)
  | i :: is =>
    match t.item i with
    | .error e => ([], some e)
    | .ok (t, out) => let r := t.items is; (out ++ r.1, r.2)

end Verif.Http
