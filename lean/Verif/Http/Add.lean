import Verif.Base.CidText
import Verif.Unixfs.Adder
import Verif.Unixfs.TreeIter

/-!
# The add endpoint

Model of `http/src/v0/root_files/add.rs`.

* Splitting the body of the request into the parts of the form is done by the crate `mpart-async`. A part
  is given by its name, its file name and its content type as found in its headers (`none` when the
  accessor fails), and by the pieces of its content; `broken` says that reading on fails after them.
* `Ipfs::put_block` (src/lib.rs:428-434) gives back the cid of the block; `put` says for which blocks it
  succeeds.
* What the endpoint does is a list of events: blocks it stores and lines it sends. A line stands for the
  JSON object and the line break; writing JSON does not fail for these.
* `u64` sums of lengths do not overflow.
* `chunk` and `bf` are those of `FileAdder::default` (unixfs/src/file/adder.rs:327-331, 409-415).
-/

namespace Verif.Http

open Verif Verif.Unixfs

/-- `AddArgs` (http/src/v0/root_files.rs:21-32), the defaults of `FileAdder`, and whether overflow checks
are on. -/
structure AddArgs where
  progress : Bool := false
  wrap : Bool := false
  chunk : Nat := 256 * 1024
  bf : Nat := 174
  debug : Bool := true
deriving DecidableEq, Repr

/-- `AddError` (http/src/v0/root_files/add.rs:66-77), and the panics. -/
inductive AddErr where
  | parsing
  | header
  | invalidFilename
  | unsupportedField
  | unsupportedContentType
  | persisting
  | treeGathering (e : PutErr)
  | treeBuilding (e : BuildErr)
  | adder (e : Fail)
  /-- `expect("there should always be something from finish")` -/
  | nothingFinished
deriving DecidableEq, Repr

/-- `Response` (http/src/v0/root_files/add.rs:338-362). -/
inductive AddLine where
  | progress (name : Bytes) (bytes : Nat)
  | added (name : Bytes) (hash : Cid) (size : Nat)
deriving DecidableEq, Repr

/-- What can be seen of the endpoint. -/
inductive AddEvent where
  | put (cid : Cid) (data : Bytes)
  | line (l : AddLine)
deriving DecidableEq, Repr

/-- A part of the form. -/
structure FormPart where
  name : Option Bytes
  filename : Option Bytes
  contentType : Option Bytes
  chunks : List Bytes
  broken : Bool := false
deriving DecidableEq, Repr

/-- The value of a hexadecimal digit. -/
def hexVal (c : UInt8) : Option Nat :=
  if 48 ≤ c ∧ c ≤ 57 then some (c.toNat - 48)
  else if 97 ≤ c ∧ c ≤ 102 then some (c.toNat - 87)
  else if 65 ≤ c ∧ c ≤ 70 then some (c.toNat - 55)
  else none

/-- `percent_decode_str` of the crate `percent-encoding`: a percent sign not followed by two hexadecimal
digits stays. -/
def percentDecode : Bytes → Bytes
  | [] => []
  | 37 :: a :: b :: s =>
    match hexVal a, hexVal b with
    | some x, some y => UInt8.ofNat (16 * x + y) :: percentDecode s
    | _, _ => 37 :: percentDecode (a :: b :: s)
  | c :: s => c :: percentDecode s

/-- The path of a part (http/src/v0/root_files/add.rs:128-142). -/
def addPath (raw : Bytes) : Except AddErr Bytes :=
  let s := percentDecode raw
  if utf8Ok s then .ok (match s with | 47 :: r => r | s => s) else .error .invalidFilename

/-- `import_all` (http/src/v0/root_files/add.rs:314-334), with what is known so far. -/
def importAll (put : Block → Bool) :
    Option Cid → Nat → List Block → List AddEvent × Except AddErr (Option (Cid × Nat))
  | last, total, [] => ([], .ok (last.map (fun c => (c, total))))
  | _, total, b :: bs =>
    if put b then
      let r := importAll put (some b.1) (total + b.2.length) bs
      (.put b.1 b.2 :: r.1, r.2)
    else ([], .error .persisting)

/-- `push_all` (http/src/v0/root_files/add.rs:289-312): what was read, whether something was saved, the
bytes written, and the adder. -/
def pushAllTo (sha : Bytes → Bytes) (put : Block → Bool) :
    Nat → Adder → Bytes → List AddEvent × Except AddErr (Nat × Bool × Nat × Adder)
  | 0, a, next => ([], if next.isEmpty then .ok (0, false, 0, a) else .error (.adder .diverges))
  | fuel + 1, a, next =>
    if next.isEmpty then ([], .ok (0, false, 0, a))
    else
      match a.push sha next with
      | .error e => ([], .error (.adder e))
      | .ok (blocks, used, a') =>
        match importAll put none 0 blocks with
        | (ev, .error e) => (ev, .error e)
        | (ev, .ok saved) =>
          match pushAllTo sha put fuel a' (next.drop used) with
          | (ev', .error e) => (ev ++ ev', .error e)
          | (ev', .ok (read, any, written, a'')) =>
            (ev ++ ev', .ok (used + read, saved.isSome || any,
              (saved.map (·.2)).getD 0 + written, a''))

/-- The loop over the content of a file (http/src/v0/root_files/add.rs:162-190): the bytes written and
read, and the adder. -/
def readFile (sha : Bytes → Bytes) (put : Block → Bool) (args : AddArgs) (path : Bytes) (broken : Bool) :
    Adder → Nat → Nat → List Bytes → List AddEvent × Except AddErr (Nat × Nat × Adder)
  | a, written, read, [] => ([], if broken then .error .parsing else .ok (written, read, a))
  | a, written, read, next :: rest =>
    match pushAllTo sha put next.length a next with
    | (ev, .error e) => (ev, .error e)
    | (ev, .ok (r, any, w, a')) =>
      let ev := ev ++ if any && args.progress then [.line (.progress path (read + r))] else []
      match readFile sha put args path broken a' (written + w) (read + r) rest with
      | (ev', res) => (ev ++ ev', res)

/-- A file (http/src/v0/root_files/add.rs:156-241). The report on the end of the file is sent together
with the line for the file. -/
def addFilePart (sha : Bytes → Bytes) (put : Block → Bool) (args : AddArgs) (tree : Builder)
    (path : Bytes) (p : FormPart) : List AddEvent × Except AddErr Builder :=
  match readFile sha put args path p.broken { chunk := args.chunk, bf := args.bf } 0 0 p.chunks with
  | (ev, .error e) => (ev, .error e)
  | (ev, .ok (written, read, a)) =>
    match a.finish sha with
    | .error e => (ev, .error (.adder e))
    | .ok blocks =>
      match importAll put none 0 blocks with
      | (ev', .error e) => (ev ++ ev', .error e)
      | (ev', .ok none) => (ev ++ ev', .error .nothingFinished)
      | (ev', .ok (some (root, subtotal))) =>
        let written := written + subtotal
        match tree.putLink path root written with
        | (_, .error e) => (ev ++ ev', .error (.treeGathering e))
        | (tree, .ok ()) =>
          (ev ++ ev' ++ (if args.progress then [.line (.progress path read)] else []) ++
            [.line (.added (if path = [] then root.toText else path) root written)], .ok tree)

/-- The bytes of `application/octet-stream`. -/
def octetStream : Bytes := "application/octet-stream".toUTF8.toList

/-- The bytes of `application/x-directory`. -/
def xDirectory : Bytes := "application/x-directory".toUTF8.toList

/-- The names of fields for files and directories (http/src/v0/root_files/add.rs:149-154, 243-248). -/
def fieldOk (kind name : Bytes) : Bool := name == kind || (kind ++ [45]).isPrefixOf name

/-- One part (http/src/v0/root_files/add.rs:127-265). -/
def addPart (sha : Bytes → Bytes) (put : Block → Bool) (args : AddArgs) (tree : Builder) (p : FormPart) :
    List AddEvent × Except AddErr Builder :=
  match p.name, p.filename with
  | none, _ => ([], .error .header)
  | some _, none => ([], .error .header)
  | some name, some raw =>
    match addPath raw with
    | .error e => ([], .error e)
    | .ok path =>
      match p.contentType with
      | none => ([], .error .header)
      | some ct =>
        if ct = octetStream then
          if fieldOk "file".toUTF8.toList name then addFilePart sha put args tree path p
          else ([], .error .unsupportedField)
        else if ct = xDirectory then
          if fieldOk "dir".toUTF8.toList name then
            if p.broken then ([], .error .parsing)
            else
              match tree.setMetadata path {} with
              | (_, .error e) => ([], .error (.treeGathering e))
              | (tree, .ok ()) => ([], .ok tree)
          else ([], .error .unsupportedField)
        else ([], .error .unsupportedContentType)

/-- All parts (http/src/v0/root_files/add.rs:122-266); `broken`: after the last part reading fails. -/
def addParts (sha : Bytes → Bytes) (put : Block → Bool) (args : AddArgs) (broken : Bool) :
    Builder → List FormPart → List AddEvent × Except AddErr Builder
  | tree, [] => ([], if broken then .error .parsing else .ok tree)
  | tree, p :: ps =>
    match addPart sha put args tree p with
    | (ev, .error e) => (ev, .error e)
    | (ev, .ok tree) =>
      match addParts sha put args broken tree ps with
      | (ev', r) => (ev ++ ev', r)

/-- The directories (http/src/v0/root_files/add.rs:268-285), given what the iterator gives. -/
def addDirs (put : Block → Bool) : List TreeNode → BuildEnd → List AddEvent × Except AddErr Unit
  | [], .done => ([], .ok ())
  | [], .failed e => ([], .error (.treeBuilding e))
  | n :: ns, e =>
    if put (n.cid, n.block) then
      let r := addDirs put ns e
      (.put n.cid n.block :: .line (.added n.path n.cid n.total) :: r.1, r.2)
    else ([], .error .persisting)

/-- The options of the tree (http/src/v0/root_files/add.rs:114-119). -/
def AddArgs.tree (args : AddArgs) : TreeOpts := { wrapWithDirectory := args.wrap, debug := args.debug }

/-- `add_stream` (http/src/v0/root_files/add.rs:103-287). -/
def addStream (sha : Bytes → Bytes) (put : Block → Bool) (args : AddArgs) (parts : List FormPart)
    (broken : Bool) : List AddEvent × Except AddErr Unit :=
  match addParts sha put args broken (Builder.new args.tree) parts with
  | (ev, .error e) => (ev, .error e)
  | (ev, .ok tree) =>
    match tree.build.run sha with
    | (nodes, e) =>
      match addDirs put nodes e with
      | (ev', r) => (ev ++ ev', r)

end Verif.Http
