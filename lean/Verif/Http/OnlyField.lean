import Verif.Base.Bytes

/-!
# Reading the only value of a form

Model of `http/src/v0/support/body.rs`, used by `block/put`, `dag/put` and `pubsub/pub`. The parser of the
form (`mpart_async`) is not represented: a form is the sequence of its fields as the parser gives them, a
field being its name, if that can be parsed, and its chunks. The parser may fail before any field and within
any.
-/

namespace Verif.Http

open Verif

/-- A field of a form; a chunk that is missing is a failure of the parser. -/
structure FormField where
  name : Option Bytes
  chunks : List (Option Bytes)
deriving DecidableEq, Repr

/-- `OnlyMultipartFailure` (http/src/v0/support/body.rs:6-14). -/
inductive OnlyErr where
  | unparseableFieldName
  | multipleValues
  | tooLargeValue
  | notFound
  | zeroRead
  | io
deriving DecidableEq, Repr

/-- The inner loop (body.rs:88-110): the target after the field. -/
def readField (limit : Nat) : Option Bytes → List (Option Bytes) → Except OnlyErr (Option Bytes)
  | target, [] => .ok target
  | _, none :: _ => .error .io
  | some t, some b :: rest =>
    if t.length + b.length > limit then .error .tooLargeValue else readField limit (some (t ++ b)) rest
  | none, some b :: rest => if b.isEmpty then .error .zeroRead else readField limit none rest

/-- The outer loop (body.rs:64-111) with its two variables. -/
def onlyLoop (allowed : List Bytes) (limit : Nat) : Bytes → Bool → List (Option FormField) → Except OnlyErr Bytes
  | buffer, matched, [] => if matched then .ok buffer else .error .notFound
  | _, _, none :: _ => .error .io
  | buffer, matched, some f :: rest =>
    match f.name with
    | none => .error .unparseableFieldName
    | some name =>
      let target := if allowed.contains name then some buffer else none
      if matched then .error .multipleValues
      else match readField limit target f.chunks with
        | .error e => .error e
        | .ok none => onlyLoop allowed limit buffer false rest
        | .ok (some b) => onlyLoop allowed limit b true rest

/-- `try_only_named_multipart` (body.rs:46-118). -/
def onlyNamed (allowed : List Bytes) (limit : Nat) (form : List (Option FormField)) : Except OnlyErr Bytes :=
  onlyLoop allowed limit [] false form

end Verif.Http
