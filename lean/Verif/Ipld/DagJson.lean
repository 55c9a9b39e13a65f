import Verif.Base.Base64
import Verif.Base.Json
import Verif.Ipld.Ipld

/-!
# dag-json

Model of `src/ipld/dag_json.rs`. How a finite `f64` is written (`ryu`) and how the text of a number becomes an
`f64` (serde_json, without the feature `float_roundtrip`) are parameters.
-/

namespace Verif.Ipld

open Verif

/-- Floats and their texts. -/
structure Floats where
  /-- how `ryu` writes a finite float -/
  text : UInt64 → JNum
  /-- what a number is read as, `none` if it is out of range -/
  value : JNum → Option UInt64

/-- Neither infinite nor not a number. -/
def isFinite (bits : UInt64) : Bool := bits.toNat / 2 ^ 52 % 2 ^ 11 ≠ 2047

/-- `LINK_KEY` (dag_json.rs:28). -/
def linkKey : Bytes := [47]

mutual
/-- `serialize` (dag_json.rs:42-70). `serialize_f64` writes null for what is not finite, `serialize_bytes` writes
a list of numbers. -/
def toJson (f : Floats) : Ipld → Json
  | .null => .null
  | .bool b => .bool b
  | .int i => .num (JNum.ofInt i)
  | .float x => if isFinite x then .num (f.text x) else .null
  | .str s => .str s
  | .bytes b => .arr (b.map (fun c => .num (JNum.ofInt c.toNat)))
  | .list l => .arr (toJsonList f l)
  | .map m => .obj (toJsonMap f m)
  | .link c => .obj [(linkKey, .str (base64 c.toBytes))]

def toJsonList (f : Floats) : List Ipld → List Json
  | [] => []
  | x :: l => toJson f x :: toJsonList f l

def toJsonMap (f : Floats) : List (Bytes × Ipld) → List (Bytes × Json)
  | [] => []
  | (k, x) :: m => (k, toJson f x) :: toJsonMap f m
end

/-- `json_encode` (dag_json.rs:30-35). -/
def jsonEncode (f : Floats) (d : Ipld) : Bytes := (toJson f d).write

/-- The end of `visit_map` (dag_json.rs:195-211): a link, or a map in which the last of equal keys counts. -/
def finishMap : List (Bytes × Ipld) → Option Ipld
  | [(k, .str v)] =>
    if k = linkKey then
      match unbase64 v with
      | none => none
      | some bs =>
        match Cid.ofBytes bs with
        | some c => some (.link c)
        | none => none
    else some (.map [(k, .str v)])
  | es => some (.map (es.foldl (fun m e => BMap.insert m e.1 e.2) []))

mutual
/-- `JSONVisitor` (dag_json.rs:91-222). -/
def fromJson (f : Floats) : Json → Option Ipld
  | .null => some .null
  | .bool b => some (.bool b)
  | .num n =>
    match n.intValue with
    | some i => some (.int i)
    | none =>
      match f.value n with
      | some x => some (.float x)
      | none => none
  | .str s => some (.str s)
  | .arr l =>
    match fromJsonList f l with
    | some xs => some (.list xs)
    | none => none
  | .obj m =>
    match fromJsonMap f m with
    | some es => finishMap es
    | none => none

def fromJsonList (f : Floats) : List Json → Option (List Ipld)
  | [] => some []
  | j :: l =>
    match fromJson f j, fromJsonList f l with
    | some x, some xs => some (x :: xs)
    | _, _ => none

def fromJsonMap (f : Floats) : List (Bytes × Json) → Option (List (Bytes × Ipld))
  | [] => some []
  | (k, j) :: m =>
    match fromJson f j, fromJsonMap f m with
    | some x, some es => some ((k, x) :: es)
    | _, _ => none
end

/-- `json_decode` (dag_json.rs:37-40): what follows the value is not looked at. -/
def jsonDecode (f : Floats) (s : Bytes) : Option Ipld :=
  match readJson s with
  | some (j, _) => fromJson f j
  | none => none

end Verif.Ipld
