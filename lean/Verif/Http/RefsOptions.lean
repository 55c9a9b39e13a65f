import Verif.Base.Decimal

/-!
# The options of the refs endpoint

Model of `http/src/v0/refs/options.rs`.

* The query is given as its list of keys and values, as `url::form_urlencoded::parse` makes it.
* Durations are what `humantime` makes of their text; `dur` stands for it.
-/

namespace Verif.Http.RefsOptions

open Verif

/-- `s.parse::<i64>()`: digits, after an optional sign. -/
def parseI64 (s : Bytes) : Option Int :=
  match s with
  | 45 :: t =>
    if t = [] then none
    else match digitVals t with
      | none => none
      | some ds => if ofDigits 10 ds ≤ 2 ^ 63 then some (-(ofDigits 10 ds : Int)) else none
  | _ =>
    if stripPlus s = [] then none
    else match digitVals (stripPlus s) with
      | none => none
      | some ds => if ofDigits 10 ds < 2 ^ 63 then some (ofDigits 10 ds : Int) else none

/-- `s.parse::<bool>()`. -/
def parseBool (s : Bytes) : Option Bool :=
  if s = [0x74, 0x72, 0x75, 0x65] then some true
  else if s = [0x66, 0x61, 0x6C, 0x73, 0x65] then some false
  else none

/-- `ParseError` (http/src/v0/support/option_parsing.rs:4-14), those used here. -/
inductive OptErr where
  | duplicate (key : Bytes)
  | missingArg
  | number (key value : Bytes)
  | boolean (key value : Bytes)
  | duration
deriving DecidableEq, Repr

/-- The variables of the loop (options.rs:57-63). -/
structure St (D : Type) where
  args : List Bytes := []
  format : Option Bytes := none
  timeout : Option D := none
  edges : Option Bool := none
  unique : Option Bool := none
  recursive : Option Bool := none
  maxDepth : Option Int := none
deriving DecidableEq, Repr

/-- "arg", "format", "timeout", "max-depth", "edges", "unique", "recursive". -/
def kArg : Bytes := [0x61, 0x72, 0x67]
def kFormat : Bytes := [0x66, 0x6F, 0x72, 0x6D, 0x61, 0x74]
def kTimeout : Bytes := [0x74, 0x69, 0x6D, 0x65, 0x6F, 0x75, 0x74]
def kMaxDepth : Bytes := [0x6D, 0x61, 0x78, 0x2D, 0x64, 0x65, 0x70, 0x74, 0x68]
def kEdges : Bytes := [0x65, 0x64, 0x67, 0x65, 0x73]
def kUnique : Bytes := [0x75, 0x6E, 0x69, 0x71, 0x75, 0x65]
def kRecursive : Bytes := [0x72, 0x65, 0x63, 0x75, 0x72, 0x73, 0x69, 0x76, 0x65]

/-- Setting a variable that may be set once (`if x.is_none() { .. } else { return Err(DuplicateField(key)) }`). -/
def setOnce {α : Type} (key : Bytes) (slot : Option α) (value : Except OptErr α) : Except OptErr (Option α) :=
  match slot with
  | some _ => .error (.duplicate key)
  | none => match value with
    | .error e => .error e
    | .ok x => .ok (some x)

/-- `None` as an error. -/
def orErr {α : Type} (e : OptErr) : Option α → Except OptErr α
  | none => .error e
  | some x => .ok x

/-- An iteration of the loop (options.rs:65-124). -/
def step {D : Type} (dur : Bytes → Option D) (st : St D) (kv : Bytes × Bytes) : Except OptErr (St D) :=
  if kv.1 = kArg then .ok { st with args := st.args ++ [kv.2] }
  else if kv.1 = kFormat then
    match setOnce kv.1 st.format (.ok kv.2) with
    | .error e => .error e
    | .ok x => .ok { st with format := x }
  else if kv.1 = kTimeout then
    match setOnce kv.1 st.timeout (orErr .duration (dur kv.2)) with
    | .error e => .error e
    | .ok x => .ok { st with timeout := x }
  else if kv.1 = kMaxDepth then
    match setOnce kv.1 st.maxDepth (orErr (.number kv.1 kv.2) (parseI64 kv.2)) with
    | .error e => .error e
    | .ok x => .ok { st with maxDepth := x }
  else if kv.1 = kEdges then
    match setOnce kv.1 st.edges (orErr (.boolean kv.1 kv.2) (parseBool kv.2)) with
    | .error e => .error e
    | .ok x => .ok { st with edges := x }
  else if kv.1 = kUnique then
    match setOnce kv.1 st.unique (orErr (.boolean kv.1 kv.2) (parseBool kv.2)) with
    | .error e => .error e
    | .ok x => .ok { st with unique := x }
  else if kv.1 = kRecursive then
    match setOnce kv.1 st.recursive (orErr (.boolean kv.1 kv.2) (parseBool kv.2)) with
    | .error e => .error e
    | .ok x => .ok { st with recursive := x }
  else .ok st

/-- The loop. -/
def fold {D : Type} (dur : Bytes → Option D) (st : St D) : List (Bytes × Bytes) → Except OptErr (St D)
  | [] => .ok st
  | kv :: l =>
    match step dur st kv with
    | .error e => .error e
    | .ok st => fold dur st l

/-- `RefsOptions` (options.rs:4-27). -/
structure RefsOptions (D : Type) where
  arg : List Bytes
  format : Option Bytes
  edges : Bool
  unique : Bool
  recursive : Bool
  maxDepth : Option Int
  timeout : Option D
deriving DecidableEq, Repr

/-- `TryFrom<&str> for RefsOptions` (options.rs:43-141). -/
def parse {D : Type} (dur : Bytes → Option D) (q : List (Bytes × Bytes)) : Except OptErr (RefsOptions D) :=
  match fold dur {} q with
  | .error e => .error e
  | .ok st =>
    if st.args = [] then .error .missingArg
    else .ok { arg := st.args, format := st.format, edges := st.edges.getD false, unique := st.unique.getD false,
               recursive := st.recursive.getD false, maxDepth := st.maxDepth, timeout := st.timeout }

/-- `RefsOptions::max_depth` (options.rs:30-41). -/
def RefsOptions.depth {D : Type} (o : RefsOptions D) : Option Nat :=
  if o.recursive then
    match o.maxDepth with
    | some x => if 0 ≤ x then some x.toNat else none
    | none => none
  else some 1

end Verif.Http.RefsOptions
