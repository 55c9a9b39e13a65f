import Verif.Base.CidText

/-!
# The format of references

Model of `http/src/v0/refs/format.rs`. Texts are their UTF-8 bytes: the brackets are ASCII, so they are
never part of another character.
-/

namespace Verif.Http.RefsFormat

open Verif

/-- `FormattedPart` (format.rs:18-24). -/
inductive Part where
  | static (s : Bytes)
  | source
  | destination
  | linkName
deriving DecidableEq, Repr

/-- `FormatError` (format.rs:36-39). -/
inductive FormatErr where
  | unsupported (tag : Bytes)
  | unterminated (index : Nat)
deriving DecidableEq, Repr

/-- `remaining.find('>')`, and what is before and after it (format.rs:130-153). -/
def cutTag : Bytes → Option (Bytes × Bytes)
  | [] => none
  | b :: s =>
    if b = 0x3E then some ([], s)
    else match cutTag s with
      | none => none
      | some (inside, rest) => some (b :: inside, rest)

theorem cutTag_length {s inside rest : Bytes} (h : cutTag s = some (inside, rest)) : rest.length < s.length := by
  induction s generalizing inside with
  | nil => cases h
  | cons b s ih =>
    simp only [cutTag] at h
    split at h
    · simp only [Option.some.injEq, Prod.mk.injEq] at h
      rw [← h.2]; simp
    · split at h
      · cases h
      · rename_i i r hr
        simp only [Option.some.injEq, Prod.mk.injEq] at h
        obtain ⟨rfl, rfl⟩ := h
        have := ih hr
        simp; omega

/-- "src", "dst" and "linkname". -/
def tagSrc : Bytes := [0x73, 0x72, 0x63]
def tagDst : Bytes := [0x64, 0x73, 0x74]
def tagName : Bytes := [0x6C, 0x69, 0x6E, 0x6B, 0x6E, 0x61, 0x6D, 0x65]

/-- The tag (format.rs:141-146). -/
def tagPart (inside : Bytes) : Option Part :=
  if inside = tagSrc then some .source
  else if inside = tagDst then some .destination
  else if inside = tagName then some .linkName
  else none

/-- The text gathered so far, if any (format.rs:126-128, 156-158). -/
def flush (buffer : Bytes) : List Part := if buffer = [] then [] else [.static buffer]

/-- The loop of `parse_format` (format.rs:122-163): what is left, the index of its first character since
the iterator was made, and the buffer. -/
def parseGo (s : Bytes) (index : Nat) (buffer : Bytes) : Except FormatErr (List Part) :=
  match s with
  | [] => .ok (flush buffer)
  | b :: s =>
    if b = 0x3C then
      match _h : cutTag s with
      | none => .error (.unterminated index)
      | some (inside, rest) =>
        match tagPart inside with
        | none => .error (.unsupported inside)
        | some p =>
          match parseGo rest 0 [] with
          | .error e => .error e
          | .ok ps => .ok (flush buffer ++ p :: ps)
    else parseGo s (index + 1) (buffer ++ [b])
termination_by s.length
decreasing_by
  · have := cutTag_length _h; simp; omega
  · simp

/-- `parse_format` (format.rs:115-164). -/
def parseFormat (s : Bytes) : Except FormatErr (List Part) := parseGo s 0 []

/-- `EdgeFormatter` (format.rs:7-14). -/
inductive Formatter where
  | destination
  | arrow
  | parts (ps : List Part)
deriving DecidableEq, Repr

/-- `InvalidFormat` (format.rs:27-33). -/
inductive InvalidFormat where
  | edgesWithCustomFormat
  | format (e : FormatErr)
deriving DecidableEq, Repr

/-- `EdgeFormatter::from_options` (format.rs:42-54). -/
def fromOptions (edges : Bool) (format : Option Bytes) : Except InvalidFormat Formatter :=
  if edges && format.isSome then .error .edgesWithCustomFormat
  else if edges then .ok .arrow
  else match format with
    | some s =>
      match parseFormat s with
      | .error e => .error (.format e)
      | .ok ps => .ok (.parts ps)
    | none => .ok .destination

/-- `FormattedPart::format` (format.rs:75-87), what it adds. -/
def Part.render (src dst : Cid) (name : Option Bytes) : Part → Bytes
  | .static s => s
  | .source => src.toText
  | .destination => dst.toText
  | .linkName => name.getD []

/-- `EdgeFormatter::format` (format.rs:58-71). -/
def Formatter.render (f : Formatter) (src dst : Cid) (name : Option Bytes) : Bytes :=
  match f with
  | .destination => dst.toText
  | .arrow => src.toText ++ [0x20, 0x2D, 0x3E, 0x20] ++ dst.toText
  | .parts ps => ps.flatMap (Part.render src dst name)

end Verif.Http.RefsFormat
