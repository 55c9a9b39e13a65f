import Verif.Props.Add
import Verif.Props.Addr
import Verif.Props.Dial
import Verif.Props.Ipns
import Verif.Props.Listen
import Verif.Props.RefsFormat
import Verif.Props.RefsOptions
import Verif.Props.Tar

/-!
# More decisions that the other theorems leave open

Texts, refusals and fields that nothing in the code reads back.
-/

namespace Verif.Props

open Verif Verif.Unixfs Verif.Http Verif.Http.RefsFormat Verif.Http.RefsOptions Verif.Ipfs Verif.Net

/-! ### Texts -/

/-- **C46**: the texts of the errors given to futures. -/
theorem C46_texts : sAnother = "finished connecting to another address".toUTF8.toList ∧
    sReset = "Connection reset by peer".toUTF8.toList := by decide +kernel

/-- **C49**: the texts around a peer. -/
theorem C49_texts : sP2p = "/p2p/".toUTF8.toList ∧ sCircuit = "/p2p-circuit".toUTF8.toList := by decide +kernel

/-- **C51**: the tags. -/
theorem C51_tags : tagSrc = "src".toUTF8.toList ∧ tagDst = "dst".toUTF8.toList ∧
    tagName = "linkname".toUTF8.toList := by decide +kernel

/-- **C51**: what the formats without parts render. -/
theorem C51_rendered (src dst : Cid) (name : Option Bytes) :
    Formatter.arrow.render src dst name = src.toText ++ " -> ".toUTF8.toList ++ dst.toText ∧
    Formatter.destination.render src dst name = dst.toText := by
  have h : " -> ".toUTF8.toList = [0x20, 0x2D, 0x3E, 0x20] := by decide +kernel
  rw [h]
  exact ⟨rfl, rfl⟩

/-- **C53**: the texts in headers. -/
theorem C53_texts : gnuMagic = "ustar  ".toUTF8.toList ++ [0] ∧ longLink = "././@LongLink".toUTF8.toList := by
  decide +kernel

/-- **C54**: the types of parts. -/
theorem C54_types : octetStream = "application/octet-stream".toUTF8.toList ∧
    xDirectory = "application/x-directory".toUTF8.toList := ⟨rfl, rfl⟩

/-- **C52**: the names of the options. -/
theorem C52_names : kArg = "arg".toUTF8.toList ∧ kFormat = "format".toUTF8.toList ∧ kTimeout = "timeout".toUTF8.toList ∧
    kMaxDepth = "max-depth".toUTF8.toList ∧ kEdges = "edges".toUTF8.toList ∧ kUnique = "unique".toUTF8.toList ∧
    kRecursive = "recursive".toUTF8.toList := by decide +kernel

/-- **C55**: the texts of records. -/
theorem C55_texts : sDnslinkEq = "dnslink=".toUTF8.toList ∧ sDnslinkDot = "_dnslink.".toUTF8.toList := by decide +kernel

/-! ### Listening requests -/

/-- **C50**: a request for an unspecified ip is refused exactly while another request waits for its answer; any other
is refused when the address is already there or cannot be listened on, and otherwise waits. Refusals change nothing. -/
theorem C50_start (s : ListenState) (addr : Maddr) (ch : Nat) (res : Option Nat) :
    (startsUnspecified addr = true ∧ (∃ e ∈ s.map, e.2.pending ≠ none) → startAdd s addr (some ch) res = (s, [.answer ch .unspecifiedBusy])) ∧
    (¬ (startsUnspecified addr = true ∧ ∃ e ∈ s.map, e.2.pending ≠ none) →
      ((AMap.get s.map addr).isSome → startAdd s addr (some ch) res = (s, [.answer ch .alreadyAdding])) ∧
      (AMap.get s.map addr = none → res = none → startAdd s addr (some ch) res = (s, [.answer ch .listenFailed])) ∧
      (∀ id, AMap.get s.map addr = none → res = some id → ∃ s', startAdd s addr (some ch) res = (s', []) ∧
        (∀ a, AMap.get s'.map a = if a = addr then some ⟨id, some ch⟩ else AMap.get s.map a) ∧ s'.alive = id :: s.alive)) := by
  have hb : (startsUnspecified addr && decide ((s.map.filter (fun e => e.2.pending.isSome)).length > 0)) = true ↔
      startsUnspecified addr = true ∧ ∃ e ∈ s.map, e.2.pending ≠ none := by
    rw [Bool.and_eq_true, decide_eq_true_iff, gt_iff_lt, List.length_pos_iff_exists_mem]
    simp only [List.mem_filter, Option.isSome_iff_ne_none]
  constructor
  · intro h
    unfold startAdd
    rw [if_pos (hb.mpr h)]
    rfl
  · intro h
    unfold startAdd
    rw [if_neg (fun hx => h (hb.mp hx))]
    refine ⟨fun hs => ?_, fun hn hr => ?_, fun id hn hr => ?_⟩
    · obtain ⟨e, he⟩ := Option.isSome_iff_exists.mp hs
      rw [he]; rfl
    · rw [hn, hr]; rfl
    · rw [hn, hr]
      refine ⟨_, rfl, fun a => ?_, rfl⟩
      rw [AMap.get_set]

example : ∃ s : ListenState, ∃ addr, startsUnspecified addr = true ∧ (∃ e ∈ s.map, e.2.pending ≠ none) :=
  ⟨⟨[([.ip4 0 0 0 0, .tcp 1], ⟨0, some 3⟩)], []⟩, [.ip4 0 0 0 0, .tcp 0], rfl, _, List.mem_cons_self, by simp⟩

/-! ### Names in forms -/

/-- **C54**: the digits of an escape, in both cases. -/
theorem C54_digits (c : UInt8) :
    hexVal c = ("0123456789abcdef".toUTF8.toList.idxOf? c).or ("0123456789ABCDEF".toUTF8.toList.idxOf? c) := by
  have h : ∀ n < 256, hexVal (UInt8.ofNat n) =
      ("0123456789abcdef".toUTF8.toList.idxOf? (UInt8.ofNat n)).or ("0123456789ABCDEF".toUTF8.toList.idxOf? (UInt8.ofNat n)) := by
    decide +kernel
  have := h c.toNat c.toNat_lt
  rwa [UInt8.ofNat_toNat] at this

/-- How a name is read: an escape stands for a byte, and everything else for itself. -/
inductive Unescaped : Bytes → Bytes → Prop
  | nil : Unescaped [] []
  | escape {a b : UInt8} {x y : Nat} {s t : Bytes} : hexVal a = some x → hexVal b = some y → Unescaped s t →
      Unescaped (37 :: a :: b :: s) (UInt8.ofNat (16 * x + y) :: t)
  | plain {c : UInt8} {s t : Bytes} : (c = 37 → ∀ a b r, s = a :: b :: r → hexVal a = none ∨ hexVal b = none) → Unescaped s t →
      Unescaped (c :: s) (c :: t)

/-- **C54**: names are read in this way and no other. -/
theorem C54_unescaped (s t : Bytes) : percentDecode s = t ↔ Unescaped s t := by
  have key : ∀ s, Unescaped s (percentDecode s) := by
    intro s
    induction s using percentDecode.induct with
    | case1 => exact .nil
    | case2 a b s x y hx hy ih => rw [percentDecode, ‹hexVal a = _›, ‹hexVal b = _›]; exact .escape ‹_› ‹_› ih
    | case3 a b s hn ih =>
      have : percentDecode (37 :: a :: b :: s) = 37 :: percentDecode (a :: b :: s) := by
        rw [percentDecode]
        split
        · rename_i x y hx hy; exact absurd hy (hn x y hx)
        · rfl
      rw [this]
      refine .plain (fun _ a' b' r hr => ?_) ih
      cases hr
      cases ha : hexVal a with
      | none => exact Or.inl rfl
      | some x =>
        cases hb : hexVal b with
        | none => exact Or.inr rfl
        | some y => exact absurd hb (hn x y ha)
    | case4 c s hn ih =>
      have : percentDecode (c :: s) = c :: percentDecode s := by
        rw [percentDecode]
        exact hn
      rw [this]
      refine .plain (fun hc a b r hr => ?_) ih
      exact absurd hr (hn a b r hc)
  constructor
  · rintro rfl; exact key s
  · intro h
    induction h with
    | nil => rfl
    | escape hx hy _ ih => rw [percentDecode, hx, hy]; simp only; rw [ih]
    | @plain c s t hn _ ih =>
      unfold percentDecode
      split
      · contradiction
      · rename_i a b r heq
        injection heq with h1 h2
        have := hn h1 a b r h2
        split
        · rename_i x y hx hy
          rcases this with h | h <;> simp_all
        · rw [← h2, ih, h1]
      · rename_i c' s' _ heq
        injection heq with h1 h2
        rw [← h1, ← h2, ih]

example : Unescaped "a%2fb%zz%4".toUTF8.toList "a/b%zz%4".toUTF8.toList := by
  rw [← C54_unescaped]; decide +kernel

/-! ### Directories that cannot be stored -/

/-- **C54**: the directories are stored and reported one by one up to the first that is refused; then the answer ends
with that error, and otherwise as the building of the tree ends. -/
theorem C54_directories (put : Block → Bool) (nodes : List TreeNode) (e : BuildEnd) :
    (addDirs put nodes e).1 = (nodes.takeWhile (fun n => put (n.cid, n.block))).flatMap
      (fun n => [.put n.cid n.block, .line (.added n.path n.cid n.total)]) ∧
    ((∃ n ∈ nodes, put (n.cid, n.block) = false) → (addDirs put nodes e).2 = .error .persisting) ∧
    ((∀ n ∈ nodes, put (n.cid, n.block) = true) → (addDirs put nodes e).2 = match e with
      | .done => .ok ()
      | .failed e => .error (.treeBuilding e)) := by
  induction nodes with
  | nil => cases e <;> simp [addDirs]
  | cons n ns ih =>
    obtain ⟨h1, h2, h3⟩ := ih
    cases hp : put (n.cid, n.block) with
    | false => simp [addDirs, hp]
    | true =>
      refine ⟨by simp [addDirs, hp, h1], ?_, ?_⟩
      · rintro ⟨m, hm, hf⟩
        rcases List.mem_cons.mp hm with rfl | hm
        · rw [hp] at hf; cases hf
        · simpa [addDirs, hp] using h2 ⟨m, hm, hf⟩
      · intro h
        simpa [addDirs, hp] using h3 (fun m hm => h m (List.mem_cons_of_mem _ hm))

example : (addDirs (fun b => b.2 ≠ [2]) [⟨[97], Cid.v0 [1], 3, [1]⟩, ⟨[], Cid.v0 [2], 5, [2]⟩] .done) =
    ([.put (Cid.v0 [1]) [1], .line (.added [97] (Cid.v0 [1]) 3)], .error .persisting) := by decide

/-! ### Headers -/

/-- **C53**: before anything is written all fields are zero, besides the owner, the group and the time, which are zeros
in octal. -/
theorem C53_fresh (n : Nat) : (TarHelper.withCapacity n).header.toBytes =
    List.replicate 108 0 ++ ("0000000".toUTF8.toList ++ [0] ++ "0000000".toUTF8.toList ++ [0]) ++ List.replicate 12 0 ++
    ("00000000000".toUTF8.toList ++ [0]) ++ List.replicate 109 0 ++ ("ustar  ".toUTF8.toList ++ [0]) ++ List.replicate 247 0 := by
  show newHeader.toBytes = _
  decide +kernel

/-- **C53**: the header for long names: its name, its mode, and the same owner, group and time. -/
theorem C53_fresh_long (n : Nat) : (TarHelper.withCapacity n).longHeader.toBytes =
    "././@LongLink".toUTF8.toList ++ List.replicate 87 0 ++ ("0000644".toUTF8.toList ++ [0]) ++
    ("0000000".toUTF8.toList ++ [0] ++ "0000000".toUTF8.toList ++ [0]) ++ List.replicate 12 0 ++
    ("00000000000".toUTF8.toList ++ [0]) ++ List.replicate 109 0 ++ ("ustar  ".toUTF8.toList ++ [0]) ++ List.replicate 247 0 := by
  show newLongHeader.toBytes = _
  decide +kernel


/-- **C53**: a number fits its field, of eight or of twelve bytes: in octal, or in binary when it is large. -/
theorem C53_numbers {b : Bytes} (v : Nat) :
    (NumField 7 b → v < 2 ^ 56 → fieldValue (numericInto b v) = some v) ∧
    (NumField 11 b → v < 2 ^ 64 → fieldValue (numericInto b v) = some v) := by
  constructor
  · intro h hv
    unfold numericInto
    by_cases hc : v ≥ 2 ^ 21
    · rw [if_pos (Or.inr ⟨hc, h.length⟩), h.length]
      have h0 : v / 256 ^ 7 = 0 := Nat.div_eq_of_lt hv
      simp only [be64, List.range, List.range.loop, List.map_cons, List.map_nil, Nat.sub_self, List.replicate_zero, List.nil_append,
        fieldValue, Nat.sub_zero, h0, List.headD_cons, List.length_cons, List.length_nil]
      rw [if_pos (by decide)]
      simp only [List.foldl_cons, List.foldl_nil, UInt8.toNat_ofNat']
      rw [show (UInt8.ofNat 0 ||| 128).toNat = 128 by decide]
      congr 1
      omega
    · rw [if_neg, h.octal]
      · exact octal_read (Nat.lt_of_lt_of_le (Nat.lt_of_not_ge hc) (by decide))
      · rintro (h1 | h1)
        · exact hc (Nat.le_trans (by decide) h1)
        · exact hc h1.1
  · intro h hv
    unfold numericInto
    by_cases hc : v ≥ 2 ^ 33
    · rw [if_pos (Or.inl hc), h.length]
      simp only [be64, List.range, List.range.loop, List.map_cons, List.map_nil, show 11 + 1 - 8 = 4 from rfl, List.replicate_succ,
        List.replicate_zero, List.cons_append, List.nil_append, fieldValue, Nat.sub_zero, List.headD_cons, List.length_cons, List.length_nil]
      rw [if_pos (by decide)]
      simp only [List.foldl_cons, List.foldl_nil, UInt8.toNat_ofNat']
      rw [show ((0 : UInt8) ||| 128).toNat = 128 by decide, show (0 : UInt8).toNat = 0 from rfl]
      congr 1
      omega
    · rw [if_neg, h.octal]
      · exact octal_read (Nat.lt_of_lt_of_le (Nat.lt_of_not_ge hc) (by decide))
      · rintro (h1 | h1)
        · exact hc h1
        · rw [h.length] at h1; exact absurd h1.2 (by decide)

example : fieldValue (numericInto (List.replicate 12 0) (2 ^ 40 + 5)) = some (2 ^ 40 + 5) ∧
    fieldValue (numericInto (List.replicate 8 0) (2 ^ 21)) = some (2 ^ 21) := by decide +kernel

theorem pieces_single (a b : Bool) {cs : List Http.Comp} (h : Http.Comp.curDir ∉ cs) : ∀ n, pathPieces false a n cs = pathPieces false b n cs := by
  induction cs with
  | nil => intro n; rfl
  | cons c cs ih =>
    intro n
    have ih := ih (fun hx => h (List.mem_cons_of_mem _ hx))
    cases c with
    | curDir => exact absurd List.mem_cons_self h
    | _ => simp [pathPieces, ih (n || _)]

/-- **C53**: a path that starts with "./" is written as without it; "." alone is kept. -/
theorem C53_dot {slot p s : Bytes} {ss : List Bytes} (h : splitSlash p = s :: ss) (h0 : s ≠ []) (h1 : s ≠ [46]) :
    copyPathInto slot (46 :: 47 :: p) false = copyPathInto slot p false ∧
    copyPathInto (0 :: 0 :: slot) [46] false = (46 :: 0 :: slot, true) := by
  constructor
  · have hs : splitSlash (46 :: 47 :: p) = [46] :: splitSlash p := splitSlash_append' [46] p
    have hc : components (46 :: 47 :: p) = .curDir :: components p := by
      rw [components_relative h h0 h1]
      unfold components
      rw [hs, h]
      simp [isJunk, h0, h1]
    have hn : Http.Comp.curDir ∉ components p := by
      rw [components_relative h h0 h1]
      intro hx
      obtain ⟨x, _, hx⟩ := List.mem_map.mp hx
      unfold Http.Comp.ofSegment at hx
      split at hx <;> cases hx
    have hne : components p ≠ [] := by rw [components_relative h h0 h1]; simp
    have hlen : (components p).length + 1 ≠ 1 := by
      have := List.length_pos_iff.mpr hne
      omega
    have hpne : p ≠ [] := by rintro rfl; rw [splitSlash] at h; cases h; exact h0 rfl
    have hlast : (46 :: 47 :: p).getLast? = p.getLast? := by
      cases p with
      | nil => exact absurd rfl hpne
      | cons c p => simp [List.getLast?_cons_cons]
    unfold copyPathInto
    simp only [hc, hlast, List.length_cons, pathPieces, hlen, decide_false, Bool.false_eq_true, if_false]
    rw [pieces_single false (decide ((components p).length = 1)) hn]
  · rfl

example : splitSlash "a/b".toUTF8.toList = "a".toUTF8.toList :: ["b".toUTF8.toList] := by decide +kernel

end Verif.Props
