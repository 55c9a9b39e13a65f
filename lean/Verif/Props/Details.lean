import Verif.Props.DagResolve
import Verif.Props.DagPb
import Verif.Props.FsPaths
import Verif.Props.Path
import Verif.Props.RefsOptions
import Verif.Props.Subs
import Verif.Unixfs.PbLemmas
import Verif.Unixfs.Reader

/-!
# Decisions that the round trips and invariants leave open

Names, tables and refusals which no round trip of the code with itself can tell apart. Wrong programs
which all other theorems let pass fail here.
-/

namespace Verif.Props

open Verif Verif.Unixfs Verif.Ipld Verif.Ipfs Verif.Repo.FsPaths Verif.Repo.Subs

/-! ### Names -/

/-- **C28**: the extensions of the files. -/
theorem C28_extensions :
    extData = "data".toUTF8.toList ∧ extRecursive = "recursive".toUTF8.toList ∧
    extDirect = "direct".toUTF8.toList ∧ extTmp = "tmp".toUTF8.toList ∧
    extRecursiveTemp = "recursive_temp".toUTF8.toList := by decide +kernel

/-- **C28**: pushing a relative name appends its parts, leaving out empty ones and ".". -/
theorem C28_push (p : List Bytes) (parts : List Bytes) (hs : ∀ c ∈ parts, ∀ b ∈ c, b ≠ (47 : UInt8)) (hp : parts ≠ [])
    (hr : (joinSlash parts).head? ≠ some 47) :
    push p (joinSlash parts) = p ++ parts.filter (fun c => decide (c ≠ [] ∧ c ≠ ".".toUTF8.toList)) := by
  have hdot : ".".toUTF8.toList = [46] := by decide +kernel
  have : splitSlash (joinSlash parts) = parts := by
    exact splitSlash_join hp hs
  simp only [push, if_neg hr, this, hdot]
  congr 1
  apply List.filter_congr
  intro c _
  by_cases h1 : c = [] <;> by_cases h2 : c = [46] <;> simp [h1, h2]

example : push ["a".toUTF8.toList] "b//./c".toUTF8.toList =
    ["a".toUTF8.toList, "b".toUTF8.toList, "c".toUTF8.toList] := by decide +kernel

/-- **C18**: the names of the roots. -/
theorem C18_names :
    sIpfs = "ipfs".toUTF8.toList ∧ sIpld = "ipld".toUTF8.toList ∧ sIpns = "ipns".toUTF8.toList := by
  decide +kernel

/-- **C23**: the names of the fields. -/
theorem C23_names :
    kLinks = "Links".toUTF8.toList ∧ kData = "Data".toUTF8.toList ∧ kHash = "Hash".toUTF8.toList ∧
    kName = "Name".toUTF8.toList ∧ kTsize = "Tsize".toUTF8.toList := by decide +kernel

/-! ### Cids -/

/-- The codecs of the `cid` crate, version 0.5. -/
def codecTable : List (String × Nat) :=
  [("raw", 0x55), ("dag-pb", 0x70), ("dag-cbor", 0x71), ("git-raw", 0x78), ("eth-block", 0x90),
   ("eth-block-list", 0x91), ("eth-tx-trie", 0x92), ("eth-tx", 0x93), ("eth-tx-receipt-trie", 0x94),
   ("eth-tx-receipt", 0x95), ("eth-state-trie", 0x96), ("eth-account-snapshot", 0x97),
   ("eth-storage-trie", 0x98), ("bitcoin-block", 0xb0), ("bitcoin-tx", 0xb1), ("zcash-block", 0xc0),
   ("zcash-tx", 0xc1), ("dag-json", 0x0129)]

/-- **C18**: the cids of version 1 that are accepted are those of a codec of the table. -/
theorem C18_codecs (c : Nat) : knownCodec c = true ↔ ∃ name, (name, c) ∈ codecTable := by
  simp [knownCodec, codecTable, exists_or]

/-- **C18**: the text of a cid starts after the first "/ipfs/", if there is one. -/
theorem C18_after_ipfs (s r : Bytes) : (afterIpfs s = some r) ↔
    ∃ pre, s = pre ++ "/ipfs/".toUTF8.toList ++ r ∧
      ∀ pre' r', s = pre' ++ "/ipfs/".toUTF8.toList ++ r' → pre.length ≤ pre'.length := by
  have hp : "/ipfs/".toUTF8.toList = [47, 105, 112, 102, 115, 47] := by decide +kernel
  rw [hp]
  induction s with
  | nil => simp [afterIpfs]
  | cons c s ih =>
    unfold afterIpfs
    split
    · rename_i h
      have h6 : (c :: s) = [47, 105, 112, 102, 115, 47] ++ (c :: s).drop 6 := by
        conv => lhs; rw [← List.take_append_drop 6 (c :: s), h]
      constructor
      · intro hr
        simp only [Option.some.injEq] at hr
        refine ⟨[], ?_, by simp⟩
        rw [h6, ← hr]
        rfl
      · rintro ⟨pre, h1, h2⟩
        have h0 := h2 [] (s.drop 5) (by rw [h6]; rfl)
        have hpre : pre = [] := List.length_eq_zero_iff.mp (by simpa using h0)
        subst hpre
        simp only [List.nil_append, Option.some.injEq] at h1 ⊢
        have := congrArg (List.drop 6) h1
        simpa using this
    · rename_i h
      refine ih.trans ?_
      constructor
      · rintro ⟨pre, h1, h2⟩
        refine ⟨c :: pre, by rw [h1]; rfl, ?_⟩
        intro pre' r' he
        cases pre' with
        | nil =>
          exfalso; apply h
          rw [he]; rfl
        | cons d pre' =>
          simp only [List.cons_append, List.cons.injEq] at he
          have := h2 pre' r' he.2
          simpa using this
      · rintro ⟨pre, h1, h2⟩
        cases pre with
        | nil =>
          exfalso; apply h
          rw [h1]; rfl
        | cons d pre =>
          simp only [List.cons_append, List.cons.injEq] at h1
          obtain ⟨rfl, h1⟩ := h1
          refine ⟨pre, h1, ?_⟩
          intro pre' r' he
          have := h2 (c :: pre') r' (by rw [he]; rfl)
          simpa using this

example : afterIpfs "x/ipfs/Qm".toUTF8.toList = some "Qm".toUTF8.toList := by decide +kernel

/-! ### Numbers -/

/-- **C20**: an index is a sequence of digits, after a plus sign or not, of a value below 2^64. -/
theorem C20_index (s : Bytes) (n : Nat) : parseU64 s = some n ↔
    ∃ ds : List Nat, ds ≠ [] ∧ (∀ d ∈ ds, d < 10) ∧ n = ds.foldl (fun a d => 10 * a + d) 0 ∧ n < 2 ^ 64 ∧
      (s = ds.map (fun d => UInt8.ofNat (d + 48)) ∨
       s = "+".toUTF8.toList ++ ds.map (fun d => UInt8.ofNat (d + 48))) := by
  have hplus : "+".toUTF8.toList = [43] := by decide +kernel
  have hof : ∀ ds : List Nat, ofDigits 10 ds = ds.foldl (fun a d => 10 * a + d) 0 := by
    intro ds
    simp only [ofDigits]
    first | rfl | (congr 1; funext a d; omega)
  have hfirst : ∀ (ds : List Nat) (t : Bytes), (∀ d ∈ ds, d < 10) →
      ds.map (fun d => UInt8.ofNat (d + 48)) ≠ 43 :: t := by
    intro ds t h he
    cases ds with
    | nil => cases he
    | cons d ds =>
      simp only [List.map_cons, List.cons.injEq] at he
      have h1 := congrArg UInt8.toNat he.1
      have h2 := h d (by simp)
      simp [UInt8.toNat_ofNat'] at h1
      omega
  rw [hplus]
  unfold parseU64
  constructor
  · intro h
    split at h
    · cases h
    · rename_i hne
      split at h
      · cases h
      · rename_i ds hd
        split at h
        · rename_i hlt
          simp only [Option.some.injEq] at h
          obtain ⟨h1, h2⟩ := (digitVals_iff _ _).mp hd
          refine ⟨ds, ?_, h1, by rw [← h, hof], by rw [← h]; exact hlt, ?_⟩
          · rintro rfl; exact hne h2
          · unfold stripPlus at h2
            split at h2
            · right; rw [h2]; rfl
            · left; exact h2
        · cases h
  · rintro ⟨ds, hne, h1, h2, h3, h4⟩
    have hs : stripPlus s = ds.map (fun d => UInt8.ofNat (d + 48)) := by
      rcases h4 with rfl | rfl
      · unfold stripPlus
        split
        · rename_i t ht; exact absurd ht (hfirst ds t h1)
        · rfl
      · rfl
    have hd := (digitVals_iff _ ds).mpr ⟨h1, rfl⟩
    rw [hs, if_neg (by simpa using hne), hd]
    simp only [hof, ← h2, if_pos h3]

example : parseU64 "+12".toUTF8.toList = some 12 ∧ parseU64 ",12".toUTF8.toList = none := by decide +kernel

/-! ### Protobuf -/

/-- **C09**: the fields that are read, by number and wire type (0 varint, 2 bytes, 5 four bytes). -/
theorem C09_fields (t : Nat) :
    (PBNode.known t = true ↔ ∃ f ∈ [(1, 2), (2, 2)], t = 8 * f.1 + f.2) ∧
    (PBLink.known t = true ↔ ∃ f ∈ [(1, 2), (2, 2), (3, 0)], t = 8 * f.1 + f.2) ∧
    (UnixTime.known t = true ↔ ∃ f ∈ [(1, 0), (2, 5)], t = 8 * f.1 + f.2) ∧
    (UnixFs.known t = true ↔
      ∃ f ∈ [(1, 0), (2, 2), (3, 0), (4, 0), (5, 0), (6, 0), (7, 0), (8, 2)], t = 8 * f.1 + f.2) := by
  refine ⟨?_, ?_, ?_, ?_⟩ <;>
    simp [PBNode.known, PBLink.known, UnixTime.known, UnixFs.known, or_assoc]

/-- **C09**: a type is read from the lower 32 bits, and unknown ones are raw. -/
theorem C09_types (n : Nat) : FsType.ofWire n =
    ([FsType.raw, .directory, .file, .metadata, .symlink, .hamtShard][n % 4294967296]?).getD .raw := by
  have h32 : (2 : Nat) ^ 32 = 4294967296 := rfl
  simp only [FsType.ofWire, h32]
  generalize n % 4294967296 = m
  match m with
  | 0 | 1 | 2 | 3 | 4 | 5 => rfl
  | m + 6 => simp

/-- **C09**: the lengths of fields that are read are cut to 32 bits, those of others are not. -/
theorem C09_lengths (known : Nat → Bool) (tag len : Nat) (b r : Bytes) (ht : tag < 2 ^ 32) (hw : tag % 8 = 2)
    (hl : len < 2 ^ 64) (hb : b.length = if known tag then len % 4294967296 else len) :
    readToken known (writeVarint tag ++ writeVarint len ++ b ++ r) = some ((tag, .len b), r) := by
  have h32 : (2 : Nat) ^ 32 = 4294967296 := rfl
  have ht' : tag < 2 ^ 64 := by rw [h32] at ht; have : (2 : Nat) ^ 64 = 18446744073709551616 := rfl; omega
  simp only [readToken, List.append_assoc]
  rw [readVarint_write _ _ ht']
  simp only [Nat.mod_eq_of_lt ht, hw]
  rw [readVarint_write _ _ hl]
  simp only [h32]
  rw [takeExact_append' hb]

/-- A length of 2^32 + 1 is one of a single byte. -/
example : readToken PBNode.known (writeVarint 10 ++ writeVarint 4294967297 ++ [7] ++ []) =
    some ((10, .len [7]), []) :=
  C09_lengths PBNode.known 10 4294967297 [7] [] (by decide) rfl (by decide) rfl

/-- **C23**: a field number with a key of more than 32 bits is refused. -/
theorem C23_large_key (key : Nat) (r : Bytes) (h : 2 ^ 32 ≤ key) (h' : key < 2 ^ 64) :
    Prost.readField (writeVarint key ++ r) = none := by
  unfold Prost.readField
  rw [readVarint_write _ _ h']
  have : ¬ key < 2 ^ 32 := by omega
  simp only [h, if_true]

/-- **C23**: fields 1 and 2 have to be bytes; all others are passed over. -/
theorem C23_wire_types (n : PbNodeMsg) (field : Nat) (v : WireVal) (hv : ∀ b, v ≠ .len b) :
    PbNodeMsg.step n field v = if field = 1 ∨ field = 2 then none else some n := by
  match field, v with
  | 1, .len b | 2, .len b => exact absurd rfl (hv b)
  | 1, .varint _ | 1, .fixed64 _ | 1, .fixed32 _ | 2, .varint _ | 2, .fixed64 _ | 2, .fixed32 _ => rfl
  | 0, _ => rfl
  | m + 3, _ =>
    rw [if_neg (by omega)]
    simp [PbNodeMsg.step]

/-! ### Refused blocks -/

/-- **C15**: a directory is refused if it has anything but links and metadata. -/
theorem C15_refused_directory (b needle : Bytes) (f : Flat) (h : Flat.parse b = .ok f)
    (ht : f.data.type = .directory) :
    dirResolve b needle = .error .unexpectedDirProperties ↔
      f.data.filesize ≠ none ∨ f.data.blocksizes ≠ [] ∨ f.data.hashType ≠ none ∨ f.data.fanout ≠ none ∨
        (f.data.data ≠ none ∧ f.data.data ≠ some []) := by
  have hlinks : ∀ e : ResolveErr, resolveLinks needle f.links = .error e → e ≠ .unexpectedDirProperties := by
    intro e he hc
    subst hc
    simp only [resolveLinks] at he
    repeat' (split at he)
    all_goals first | cases he | skip
  have hsup : dirSupported f.data = false ↔ (f.data.filesize ≠ none ∨ f.data.blocksizes ≠ [] ∨
      f.data.hashType ≠ none ∨ f.data.fanout ≠ none ∨ (f.data.data ≠ none ∧ f.data.data ≠ some [])) := by
    simp only [dirSupported]
    rcases f.data.filesize with _ | x <;> rcases f.data.blocksizes with _ | ⟨y, ys⟩ <;>
      rcases f.data.hashType with _ | z <;> rcases f.data.fanout with _ | w <;>
      rcases f.data.data with _ | d <;> simp
  rw [← hsup]
  simp only [dirResolve, h, ht]
  cases hd : dirSupported f.data with
  | false => simp
  | true =>
    simp only [reduceCtorEq, iff_false]
    intro hc
    exact hlinks _ hc rfl

/-- **C15**: a bucket is used if and only if it has a fanout of 256, the hash murmur3, and neither a size
nor block sizes. -/
theorem C15_refused_bucket (d : UnixFs) : shardSupported d = .ok () ↔
    d.fanout = some 256 ∧ d.hashType = some 34 ∧ d.filesize = none ∧ d.blocksizes = [] := by
  simp only [shardSupported]
  by_cases h1 : d.fanout = some 256 <;> by_cases h2 : d.hashType = some 34 <;>
    rcases d.filesize with _ | x <;> rcases d.blocksizes with _ | ⟨y, ys⟩ <;> simp [h1, h2]

/-- **C08**: a block of a file with a hash function or a fanout is refused. -/
theorem C08_refused (inner : Flat) (offset : Nat) (m : Metadata) (r : FileReader)
    (h : FileReader.fromParts inner offset m = .ok r) :
    inner.data.hashType = none ∧ inner.data.fanout = none ∧ (inner.data.type = .file ∨ inner.data.type = .raw) ∧
      inner.links.length = inner.data.blocksizes.length := by
  unfold FileReader.fromParts at h
  dsimp only at h
  split at h
  · cases h
  · rename_i ht
    split at h
    · cases h
    · rename_i hl
      split at h
      · cases h
      · split at h
        · cases h
        · rename_i hp
          refine ⟨?_, ?_, ?_, ?_⟩
          · cases hh : inner.data.hashType with
            | none => rfl
            | some x => simp [hh] at hp
          · cases hh : inner.data.fanout with
            | none => rfl
            | some x => simp [hh] at hp
          · by_cases h1 : inner.data.type = .file
            · exact .inl h1
            · by_cases h2 : inner.data.type = .raw
              · exact .inr h2
              · exact absurd ⟨h1, h2⟩ ht
          · exact Decidable.of_not_not hl

/-- **C08**: which range may follow: after a block with links, one inside of its range that does not start
before it, or one that starts at its end or later; after a block with content, one that starts at its
end. -/
theorem C08_next (e : Ending) (offset : Nat) (next : Rng) :
    e.check offset next = .ok () ↔
      match e with
      | .treeCoverage stop => offset ≤ next.start ∧ (next.stop ≤ stop ∨ (stop ≤ next.start ∧ offset < next.start))
      | .chunk stop => next.start = stop := by
  cases e with
  | treeCoverage stop =>
    simp only [Ending.check]
    split
    · simp only [reduceCtorEq, false_iff]; omega
    · split
      · simp only [reduceCtorEq, false_iff]; omega
      · split
        · simp only [reduceCtorEq, false_iff]; omega
        · simp only [true_iff]; omega
  | chunk stop =>
    simp only [Ending.check]
    split <;> simp_all

example : (Ending.treeCoverage 10).check 0 ⟨10, 12⟩ = .ok () ∧
    (Ending.treeCoverage 10).check 0 ⟨9, 12⟩ = .error .treeOverlapsBetweenLinks := by decide

example : dirResolve (Flat.write ⟨[], { type := .directory, filesize := some 0 }⟩) [97] =
    .error .unexpectedDirProperties := by decide +kernel

example : FileReader.fromParts ⟨[], { type := .file, data := some [1], filesize := some 1, fanout := some 1 }⟩ 0 {} =
    .error (.file (.unexpectedRawOrFileProperties none (some 1))) := by decide +kernel

/-! ### Errors of getting documents -/

/-- **C20**: getting a document fails as resolving does, or because the document cannot be decoded. -/
theorem C20_get_failure (G : Graph) (fuel : Nat) (c : Cid) (path : List Bytes) (e : DagErr) (hne : ∀ s ∈ path, s ≠ [])
    (h : dagGet G.env G.size G.fetch fuel c path = some (.error e)) :
    dagResolve G.env G.size G.fetch true fuel c path = some (.error e) ∨
    ∃ node rem, dagResolve G.env G.size G.fetch true fuel c path = some (.ok (node, rem)) ∧
      node.toIpld G.env G.size = .error e := by
  simp only [dagGet] at h
  split at h
  · cases h
  · rename_i x h0
    simp only [Option.some.injEq, Except.error.injEq] at h
    left
    simp only [dagResolve, h0, h]
  · rename_i node n h0
    simp only [Option.some.injEq] at h
    right
    obtain ⟨c', mid, pos, last, -, -, -, -, hle, -⟩ := resolve0_follow G hne h0
    refine ⟨node, path.drop n, ?_, h⟩
    simp only [dagResolve, h0, IpfsPath.shifted]
    rw [if_pos (by omega)]

/-- **C20**: the `Data` of a node as it is written, links first, is its data, but the code panics when
there is an empty one. -/
theorem C20_data (n : PBNode) (h : n.WF) :
    wrapNodeData n.write = if n.data = some [] then none else some (n.data.getD []) := by
  have h2 := tokenize_optField (known := PBNode.known) (x := n.data) (f := lenField 10)
    (g := fun b => (10, .len b))
    (fun a ha => tok_lenField (by omega) (by omega) (h.data a ha)) []
  have ht : tokenize PBNode.known n.write = some ((n.links.map (fun l => ((18, WireVal.len l.write) : Token))) ++
      optTok n.data (fun b => (10, .len b))) := by
    simp only [PBNode.write]
    rw [tokenize_links n.links h.links]
    rw [List.append_nil] at h2
    rw [h2]
    simp [tokenize_nil]
  simp only [wrapNodeData, PBNode.parse_write n h, ht]
  cases hd : n.data with
  | none =>
    simp only [optTok, List.append_nil, reduceCtorEq, if_false, Option.getD_none]
    rw [if_neg]
    intro hc
    have := List.mem_of_getLast? hc
    simp at this
  | some d =>
    simp only [optTok, List.getLast?_append, List.getLast?_singleton, Option.some_or, Option.some.injEq,
      Prod.mk.injEq, true_and, WireVal.len.injEq, Option.getD_some]

example : wrapNodeData (PBNode.write ⟨[], some []⟩) = none ∧ wrapNodeData (PBNode.write ⟨[], some [1]⟩) = some [1] := by
  decide +kernel

/-- `a/1/x/y` fails at `x`. -/
example : dagGet exGraph.env exGraph.size exGraph.fetch 3 exCidA [[97], [49], [120], [121]] =
    some (.error (.notFound exCidB [[97], [49], [120]])) := by decide +kernel

/-! ### Waiters -/

section

variable {K R : Type} [DecidableEq K]

/-- **C35**: a waiter that was polled and has to wait is one that will be woken (`C35_finish`). -/
theorem C35_polled (s s' : Reg K R) (i : Nat) (h : s.poll i = some (s', .pending)) :
    ∃ k c, s.futs i = some ⟨k, .live c⟩ ∧ Waits s' k i true := by
  unfold Reg.poll at h
  split at h
  · rename_i k c hf
    refine ⟨k, c, hf, ?_⟩
    split at h
    · simp at h
    · rename_i w n hg
      simp only [Option.some.injEq, Prod.mk.injEq, and_true] at h
      subst h
      exact ⟨n, by simp [AMap.get_set]⟩
    · simp at h
    · simp at h
  · cases h

example : ∃ s : Reg Nat Nat, Reg.run true Reg.init [.create 7 true, .insert 0] = some s ∧
    (s.poll 0).map Prod.snd = some .pending := ⟨_, rfl, by decide⟩

/-- **C36**: for every waiter that is pending when the registry is shut down, the network is told that the
block is not wanted any more, after all it was told before; and for every one that is made afterwards. -/
theorem C36_shutdown (s : Reg K R) (k : K) (i : Nat) (w : Bool) :
    (AMap.get s.taken (k, i) = some (.pending w true) →
      ∃ s', s.shutCancel k i = some s' ∧ s'.unwants = s.unwants ++ [k]) ∧
    (s.shut = true → (s.create k true).unwants = s.unwants ++ [k]) := by
  constructor
  · intro h
    refine ⟨_, by simp only [Reg.shutCancel, h]; rfl, ?_⟩
    simp [Sub.cancelEffect]
  · intro h
    simp [Reg.create, h, Reg.setFut, Sub.cancelEffect]

end

end Verif.Props
