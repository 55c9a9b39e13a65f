import Verif.Props.Addr
import Verif.Props.DagPb
import Verif.Props.DagResolve
import Verif.Props.HostileFile
import Verif.Props.Listen
import Verif.Props.TreeWalk

/-!
# Errors and skipped fields

Why a path cannot be resolved, why a walk fails, the fields that parsers skip, the size of addresses.
-/

namespace Verif.Props

open Verif Verif.Unixfs Verif.Ipld Verif.Ipfs Verif.Prost

/-! ### Why a path cannot be resolved -/

/-- Why the segments left cannot be taken from a place, and the error given for it; `p` is the path in the
error. -/
inductive Why (G : Graph) (p : List Bytes) : Pos → List Bytes → DagErr → Prop where
  /-- the block is not there -/
  | loading {c segs} : G.fetch c = none → Why G p (.doc c) segs (.loading c)
  /-- the block is not a document -/
  | undecodable {c data s segs x} : G.fetch c = some data → c.codec ≠ codecDagPb →
      decodeIpld G.env G.size c data = .error x → Why G p (.doc c) (s :: segs) (.unsupported c)
  /-- the dag-pb block cannot be looked into -/
  | refused {c data s segs x} : G.fetch c = some data → c.codec = codecDagPb → dirResolve data s = .error x →
      x ≠ .unexpectedType .file → Why G p (.doc c) (s :: segs) (.unsupported c)
  /-- a bucket of the sharded directory is missing or cannot be looked into, or none has the name -/
  | bucket {c data s segs q fuel} : G.fetch c = some data → c.codec = codecDagPb → dirResolve data s = .ok (.more q) →
      (∀ dest, feed G.fetch s fuel q ≠ .found dest) → feed G.fetch s fuel q ≠ .running →
      Why G p (.doc c) (s :: segs) (.unsupported c)
  /-- the dag-pb block is a file -/
  | file {c data s segs} : G.fetch c = some data → c.codec = codecDagPb →
      dirResolve data s = .error (.unexpectedType .file) → Why G p (.doc c) (s :: segs) (.notFound c p)
  /-- the dag-pb block has no such link -/
  | unnamed {c data s segs} : G.fetch c = some data → c.codec = codecDagPb → dirResolve data s = .ok .notFound →
      ¬ (s = kData ∧ segs = []) → Why G p (.doc c) (s :: segs) (.notFound c p)
  /-- the map has no such key -/
  | key {c m s segs} : AMap.get m s = none → Why G p (.value c (.map m)) (s :: segs) (.notFound c p)
  /-- the segment is not a number -/
  | word {c l s segs} : parseU64 s = none → Why G p (.value c (.list l)) (s :: segs) (.notFound c p)
  /-- the number is too large -/
  | range {c l s segs i} : parseU64 s = some i → l.length ≤ i →
      Why G p (.value c (.list l)) (s :: segs) (.outOfRange c p i l.length)
  /-- the value has nothing inside -/
  | leaf {c d s segs} : (∀ m, d ≠ .map m) → (∀ l, d ≠ .list l) → (∀ c', d ≠ .link c') →
      Why G p (.value c d) (s :: segs) (.noLinks c p)

/-- The error as it is returned, given the path reported in it. -/
def RawErr.at (p : List Bytes) : RawErr → DagErr
  | .loading c => .loading c
  | .unsupported c => .unsupported c
  | .outOfRange c _ i n => .outOfRange c p i n
  | .invalidIndex c _ => .notFound c p
  | .noLinks c _ => .noLinks c p
  | .notFound c _ => .notFound c p
  | .panic => .panic

/-- The number of the segment in an error, if there is one. -/
def RawErr.AtSegment (k : Nat) : RawErr → Prop
  | .outOfRange _ s _ _ => s = k
  | .invalidIndex _ s => s = k
  | .noLinks _ s => s = k
  | .notFound _ s => s = k
  | _ => True

theorem at_addStart (p : List Bytes) (n : Nat) (e : RawErr) : RawErr.at p (e.addStart n) = RawErr.at p e := by
  cases e <;> rfl

theorem atSegment_addStart {k n : Nat} {e : RawErr} (h : RawErr.AtSegment k e) : RawErr.AtSegment (k + n) (e.addStart n) := by
  cases e <;> simp_all [RawErr.AtSegment, RawErr.addStart]

theorem addStart_panic {n : Nat} {e : RawErr} (h : e.addStart n ≠ .panic) : e ≠ .panic := by
  rintro rfl; exact h rfl

theorem localIpld_why (G : Graph) {doc : Cid} {segs : List Bytes} :
    ∀ {d : Ipld} {n : Nat} {e : RawErr}, localIpld doc d segs n = .error e →
    ∃ d' s rest k, Steps (Inside G) (.value doc d) segs (.value doc d') (s :: rest) ∧
      RawErr.AtSegment k e ∧ k + (s :: rest).length = n + segs.length ∧
      ∀ p, Why G p (.value doc d') (s :: rest) (RawErr.at p e) := by
  induction segs with
  | nil => intro d n e h; cases d <;> simp [localIpld] at h
  | cons s segs ih =>
    intro d n e h
    cases d with
    | link c => simp only [localIpld] at h; split at h <;> cases h
    | map mp =>
      simp only [localIpld] at h
      split at h
      · rename_i hf
        simp only [Except.error.injEq] at h
        subst h
        exact ⟨_, _, _, n, .refl, rfl, rfl, fun p => .key hf⟩
      · rename_i found hf
        obtain ⟨d', s', rest, k, h1, h2, h3, h4⟩ := ih h
        exact ⟨d', s', rest, k, .step (.key hf) h1, h2, by simp at h3 ⊢; omega, h4⟩
    | list l =>
      simp only [localIpld] at h
      split at h
      · rename_i hi
        simp only [Except.error.injEq] at h
        subst h
        exact ⟨_, _, _, n, .refl, rfl, rfl, fun p => .word hi⟩
      · rename_i i hi
        split at h
        · rename_i found hf
          obtain ⟨d', s', rest, k, h1, h2, h3, h4⟩ := ih h
          exact ⟨d', s', rest, k, .step (.index hi hf) h1, h2, by simp at h3 ⊢; omega, h4⟩
        · rename_i hf
          simp only [Except.error.injEq] at h
          subst h
          exact ⟨_, _, _, n, .refl, rfl, rfl, fun p => .range hi (by simpa using hf)⟩
    | _ =>
      simp only [localIpld, Except.error.injEq] at h
      subst h
      exact ⟨_, _, _, n, .refl, rfl, rfl, fun p => .leaf (by intro m hm; cases hm) (by intro l hl; cases hl)
        (by intro c hc; cases hc)⟩

theorem resolveLocal_why (G : Graph) {c : Cid} {data : Bytes} {segs : List Bytes} {e : RawErr}
    (hf : G.fetch c = some data) (h : resolveLocal G.env G.size c data segs = .error e) (hp : e ≠ .panic) :
    ∃ pos s rest k, Steps (Inside G) (.doc c) segs pos (s :: rest) ∧ RawErr.AtSegment k e ∧
      k + (s :: rest).length = segs.length ∧ ∀ p, Why G p pos (s :: rest) (RawErr.at p e) := by
  cases segs with
  | nil => simp [resolveLocal] at h
  | cons s segs =>
    simp only [resolveLocal] at h
    split at h
    · rename_i hc
      split at h
      · rename_i x hl
        simp only [Except.error.injEq] at h
        subst h
        unfold localDagPb at hl
        split at hl
        · cases hl
        · cases hl
        · rename_i hd
          split at hl
          · split at hl
            · simp only [Except.error.injEq] at hl; exact absurd hl.symm hp
            · cases hl
          · rename_i hk
            simp only [Except.error.injEq] at hl
            subst hl
            exact ⟨_, s, segs, 0, .refl, rfl, by simp, fun p => .unnamed hf hc hd (by simpa using hk)⟩
        · rename_i t hd
          split at hl
          · rename_i ht
            simp only [Except.error.injEq] at hl
            subst hl
            subst ht
            exact ⟨_, s, segs, 0, .refl, rfl, by simp, fun p => .file hf hc hd⟩
          · rename_i ht
            simp only [Except.error.injEq] at hl
            subst hl
            exact ⟨_, s, segs, 0, .refl, trivial, by simp,
              fun p => .refused hf hc hd (by intro h; cases h; exact ht rfl)⟩
        · simp only [Except.error.injEq] at hl; exact absurd hl.symm hp
        · rename_i x hn _ hd
          simp only [Except.error.injEq] at hl
          subst hl
          exact ⟨_, s, segs, 0, .refl, trivial, by simp,
            fun p => .refused hf hc hd (by intro h; exact hn _ h)⟩
      · cases h
    · rename_i hc
      split at h
      · rename_i x hd
        simp only [Except.error.injEq] at h
        subst h
        exact ⟨_, s, segs, 0, .refl, trivial, by simp, fun p => .undecodable hf hc hd⟩
      · rename_i d hd
        obtain ⟨d', s', rest, k', h1, h2, h3, h4⟩ := localIpld_why G h
        exact ⟨_, s', rest, k', .step (.enter hf hc hd) h1, h2, by omega, h4⟩

theorem resolve0_why (G : Graph) {fuel : Nat} {follow : Bool} :
    ∀ {c : Cid} {segs : List Bytes} {total : Nat} {e : RawErr}, (∀ s ∈ segs, s ≠ []) →
    resolve0 G.env G.size G.fetch follow fuel c segs total = some (.error e) → e ≠ .panic →
    ∃ pos rest k, Steps (Taking G (Named G.fetch)) (.doc c) segs pos rest ∧ RawErr.AtSegment k e ∧
      (NoShards G → k + rest.length = total + segs.length) ∧ ∀ p, Why G p pos rest (RawErr.at p e) := by
  induction fuel with
  | zero => intro c segs total e _ h; simp [resolve0] at h
  | succ fuel ih =>
    intro c segs total e hne h hp
    simp only [resolve0] at h
    split at h
    · rename_i hf
      simp only [Option.some.injEq, Except.error.injEq] at h
      subst h
      exact ⟨_, _, total, .refl, trivial, fun _ => rfl, fun p => .loading hf⟩
    · rename_i data hf
      split at h
      · rename_i x hl
        simp only [Option.some.injEq, Except.error.injEq] at h
        subst h
        obtain ⟨pos, s, rest, k, h1, h2, h3, h4⟩ := resolveLocal_why G hf hl (addStart_panic hp)
        exact ⟨pos, s :: rest, k + total, h1.inside, atSegment_addStart h2, fun _ => by omega,
          fun p => by rw [at_addStart]; exact h4 p⟩
      · rename_i src dest matched rest hl
        rcases resolveLocal_ok G hf hl with ⟨dest', pos, mid, he, h1, h2, h3, h4⟩ | ⟨node', pos, mid, he, h1, _⟩ | ⟨_, _, he, _⟩
        · cases he
          split at h
          · obtain ⟨pre, hpre⟩ := h1.suffix (fun _ _ _ _ h => h.suffix)
            have hmid := suffix_ne hne hpre
            obtain ⟨pre', hpre'⟩ := h3.suffix
            obtain ⟨pos', rest', k, g1, g2, g3, g4⟩ := ih (suffix_ne hmid hpre') h hp
            exact ⟨pos', rest', k, h1.inside.trans (.step (Or.inr (h3.toNamed hmid)) g1), g2,
              fun hns => by have := g3 hns; omega, g4⟩
          · cases h
        · exact absurd (by simpa using he.symm) (h1 src dest)
        · cases he
      · rename_i src needle q matched rest hl
        rcases resolveLocal_ok G hf hl with ⟨dest', pos, mid, he, _⟩ | ⟨node', pos, mid, he, _⟩ | ⟨needle', q', he, rfl, rfl, hc, hd⟩
        · cases he
        · cases he
        · cases he
          split at h
          · rename_i dest hfeed
            split at h
            · have hop := Named.of_op (hne _ (by simp)) (incomplete_op hd hfeed)
              obtain ⟨pos', rest', k, g1, g2, g3, g4⟩ := ih (fun s hs => hne s (by simp [hs])) h hp
              exact ⟨pos', rest', k, .step (Or.inr (.named hf hc hop)) g1, g2,
                fun hns => absurd hd (hns c data _ _ hf), g4⟩
            · cases h
          · cases h
          · simp only [Option.some.injEq, Except.error.injEq] at h; exact absurd h.symm hp
          · rename_i h1 h2 _
            simp only [Option.some.injEq, Except.error.injEq] at h
            subst h
            exact ⟨_, _, total, .refl, trivial, fun hns => absurd hd (hns c data _ _ hf),
              fun p => .bucket hf hc hd (fun dest hdest => h1 dest hdest) h2⟩
      · cases h

/-- **C20**: every failure has its reason, and the error says which: the block that is not there or cannot be
read, the segment that is not a key, not a name, not a number or too large a number (with the number of
elements), the value that has nothing inside. The path in the error is the segments taken and the one that
could not be. (Paths through sharded directories of several buckets are miscounted, see
`C20_shard_miscounted`.) -/
theorem C20_why (G : Graph) (fuel : Nat) (follow : Bool) (c : Cid) (path : List Bytes) (e : DagErr)
    (hne : ∀ s ∈ path, s ≠ []) (hp : e ≠ .panic)
    (h : dagResolve G.env G.size G.fetch follow fuel c path = some (.error e)) :
    ∃ taken pos rest p, path = taken ++ rest ∧ Steps (Taking G (Named G.fetch)) (.doc c) path pos rest ∧
      Why G p pos rest e ∧ (NoShards G → p = taken ++ rest.take 1) := by
  simp only [dagResolve] at h
  split at h
  · cases h
  · rename_i x h0
    simp only [Option.some.injEq, Except.error.injEq] at h
    have hx : x ≠ .panic := by rintro rfl; exact hp h.symm
    obtain ⟨pos, rest, k, h1, h2, h3, h4⟩ := resolve0_why G hne h0 hx
    obtain ⟨pre, hpre⟩ := h1.suffix (fun _ _ _ _ h => h.suffix)
    have hk : NoShards G → k = pre.length := by
      intro hns
      have e1 := h3 hns
      have e2 := congrArg List.length hpre
      simp only [List.length_append] at e2
      omega
    have htake : NoShards G → path.take (k + 1) = pre ++ rest.take 1 := by
      intro hns
      rw [hk hns, hpre, List.take_append]
      simp [List.take_of_length_le]
    have key : x.withPath ⟨.ipld c, path⟩ = RawErr.at (path.take (k + 1)) x := by
      cases x with
      | loading c => rfl
      | unsupported c => rfl
      | panic => rfl
      | outOfRange c s i n | invalidIndex c s | noLinks c s | notFound c s =>
        simp only [RawErr.AtSegment] at h2
        subst h2
        simp only [RawErr.withPath, truncOr, IpfsPath.truncated] at h ⊢
        split
        · rename_i l hl
          split at hl
          · simp only [Option.some.injEq] at hl
            subst hl; rfl
          · cases hl
        · rename_i hl
          rw [hl] at h
          exact absurd h.symm hp
    exact ⟨pre, pos, rest, path.take (k + 1), hpre, h1, by rw [← h, key]; exact h4 _, htake⟩
  · split at h
    · cases h
    · simp only [Option.some.injEq, Except.error.injEq] at h; exact absurd h.symm hp

/-- `a/7`: the list has two elements. -/
example : dagResolve exGraph.env exGraph.size exGraph.fetch true 3 exCidA [[97], [55]] =
    some (.error (.outOfRange exCidA [[97], [55]] 7 2)) := by decide +kernel

/-! ### Why a walk fails -/

/-- **C16**: a walk fails at a block that is not dag-pb, one without data, one whose data is not UnixFS, and one of the type for metadata, and
the error says which. -/
theorem C16_refused (w : Walker) (hi : ∀ e, w.current = some e → e.kind.idle = true) (b : Bytes) :
    (PBNode.parse b = none → w.step b = .error .dagPbParsingFailed) ∧
    (∀ n, PBNode.parse b = some n → n.data.getD [] = [] → w.step b = .error .emptyDagPbNode) ∧
    (∀ n d, PBNode.parse b = some n → n.data = some d → d ≠ [] → UnixFs.parse d = none →
      w.step b = .error .unixFsParsingFailed) ∧
    (∀ n d u, PBNode.parse b = some n → n.data = some d → d ≠ [] → UnixFs.parse d = some u → u.type = .metadata →
      w.step b = .error .unsupportedType) := by
  have hstep : w.step b = w.nextEntry b := by
    unfold Walker.step
    split
    · rename_i e he
      have := hi e he
      split
      · rename_i hk; rw [hk] at this; cases this
      · rfl
    · rfl
  rw [hstep, Walker.nextEntry, Flat.parse]
  refine ⟨fun h => by rw [h]; rfl, fun n h hd => ?_, fun n d h hd hne hu => ?_, fun n d u h hd hne hu ht => ?_⟩
  · rw [h]
    cases hn : n.data with
    | none => simp only [hn]; rfl
    | some x =>
      rw [hn] at hd
      simp only [Option.getD_some] at hd
      subst hd
      simp only [hn]; rfl
  · rw [h]
    cases d with
    | nil => exact absurd rfl hne
    | cons x t => simp only [hd, hu]; rfl
  · rw [h]
    cases d with
    | nil => exact absurd rfl hne
    | cons x t => simp only [hd, hu, ht]

/-- Such a block of the type for metadata. -/
example : ∃ n d u, PBNode.parse (Flat.write { data := { type := .metadata } }) = some n ∧ n.data = some d ∧ d ≠ [] ∧ UnixFs.parse d = some u ∧
    u.type = .metadata := ⟨⟨[], some (UnixFs.write { type := .metadata })⟩, UnixFs.write { type := .metadata }, { type := .metadata }, by decide +kernel, rfl, by decide +kernel, by decide +kernel, rfl⟩

/-- **C16**: a part named `.` in a directory that is not the root always makes a checked walk panic. Without the checks it is shown with its name, which
the path to the parent forgets when the next entry is shown (`C16_dot`). -/
theorem C16_dot_below {P : List Bytes} (hP : P ≠ []) {e : WEntry} (h : At P e) (kind : WKind) (cid : Cid) (m : Metadata) :
    e.become true kind cid [46] (P.length + 2) m = none ∧
    e.become false kind cid [46] (P.length + 2) m = some ⟨cid, kind, joinSlash (P ++ [[46]]), m, P.length + 2⟩ := by
  obtain ⟨s, h1, h2, h3⟩ := h.place
  have hpush : pathPush (joinSlash P) [46] = joinSlash (P ++ [[46]]) := pathPush_noSlash h.plain (by intro b hb; simp at hb; subst hb; decide)
  have hanc : ancestors (joinSlash (P ++ [[46]])) = P.length + 1 := by
    cases P with
    | nil => exact absurd rfl hP
    | cons x xs =>
      unfold ancestors
      have hs : splitSlash (joinSlash (x :: xs ++ [[46]])) = x :: (xs ++ [[46]]) := by
        refine splitSlash_join (by simp) ?_
        intro n hn
        rcases List.mem_append.mp hn with hn | hn
        · exact (h.plain n hn).noSlash
        · rw [List.mem_singleton.mp hn]; intro b hb; simp at hb; subst hb; decide
      rw [hs]
      have hx := (h.plain x List.mem_cons_self).nonempty
      have hf : xs.filter (fun c => !isJunk c) = xs := by
        rw [List.filter_eq_self]
        intro n hn
        simp [(h.plain n (List.mem_cons_of_mem _ hn)).notJunk]
      have hd : isJunk [46] = true := rfl
      simp only [List.filter_append, hf, List.filter_cons, hd, Bool.not_true, Bool.false_eq_true, if_false, List.filter_nil, List.append_nil, hx, List.length_cons]
      omega
  unfold WEntry.become
  rw [if_pos h.idle, if_pos h.idle]
  unfold WEntry.setPath
  simp only
  rw [if_neg (by rw [h2, h3, ancestors_plain h1]; simp), if_neg (by simp), h2, h3, popDepth_plain h1]
  simp only [hpush, hanc]
  simp

/-- Such a part, after `a/b` was shown. -/
example (kind : WKind) (cid : Cid) (m : Metadata) : (⟨cid, .directory, "a/b".toUTF8.toList, m, 3⟩ : WEntry).become true kind cid [46] 3 m = none :=
  (C16_dot_below (P := ["a".toUTF8.toList]) (by simp) ⟨rfl, [98] :: [],
    (by intro n hn; simp at hn; rcases hn with rfl | rfl <;> exact ⟨by decide +kernel, by decide +kernel, by unfold NoSlash; decide +kernel⟩), (show "a/b".toUTF8.toList = _ by decide +kernel), rfl⟩ kind cid m).1

/-- The sum of sizes of the parts before a part. -/
theorem collectPending_invalid {l : PBLink} {n : Nat} {post : List (PBLink × Nat)} (hl : Cid.ofBytes (l.hash.getD []) = none) :
    ∀ (pre : List (PBLink × Nat)) (i base : Nat), (∀ x ∈ pre, Cid.ofBytes (x.1.hash.getD []) ≠ none) →
    base + (pre.map (fun x => x.2)).sum + n < 2 ^ 64 →
    collectPending none i base (pre ++ (l, n) :: post) = .error (.invalidCid (i + pre.length))
  | [], i, base, _, hs => by
    simp only [List.map_nil, List.sum_nil] at hs
    simp only [List.nil_append, collectPending, inTarget, hl, if_true]
    rw [if_neg (by omega)]
    rfl
  | (l', n') :: pre, i, base, hpre, hs => by
    simp only [List.map_cons, List.sum_cons] at hs
    have ih := collectPending_invalid hl (n := n) (post := post) pre (i + 1) (base + n') (fun x hx => hpre x (by simp [hx])) (by omega)
    simp only [List.cons_append, collectPending, inTarget, if_true]
    rw [if_neg (by omega)]
    have h1 := hpre (l', n') (by simp)
    cases hc : Cid.ofBytes (l'.hash.getD []) with
    | none => exact absurd hc h1
    | some c =>
      simp only [ih, List.length_cons]
      congr 2
      omega

/-- **C16**: the first link of a file that is not a cid ends the walk, and the error has its number. -/
theorem C16_bad_link (w : Walker) (hi : ∀ e, w.current = some e → e.kind.idle = true) (b : Bytes) (flat : Flat)
    (hb : Flat.parse b = .ok flat) (fr : FileReader) (hr : FileReader.fromParts flat 0 (Metadata.of flat.data) = .ok fr)
    (pre post : List PBLink) (l : PBLink) (hl : flat.links = pre ++ l :: post)
    (hbad : Cid.ofBytes (l.hash.getD []) = none) (hpre : ∀ x ∈ pre, Cid.ofBytes (x.hash.getD []) ≠ none)
    (hsum : flat.data.blocksizes.sum < 2 ^ 64) : w.step b = .error (.invalidCid pre.length) := by
  have hstep : w.step b = w.nextEntry b := by
    unfold Walker.step
    split
    · rename_i e he
      have := hi e he
      split
      · rename_i hk; rw [hk] at this; cases this
      · rfl
    · rfl
  have hf : (flat.data.type = .file ∨ flat.data.type = .raw) ∧ flat.links.length = flat.data.blocksizes.length ∧
      fr.links = flat.links ∧ fr.blocksizes = flat.data.blocksizes ∧ fr.offset = 0 := by
    obtain ⟨h1, h2, h3, h4, _⟩ := fromParts_ok hr
    refine ⟨?_, h4, h2, h3, h1⟩
    unfold FileReader.fromParts at hr
    simp only [] at hr
    split at hr
    · cases hr
    · rename_i ht
      cases h : flat.data.type <;> simp_all
  obtain ⟨ht, hlen, e1, e2, e3⟩ := hf
  rw [hl] at hlen
  obtain ⟨a, n, c, hbs, ha⟩ : ∃ a n c, flat.data.blocksizes = a ++ n :: c ∧ a.length = pre.length := by
    refine ⟨flat.data.blocksizes.take pre.length, (flat.data.blocksizes[pre.length]?).getD 0,
      flat.data.blocksizes.drop (pre.length + 1), ?_, ?_⟩
    · simp only [List.length_append, List.length_cons] at hlen
      have hlt : pre.length < flat.data.blocksizes.length := by omega
      rw [List.getElem?_eq_getElem hlt, Option.getD_some, List.getElem_cons_drop, List.take_append_drop]
    · simp only [List.length_append, List.length_cons] at hlen
      rw [List.length_take]; omega
  have hzip : fr.links.zip fr.blocksizes = pre.zip a ++ (l, n) :: post.zip c := by
    rw [e1, e2, hl, hbs, List.zip_append ha.symm]; rfl
  have hmap : (pre.zip a).map (fun x => x.2) = a := by
    have := List.map_snd_zip (l₁ := pre) (l₂ := a) (by omega)
    simpa using this
  have hv : visitParsed none flat = .error (.invalidCid pre.length) := by
    rw [visitParsed, hr]
    simp only [startFromReader, e1, hl]
    rw [if_neg (by simp)]
    rw [← hl, ← e1, hzip, e3, collectPending_invalid hbad (pre.zip a) 0 0]
    · simp [List.length_zip, ha]
    · rintro ⟨x, y⟩ hx
      exact hpre x (List.of_mem_zip hx).1
    · rw [hmap]
      rw [hbs] at hsum
      simp only [List.sum_append, List.sum_cons] at hsum
      omega
  rw [hstep, Walker.nextEntry, hb]
  rcases ht with ht | ht <;> simp only [ht, Walker.startFile, hv] <;> rfl

/-- A file of two parts the second link of which is not a cid. -/
example : (Walker.new true (Cid.v0 (List.replicate 32 1)) []).step
    (Flat.write ⟨[⟨some (Cid.v0 (List.replicate 32 2)).toBytes, some [], some 4⟩, ⟨some [1, 2], some [], some 4⟩],
      { type := .file, filesize := some 2, blocksizes := [1, 1] }⟩) = .error (.invalidCid 1) ∧
    (Walker.new true (Cid.v0 (List.replicate 32 1)) []).step [] = .error .emptyDagPbNode := by decide +kernel

/-! ### Fields that are skipped -/

theorem foldlM_filter {α β : Type} {step : β → α → Option β} {p : α → Bool} (h : ∀ m t, p t = false → step m t = some m) :
    ∀ (ts : List α) (m : β), ts.foldlM step m = (ts.filter p).foldlM step m
  | [], _ => rfl
  | t :: ts, m => by
    cases hp : p t with
    | false =>
      simp only [List.filter, hp, List.foldlM_cons, h m t hp]
      exact foldlM_filter h ts m
    | true =>
      simp only [List.filter, hp, List.foldlM_cons]
      cases step m t with
      | none => rfl
      | some m' => exact foldlM_filter h ts m'

/-- **C09**: links of dag-pb nodes and times of UnixFS are read from the known fields alone; all other fields
are skipped. -/
theorem C09_unknown (bs : Bytes) :
    (PBLink.parse bs = (tokenize PBLink.known bs).bind (fun ts =>
      (ts.filter (fun t => t.1 == 10 || t.1 == 18 || t.1 == 24)).foldlM PBLink.step {})) ∧
    (UnixTime.parse bs = (tokenize UnixTime.known bs).bind (fun ts =>
      (ts.filter (fun t => t.1 == 8 || t.1 == 21)).foldlM UnixTime.step {})) := by
  constructor
  · unfold PBLink.parse
    cases tokenize PBLink.known bs with
    | none => rfl
    | some ts =>
      refine foldlM_filter ?_ ts _
      rintro m ⟨k, v⟩ hk
      simp only [Bool.or_eq_false_iff, beq_eq_false_iff_ne] at hk
      unfold PBLink.step
      split <;> simp_all
  · unfold UnixTime.parse
    cases tokenize UnixTime.known bs with
    | none => rfl
    | some ts =>
      refine foldlM_filter ?_ ts _
      rintro m ⟨k, v⟩ hk
      simp only [Bool.or_eq_false_iff, beq_eq_false_iff_ne] at hk
      unfold UnixTime.step
      split <;> simp_all

/-- A link with a field 9 before its hash, a time with a field 1000 in front. -/
example : PBLink.parse [0x48, 5, 0x0A, 1, 7] = some { hash := some [7] } ∧
    UnixTime.parse [0xC0, 0x3E, 1, 0x08, 9] = some { seconds := 9 } := by decide +kernel

/-- **C23**: a field of a link that `dag_pb` does not know is skipped: the rest alone decides. -/
theorem C23_unknown (l : PbLinkMsg) (k : Nat) (v : WireVal) (r bs : Bytes)
    (h : readField bs = some ((k, v), r)) (hk : 3 < k) :
    msg PbLinkMsg.step l bs = msg PbLinkMsg.step l r := by
  rw [msg_field h]
  have : PbLinkMsg.step l k v = some l := by
    unfold PbLinkMsg.step
    split <;> first | rfl | omega
  rw [this]; rfl

example : readField [0x48, 5, 0x0A, 1, 7] = some ((9, .varint 5), [0x0A, 1, 7]) ∧
    msg PbLinkMsg.step {} [0x48, 5, 0x0A, 1, 7] = some { hash := [7] } := by decide +kernel

/-! ### Blocks that are too large -/

/-- **C24**: a block that is too large is refused with its length, whatever its hash; the other refusals have
the hash found. -/
theorem C24_refused (e : Env) (c : Cid) (data : Bytes) :
    (∀ n, validate e c data = .error (.tooLarge n) ↔ n = data.length ∧ 1024 * 1024 < data.length) ∧
    (∀ x, validate e c data = .error x → (∃ n, x = .tooLarge n) ∨
      (data.length ≤ 1024 * 1024 ∧ x = .invalidHash c.mhCode (e.hash c.mhCode data))) := by
  have hm : maxBlockSize = 1024 * 1024 := rfl
  simp only [validate]
  by_cases h : data.length > maxBlockSize
  · rw [if_pos h]
    refine ⟨fun n => ⟨fun hn => ?_, fun hn => by rw [hn.1]⟩, fun x hx => Or.inl ⟨data.length, ?_⟩⟩
    · cases hn; exact ⟨rfl, by omega⟩
    · cases hx; rfl
  · rw [if_neg h]
    split
    · refine ⟨fun n => ⟨fun hn => (by cases hn), fun hn => by omega⟩, fun x hx => Or.inr ⟨by omega, ?_⟩⟩
      cases hx; rfl
    · refine ⟨fun n => ⟨fun hn => (by cases hn), fun hn => by omega⟩, fun x hx => by cases hx⟩

/-! ### Addresses -/

/-- The bytes of a component: its code as a varint and its data. -/
def compBytes : Comp → Bytes
  | .ip4 a b c d => writeVarint 0x04 ++ [a, b, c, d]
  | .ip6 o => writeVarint 0x29 ++ o
  | .tcp p => writeVarint 0x06 ++ [UInt8.ofNat (p / 256), UInt8.ofNat p]
  | .udp p => writeVarint 0x0111 ++ [UInt8.ofNat (p / 256), UInt8.ofNat p]
  | .sctp p => writeVarint 0x84 ++ [UInt8.ofNat (p / 256), UInt8.ofNat p]
  | .memory p => writeVarint 0x0309 ++ (List.range 8).map (fun i => UInt8.ofNat (p / 256 ^ (7 - i)))
  | .p2p code d => writeVarint 0x01A5 ++ writeVarint (mhBytes code d).length ++ mhBytes code d
  | .p2pCircuit => writeVarint 0x0122
  | .other code data => writeVarint code ++ data

/-- **C50**: the number compared before two addresses are is the number of bytes of an address. -/
theorem C50_length (a : Maddr) (h : ∀ o, Comp.ip6 o ∈ a → o.length = 16) :
    Maddr.byteLen a = ((a.map compBytes).flatten).length := by
  induction a with
  | nil => rfl
  | cons c a ih =>
    have ih := ih (fun o ho => h o (by simp [ho]))
    simp only [Maddr.byteLen, List.map_cons, List.sum_cons, List.flatten_cons, List.length_append] at ih ⊢
    rw [ih]
    congr 1
    have w1 : (writeVarint 0x04).length = 1 ∧ (writeVarint 0x29).length = 1 ∧ (writeVarint 0x06).length = 1 ∧
      (writeVarint 0x0111).length = 2 ∧ (writeVarint 0x84).length = 2 ∧ (writeVarint 0x0309).length = 2 ∧
      (writeVarint 0x01A5).length = 2 ∧ (writeVarint 0x0122).length = 2 := by decide +kernel
    obtain ⟨w1, w2, w3, w4, w5, w6, w7, w8⟩ := w1
    cases c with
    | ip6 o =>
      have := h o (by simp)
      simp [Comp.size, compBytes, w2, this]
    | p2p code d =>
      simp only [Comp.size, compBytes, List.length_append, w7]
    | _ => simp [Comp.size, compBytes, *]

example : Maddr.byteLen [.ip6 (List.replicate 16 0), .udp 4001, .other 460 []] = 17 + 4 + 2 := by decide +kernel

/-- **C49**: the text of an address is the texts of its components in order: peers are written with their ids in
base 58, every other component as the crate writes it. -/
theorem C49_components (show' : Comp → Bytes) (a b : Maddr) (c : Comp) :
    (c.isPeerPart = false → Maddr.text show' (a ++ c :: b) = Maddr.text show' a ++ show' c ++ Maddr.text show' b) ∧
    (∀ code d, c = .p2p code d → Maddr.text show' (a ++ c :: b) =
      Maddr.text show' a ++ "/p2p/".toUTF8.toList ++ base58 (mhBytes code d) ++ Maddr.text show' b) ∧
    (c = .p2pCircuit → Maddr.text show' (a ++ c :: b) =
      Maddr.text show' a ++ "/p2p-circuit".toUTF8.toList ++ Maddr.text show' b) := by
  have hs : Maddr.text show' (a ++ c :: b) = Maddr.text show' a ++ Comp.text show' c ++ Maddr.text show' b := by
    simp [Maddr.text]
  have e1 : "/p2p/".toUTF8.toList = sP2p := by decide +kernel
  have e2 : "/p2p-circuit".toUTF8.toList = sCircuit := by decide +kernel
  rw [hs, e1, e2]
  refine ⟨fun h => ?_, fun code d h => ?_, fun h => ?_⟩
  · cases c <;> first | rfl | cases h
  · subst h; simp [Comp.text]
  · subst h; rfl

/-! ### Listeners that ended -/

/-- **C50**: an address whose listener has ended on its own is still known; removing it fails and forgets it.
Other listeners are not touched. -/
theorem C50_ended (s : ListenState) (a : Maddr) (e : LEntry) (ha : AMap.get s.map a = some e) :
    ∃ s', s.run [.closed e.id, .remove a] = .ok (s', [.removeFailed]) ∧ AMap.get s'.map a = none ∧
      (∀ b, b ≠ a → AMap.get s'.map b = AMap.get s.map b) ∧
      (∀ i, i ∈ s'.alive ↔ i ∈ s.alive ∧ i ≠ e.id) := by
  simp only [ListenState.run, ListenState.step, ha]
  rw [if_neg (by simp)]
  refine ⟨_, rfl, AMap.get_erase_eq _ _, fun b hb => AMap.get_erase_ne _ hb, fun i => ?_⟩
  simp only [List.mem_filter, decide_eq_true_eq, and_assoc, and_self]

/-- One of two listeners ends. -/
example : (ListenState.mk [(exHost, ⟨3, none⟩), ([.tcp 9], ⟨4, none⟩)] [3, 4]).run [.closed 3, .remove exHost] =
    .ok (⟨[([.tcp 9], ⟨4, none⟩)], [4]⟩, [.removeFailed]) := by decide +kernel

/-! ### The metadata of directories -/

mutual
/-- The entry with the metadata of all directories forgotten. -/
def bareEntry : Entry → Entry
  | .leaf l => .leaf l
  | .directory d => .directory (bareDir d)
def bareDir : DirOf Entry → DirOf Entry
  | ⟨nodes, _, p, i⟩ => ⟨bareNodes nodes, {}, p, i⟩
def bareNodes : List (Bytes × Entry) → List (Bytes × Entry)
  | [] => []
  | e :: es => bareNode e :: bareNodes es
def bareNode : Bytes × Entry → Bytes × Entry
  | (n, e) => (n, bareEntry e)
end

theorem bareNodes_eq (ns : List (Bytes × Entry)) : bareNodes ns = ns.map (fun x => (x.1, bareEntry x.2)) := by
  induction ns with
  | nil => rfl
  | cons e ns ih => obtain ⟨n, e⟩ := e; simp [bareNodes, bareNode, ih]

theorem bareNodes_get (ns : List (Bytes × Entry)) (k : Bytes) :
    AMap.get (bareNodes ns) k = (AMap.get ns k).map bareEntry := by
  induction ns with
  | nil => rfl
  | cons e ns ih =>
    obtain ⟨n, e⟩ := e
    simp only [bareNodes, bareNode, AMap.get]
    split
    · rfl
    · exact ih

theorem bareNodes_insert (ns : List (Bytes × Entry)) (k : Bytes) (e : Entry) :
    bareNodes (BMap.insert ns k e) = BMap.insert (bareNodes ns) k (bareEntry e) := by
  induction ns with
  | nil => rfl
  | cons x ns ih =>
    obtain ⟨n, x⟩ := x
    simp only [BMap.insert, bareNodes, bareNode]
    repeat' split
    all_goals simp only [bareNodes, bareNode, ih]

/-- The call with the metadata forgotten. -/
def DirOp.bare : DirOp → DirOp
  | .put p c n => .put p c n
  | .attrs p _ => .attrs p {}

/-- A change that does not look at metadata. -/
def Blind (f g : PutFn) : Prop :=
  ∀ d name i, (bareDir (f d name i).1, (f d name i).2) = g (bareDir d) name i

theorem bareDir_eq (d : DirBuilder) : bareDir d = ⟨bareNodes d.nodes, {}, d.parentId, d.id⟩ := by
  obtain ⟨a, b, c, e⟩ := d; simp only [bareDir]

theorem putLeaf_blind (l : Leaf) : Blind (putLeaf l) (putLeaf l) := by
  intro d name i
  simp only [putLeaf, bareDir_eq, bareNodes_get]
  cases AMap.get d.nodes name with
  | none => simp [bareNodes_insert, bareEntry]
  | some e => rfl

theorem putMeta_blind (m : Metadata) : Blind (putMeta m) (putMeta {}) := by
  intro d name i
  simp only [putMeta, bareDir_eq, bareNodes_get]
  cases AMap.get d.nodes name with
  | none =>
    simp only [Option.map_none, DirBuilder.new]
    by_cases h : d.id = i
    · simp [h]
    · simp [h, bareNodes_insert, bareEntry, bareDir, bareNodes]
  | some e =>
    cases e with
    | leaf l => rfl
    | directory c => simp [bareNodes_insert, bareEntry, bareDir_eq]

theorem descend_blind {f g : PutFn} (h : Blind f g) (wrap : Bool) (segs : List Bytes) :
    ∀ (depth : Nat) (d : DirBuilder) (k : Nat),
    (bareDir (descend wrap f depth d k segs).1, (descend wrap f depth d k segs).2) =
      descend wrap g depth (bareDir d) k segs := by
  induction segs with
  | nil => intro depth d k; rfl
  | cons s segs ih =>
    intro depth d k
    have hemp : (bareDir d).nodes.isEmpty = d.nodes.isEmpty := by
      rw [bareDir_eq, bareNodes_eq]; cases d.nodes <;> rfl
    simp only [descend, hemp]
    by_cases h1 : depth = 0 ∧ s = [] ∧ segs.isEmpty = false
    · rw [if_pos h1, if_pos h1]
    · rw [if_neg h1, if_neg h1]
      by_cases h2 : depth ≠ 0 ∧ s = []
      · rw [if_pos h2, if_pos h2]
      · rw [if_neg h2, if_neg h2]
        by_cases h3 : segs.isEmpty = true
        · rw [if_pos h3, if_pos h3]
          by_cases h4 : depth = 0 ∧ wrap = false ∧ d.nodes.isEmpty = false
          · rw [if_pos h4, if_pos h4]
          · rw [if_neg h4, if_neg h4, ← h d s k]
        · rw [if_neg h3, if_neg h3]
          have hget : AMap.get (bareDir d).nodes s = (AMap.get d.nodes s).map bareEntry := by
            rw [bareDir_eq]; exact bareNodes_get _ _
          rw [hget]
          cases AMap.get d.nodes s with
          | some e =>
            cases e with
            | leaf l => rfl
            | directory c =>
              simp only [Option.map_some, bareEntry, ← ih (depth + 1) c k]
              simp only [bareDir_eq, bareNodes_insert, bareEntry]
          | none =>
            simp only [Option.map_none]
            by_cases h4 : depth = 0 ∧ wrap = false ∧ d.nodes.isEmpty = false
            · rw [if_pos h4, if_pos h4]
            · rw [if_neg h4, if_neg h4]
              have hid : (bareDir d).id = d.id := by rw [bareDir_eq]
              rw [hid]
              cases hn : DirBuilder.new d.id k with
              | none => rfl
              | some c =>
                have hc : bareDir c = c := by
                  unfold DirBuilder.new at hn
                  split at hn
                  · cases hn
                  · cases hn; rfl
                have := ih (depth + 1) c (k + 1)
                rw [hc] at this
                simp only [← this]
                simp only [bareDir_eq, bareNodes_insert, bareEntry]

theorem builderAfter_bare (opts : TreeOpts) (ops : List DirOp) :
    bareDir (builderAfter opts ops).root = (builderAfter opts (ops.map DirOp.bare)).root ∧
    (builderAfter opts ops).counter = (builderAfter opts (ops.map DirOp.bare)).counter ∧
    (builderAfter opts ops).opts = (builderAfter opts (ops.map DirOp.bare)).opts := by
  unfold builderAfter
  have key : ∀ (b b' : Builder), bareDir b.root = b'.root → b.counter = b'.counter → b.opts = b'.opts → ∀ op : DirOp,
      bareDir (op.run b).1.root = (op.bare.run b').1.root ∧ (op.run b).1.counter = (op.bare.run b').1.counter ∧
      (op.run b).1.opts = (op.bare.run b').1.opts := by
    intro b b' h1 h2 h3 op
    have hm : ∀ (path : Bytes) (f g : PutFn), Blind f g →
        bareDir (b.modify path f).1.root = (b'.modify path g).1.root ∧
        (b.modify path f).1.counter = (b'.modify path g).1.counter ∧ (b.modify path f).1.opts = (b'.modify path g).1.opts := by
      intro path f g hfg
      unfold Builder.modify
      simp only []
      split
      · exact ⟨h1, h2, h3⟩
      · split
        · exact ⟨h1, h2, h3⟩
        · have := descend_blind hfg b.opts.wrapWithDirectory (splitSlash path) 0 b.root b.counter
          rw [h1] at this
          rw [← h3, ← h2, ← this]
          exact ⟨rfl, rfl, rfl⟩
    cases op with
    | put p c n => exact hm p _ _ (putLeaf_blind _)
    | attrs p m => exact hm p _ _ (putMeta_blind m)
  suffices ∀ (b b' : Builder), bareDir b.root = b'.root → b.counter = b'.counter → b.opts = b'.opts →
      bareDir (ops.foldl (fun b op => (op.run b).1) b).root = ((ops.map DirOp.bare).foldl (fun b op => (op.run b).1) b').root ∧
      (ops.foldl (fun b op => (op.run b).1) b).counter = ((ops.map DirOp.bare).foldl (fun b op => (op.run b).1) b').counter ∧
      (ops.foldl (fun b op => (op.run b).1) b).opts = ((ops.map DirOp.bare).foldl (fun b op => (op.run b).1) b').opts from
    this _ _ rfl rfl rfl
  induction ops with
  | nil => intro b b' h1 h2 h3; exact ⟨h1, h2, h3⟩
  | cons op ops ih =>
    intro b b' h1 h2 h3
    obtain ⟨g1, g2, g3⟩ := key b b' h1 h2 h3 op
    exact ih _ _ g1 g2 g3

mutual
theorem link_bare (H : Bytes → Bytes) : ∀ e : Entry, Entry.link H (bareEntry e) = Entry.link H e
  | .leaf _ => rfl
  | .directory d => by simp only [bareEntry, Entry.link, dirLinks_bare H d]
theorem dirLinks_bare (H : Bytes → Bytes) : ∀ d : DirOf Entry, dirLinks H (bareDir d) = dirLinks H d
  | ⟨nodes, _, _, _⟩ => by simp only [bareDir, dirLinks, nodeLinks_bare H nodes]
theorem nodeLinks_bare (H : Bytes → Bytes) : ∀ ns : List (Bytes × Entry), nodeLinks H (bareNodes ns) = nodeLinks H ns
  | [] => rfl
  | e :: es => by simp only [bareNodes, Unixfs.nodeLinks, nodeLink_bare H e, nodeLinks_bare H es]
theorem nodeLink_bare (H : Bytes → Bytes) : ∀ x : Bytes × Entry, nodeLink H (bareNode x) = nodeLink H x
  | (n, e) => by simp only [bareNode, nodeLink, link_bare H e]
end

mutual
theorem emits_bare (H : Bytes → Bytes) : ∀ (e : Entry) (path : Bytes), Entry.emits H path (bareEntry e) = Entry.emits H path e
  | .leaf _, _ => rfl
  | .directory d, path => by simp only [bareEntry, Entry.emits, dirEmits_bare H d path]
theorem dirEmits_bare (H : Bytes → Bytes) : ∀ (d : DirOf Entry) (path : Bytes), dirEmits H path (bareDir d) = dirEmits H path d
  | ⟨nodes, _, _, _⟩, path => by simp only [bareDir, dirEmits, nodesEmit_bare H nodes path, nodeLinks_bare H nodes]
theorem nodesEmit_bare (H : Bytes → Bytes) : ∀ (ns : List (Bytes × Entry)) (path : Bytes), nodesEmit H path (bareNodes ns) = nodesEmit H path ns
  | [], _ => rfl
  | e :: es, path => by simp only [bareNodes, nodesEmit, nodeEmit_bare H e path, nodesEmit_bare H es path]
theorem nodeEmit_bare (H : Bytes → Bytes) : ∀ (x : Bytes × Entry) (path : Bytes), nodeEmit H path (bareNode x) = nodeEmit H path x
  | (n, e), path => by simp only [bareNode, nodeEmit, emits_bare H e]
end

/-- **C13**: the metadata given for directories does not get into the tree: with any metadata whatsoever the
same nodes with the same blocks are given. (The code stores it and never renders it.) -/
theorem C13_metadata_ignored {H : Bytes → Bytes} (hH : ∀ b, (H b).length = 32) (opts : TreeOpts) (xs ys : List DirOp)
    (hx : ∀ op ∈ xs, OpFits op) (hfit : TotalsFit H (builderAfter opts xs))
    (h : xs.map DirOp.bare = ys.map DirOp.bare) :
    (builderAfter opts xs).build.run H = (builderAfter opts ys).build.run H := by
  obtain ⟨x1, x2, x3⟩ := builderAfter_bare opts xs
  obtain ⟨y1, y2, y3⟩ := builderAfter_bare opts ys
  rw [h, ← y1] at x1
  have hy : ∀ op ∈ ys, OpFits op := by
    have : ∀ zs : List DirOp, (∀ op ∈ zs, OpFits op) ↔ ∀ op ∈ zs.map DirOp.bare, OpFits op := by
      intro zs
      have hb : ∀ op : DirOp, OpFits op ↔ OpFits op.bare := by
        intro op
        cases op with
        | put p c n => exact Iff.rfl
        | attrs p m =>
          exact ⟨fun ⟨a, b, _⟩ => ⟨a, b, fun _ _ _ h => by cases h⟩, fun ⟨a, b, _⟩ => ⟨a, b, fun _ _ _ h => by cases h⟩⟩
      simp only [List.mem_map, forall_exists_index, and_imp, forall_apply_eq_imp_iff₂]
      exact ⟨fun h op ho => (hb op).mp (h op ho), fun h op ho => (hb op).mpr (h op ho)⟩
    rw [this, ← h, ← this]; exact hx
  have hn : bareNodes (builderAfter opts xs).root.nodes = bareNodes (builderAfter opts ys).root.nodes := by
    have := congrArg DirOf.nodes x1
    simpa only [bareDir_eq] using this
  have ht : treeEmits H opts.wrapWithDirectory (builderAfter opts xs).root =
      treeEmits H opts.wrapWithDirectory (builderAfter opts ys).root := by
    unfold treeEmits
    rw [← nodesEmit_bare, ← nodeLinks_bare, hn, nodesEmit_bare, nodeLinks_bare]
  have hfit' : TotalsFit H (builderAfter opts ys) := by
    unfold TotalsFit at hfit ⊢
    rw [(builderAfter_sound opts xs).2, ht] at hfit
    rw [(builderAfter_sound opts ys).2]
    exact hfit
  rw [run_eq hH hx hfit, run_eq hH hy hfit', ht]

/-- Two calls that only differ in the mode of a directory. -/
example : [DirOp.attrs "a/b".toUTF8.toList { mode := some 0o755 }, .put "a/b/c".toUTF8.toList (Cid.v0 (List.replicate 32 1)) 5].map
      DirOp.bare =
    [DirOp.attrs "a/b".toUTF8.toList { mtime := some (7, 0) }, .put "a/b/c".toUTF8.toList (Cid.v0 (List.replicate 32 1)) 5].map
      DirOp.bare ∧
    ((builderAfter {} [DirOp.attrs "a/b".toUTF8.toList { mode := some 0o755 },
      .put "a/b/c".toUTF8.toList (Cid.v0 (List.replicate 32 1)) 5]).build.run (fun _ => List.replicate 32 0)).1.length = 2 := by
  decide +kernel

end Verif.Props
