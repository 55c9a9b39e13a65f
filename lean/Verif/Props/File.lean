import Verif.Unixfs.ReaderLemmas

/-!
# Properties C01 – C07 and C09: adding and reading files, encoding of nodes

`addFile sha chunk bf slices` pushes the slices in order through the adder (repeating
`push` until each slice is consumed) and finishes; it yields the emitted blocks in order.
`cat fetch range root fuel` is the stream of `cat` (the chunks and how it ended), cut off
after `fuel` blocks. The bounds on chunk size, branching factor and content length are
those within which the lengths written fit the 32 bit length prefixes and 64 bit sizes of
the format.
-/

namespace Verif.Props

open Verif Verif.Unixfs

/-- Options and content for which all sizes fit the fields of the format. -/
structure Fits (chunk bf : Nat) (content : Bytes) : Prop where
  chunkPos : 1 ≤ chunk
  chunkLe : chunk ≤ 2 ^ 30
  bfGe : 2 ≤ bf
  bfLe : bf ≤ 2 ^ 27
  content : content.length ≤ 2 ^ 54

/-- A hash function with 32 byte digests. -/
def Digest32 (sha : Bytes → Bytes) : Prop := ∀ b, (sha b).length = 32

/-- No two different ones of these blocks have the same cid. -/
def NoCollision (blocks : List (Cid × Bytes)) : Prop :=
  ∀ b ∈ blocks, ∀ b' ∈ blocks, b.1 = b'.1 → b.2 = b'.2

theorem storeOf_mem {blocks : List (Cid × Bytes)} (h : NoCollision blocks) :
    ∀ b ∈ blocks, storeOf blocks b.1 = some b.2 := by
  intro b hb
  unfold storeOf
  cases hf : blocks.find? (fun x => x.1 == b.1) with
  | none =>
    have := List.find?_eq_none.mp hf b hb
    simp at this
  | some x =>
    have h1 := List.mem_of_find?_eq_some hf
    have h2 := List.find?_some hf
    simp at h2
    simp [h x h1 b hb h2]

/-- Everything known about adding a content at once. -/
theorem add_spec {sha : Bytes → Bytes} (hsha : Digest32 sha) {chunk bf : Nat} {content : Bytes}
    (hfit : Fits chunk bf content) : ∃ log root, FileLog chunk bf content log root ∧
      (∀ slices : List Bytes, slices.flatten = content →
        addFile sha chunk bf slices = .ok (log.map (AnyT.block sha))) ∧
      (log.map (AnyT.block sha)).getLast? = some (root.2.block sha) ∧
      root.2.content = content ∧ root.2.Shape chunk bf ∧ root.2.total sha < 2 ^ 64 ∧
      (∀ t ∈ log, t.2.Shape chunk bf) ∧
      ∀ s, Sub s root → s ∈ log := by
  obtain ⟨h1, h2, h3, h4, h5⟩ := hfit
  obtain ⟨log, root, hlog, hadd⟩ := addFile_spec sha (chunk := chunk) (bf := bf) h1 h3 content
  obtain ⟨f1, f2, f3, f4⟩ := root_facts hsha h1 h2 h3 h4 h5 hlog
  refine ⟨log, root, hlog, hadd, ?_, f1, f2, f3, f4, ?_⟩
  · rw [List.getLast?_map, hlog.last]; rfl
  · exact fun s hs => hlog.closed.mem_of_sub hs (List.mem_of_getLast? hlog.last)

/-! ## C01 -/

/-- **C01.** Push any content in any split, store every emitted block in any store, then `cat`
the last emitted block: the stream is exactly the content and ends without error. -/
theorem C01_add_then_cat {sha : Bytes → Bytes} (hsha : Digest32 sha) {chunk bf : Nat}
    {slices : List Bytes} (hfit : Fits chunk bf slices.flatten) :
    ∃ blocks root, addFile sha chunk bf slices = .ok blocks ∧ blocks.getLast? = some root ∧
      ∀ fetch : Cid → Option Bytes, (∀ b ∈ blocks, fetch b.1 = some b.2) →
        ∃ n chunks, chunks.flatten = slices.flatten ∧
          ∀ fuel, n ≤ fuel → cat fetch none root.2 fuel = (chunks, .done) := by
  obtain ⟨log, root, hlog, hadd, hlast, hcon, hshape, htot, _, hsub⟩ := add_spec hsha hfit
  refine ⟨_, _, hadd _ rfl, hlast, ?_⟩
  intro fetch hfetch
  have hlen := hfit.content
  obtain ⟨n, cs, hcs, hcat⟩ := cat_tree none hsha hfit.chunkLe hfit.bfLe (fetch := fetch) root.2 hshape
    htot (by rw [hcon]; omega) (fun s hs => by
      exact hfetch _ (List.mem_map.mpr ⟨s, hsub s hs, rfl⟩))
  exact ⟨n, cs, by rw [hcs, hcon]; rfl, hcat⟩

/-- **C01**, for the store holding just the emitted blocks, if the hash does not collide on
them. -/
theorem C01_add_then_cat_store {sha : Bytes → Bytes} (hsha : Digest32 sha) {chunk bf : Nat}
    {slices : List Bytes} (hfit : Fits chunk bf slices.flatten) {blocks : List (Cid × Bytes)}
    (hadd : addFile sha chunk bf slices = .ok blocks) (hcoll : NoCollision blocks) :
    ∃ root, blocks.getLast? = some root ∧ storeOf blocks root.1 = some root.2 ∧
      ∃ n chunks, chunks.flatten = slices.flatten ∧
        ∀ fuel, n ≤ fuel → cat (storeOf blocks) none root.2 fuel = (chunks, .done) := by
  obtain ⟨blocks', root, h1, h2, h3⟩ := C01_add_then_cat hsha hfit
  rw [hadd] at h1
  cases h1
  exact ⟨root, h2, storeOf_mem hcoll _ (List.mem_of_getLast? h2), h3 _ (storeOf_mem hcoll)⟩

/-- A toy hash with 32 byte digests: the middle of the input, padded. -/
def toySha (b : Bytes) : Bytes := ((b.drop 4 ++ List.replicate 32 0).take 32)

theorem toySha_digest32 : Digest32 toySha := by
  intro b; simp [toySha]

/-- Five bytes in three slices, two per leaf, two links per node: three levels. -/
def toySlices : List Bytes := [[1, 2, 3], [], [4, 5]]

theorem toyFits : Fits 2 2 toySlices.flatten := by
  constructor <;> simp [toySlices]

example : ∃ blocks, addFile toySha 2 2 toySlices = .ok blocks ∧ blocks.length = 6 ∧
    NoCollision blocks := by
  refine ⟨_, rfl, ?_, ?_⟩
  · decide +kernel
  · unfold NoCollision
    decide +kernel

/-! ## C02 -/

/-- What any caller can do with an adder: push some bytes, of which a part is consumed. `Run`
relates the bytes consumed so far, the blocks emitted so far and the adder. -/
inductive Run (sha : Bytes → Bytes) (chunk bf : Nat) : Bytes → List (Cid × Bytes) → Adder → Prop where
  | init : Run sha chunk bf [] [] { chunk := chunk, bf := bf }
  | push {content : Bytes} {blocks : List (Cid × Bytes)} {a : Adder} (input : Bytes)
      {new : List (Cid × Bytes)} {n : Nat} {a' : Adder} : Run sha chunk bf content blocks a →
      a.push sha input = .ok (new, n, a') →
      Run sha chunk bf (content ++ input.take n) (blocks ++ new) a'

theorem Run.spec {sha : Bytes → Bytes} {chunk bf : Nat} (hc : 1 ≤ chunk) (hb : 1 ≤ bf)
    {content : Bytes} {blocks : List (Cid × Bytes)} {a : Adder} (h : Run sha chunk bf content blocks a) :
    Rep sha chunk bf a (Abs.run chunk bf content) ∧ (Abs.run chunk bf content).Inv chunk bf ∧
      blocks = (Abs.run chunk bf content).log.map (AnyT.block sha) := by
  induction h with
  | init => exact ⟨⟨rfl, rfl, rfl, rfl⟩, Abs.init_inv hc, rfl⟩
  | push input _ hp ih =>
    obtain ⟨hr, hi, hbl⟩ := ih
    obtain ⟨bs, a', new, h1, h2, h3, h4, _⟩ := Adder.push_spec sha hc hb hr hi input
    rw [hp] at h1
    cases h1
    rw [Abs.run, List.foldl_append]
    refine ⟨h2, Abs.foldl_inv hc hb _ hi, ?_⟩
    rw [hbl, h4, show (List.foldl (Abs.byte chunk bf) {} _) = Abs.run chunk bf _ from rfl, h3,
      List.map_append]

/-- **C02.** However the bytes are split over pushes (empty ones and ones consumed only in part
included), the same bytes consumed give the same blocks in the same order, and finishing gives
the same blocks again. -/
theorem C02_split_independent {sha : Bytes → Bytes} {chunk bf : Nat} (hc : 1 ≤ chunk) (hb : 1 ≤ bf)
    {content : Bytes} {blocks blocks' : List (Cid × Bytes)} {a a' : Adder}
    (h : Run sha chunk bf content blocks a) (h' : Run sha chunk bf content blocks' a') :
    blocks = blocks' ∧ a.finish sha = a'.finish sha := by
  obtain ⟨r, _, e⟩ := h.spec hc hb
  obtain ⟨r', _, e'⟩ := h'.spec hc hb
  refine ⟨e.trans e'.symm, ?_⟩
  have : a = a' := by
    obtain ⟨_, _, _, _⟩ := a
    obtain ⟨_, _, _, _⟩ := a'
    have h1 := r.chunk.trans r'.chunk.symm
    have h2 := r.bf.trans r'.bf.symm
    have h3 := r.buffer.trans r'.buffer.symm
    have h4 := r.links.trans r'.links.symm
    simp only at h1 h2 h3 h4
    subst h1 h2 h3 h4
    rfl
  rw [this]

/-- **C02**, for the loop pushing whole slices. -/
theorem C02_split_independent_slices (sha : Bytes → Bytes) {chunk bf : Nat} (hc : 1 ≤ chunk)
    (hb : 1 ≤ bf) {slices slices' : List Bytes} (h : slices.flatten = slices'.flatten) :
    addFile sha chunk bf slices = addFile sha chunk bf slices' := by
  have hr : Rep sha chunk bf { chunk := chunk, bf := bf } {} := ⟨rfl, rfl, rfl, rfl⟩
  obtain ⟨bs, a, new, h1, h2, h3, h4⟩ :=
    Adder.pushSlices_spec sha hc hb slices hr (Abs.init_inv hc)
  obtain ⟨bs', a', new', h1', h2', h3', h4'⟩ :=
    Adder.pushSlices_spec sha hc hb slices' hr (Abs.init_inv hc)
  rw [← h] at h2' h3'
  have hnew : new = new' := by
    rw [h3] at h3'; simpa using h3'
  have : a = a' := by
    obtain ⟨_, _, _, _⟩ := a
    obtain ⟨_, _, _, _⟩ := a'
    have e1 := h2.chunk.trans h2'.chunk.symm
    have e2 := h2.bf.trans h2'.bf.symm
    have e3 := h2.buffer.trans h2'.buffer.symm
    have e4 := h2.links.trans h2'.links.symm
    simp only at e1 e2 e3 e4
    subst e1 e2 e3 e4
    rfl
  simp only [addFile, h1, h1', this, h4, h4', hnew]

/-- Two different runs, one with an empty push and one pushing more than it is allowed to. -/
example : ∃ blocks blocks' a a', Run toySha 2 2 [7, 8, 9] blocks a ∧
    Run toySha 2 2 [7, 8, 9] blocks' a' ∧ blocks ≠ [] := by
  have r1 := Run.push [7, 8, 9] (Run.init (sha := toySha) (chunk := 2) (bf := 2)) rfl
  have r1 := Run.push [9] r1 rfl
  have r2 := Run.push [7] (Run.init (sha := toySha) (chunk := 2) (bf := 2)) rfl
  have r2 := Run.push [] r2 rfl
  have r2 := Run.push [8] r2 rfl
  have r2 := Run.push [9] r2 rfl
  exact ⟨_, _, _, _, r1, r2, by simp⟩

/-! ## C03 -/

/-- **C03.** Every emitted block has the cid of its own bytes, its links point at blocks emitted
strictly earlier, and every block can be reached from the last one. -/
theorem C03_closed_dag {sha : Bytes → Bytes} (hsha : Digest32 sha) {chunk bf : Nat}
    {slices : List Bytes} (hfit : Fits chunk bf slices.flatten) :
    ∃ blocks root, addFile sha chunk bf slices = .ok blocks ∧ blocks.getLast? = some root ∧
      (∀ b ∈ blocks, b.1 = Cid.v0 (sha b.2)) ∧
      (∀ pre b post, blocks = pre ++ b :: post → ∃ f, Flat.parse b.2 = .ok f ∧
        ∀ l ∈ f.links, ∃ b' ∈ pre, Cid.ofBytes (l.hash.getD []) = some b'.1) ∧
      ∀ b ∈ blocks, Below blocks b root := by
  obtain ⟨log, root, hlog, hadd, hlast, hcon, hshape, htot, hsh, hsub⟩ := add_spec hsha hfit
  have hlen := hfit.content
  have hparse : ∀ t ∈ log, Flat.parse (t.2.block sha).2 = .ok (t.2.flat sha) := by
    intro t ht
    have hb := (hlog.sub t ht).bounds sha
    exact T.parse_block hsha hfit.chunkLe hfit.bfLe t.2 (hsh t ht) (by omega) (by rw [hcon] at hb; omega)
  have hcid : ∀ {d : Nat} (k : T d), Cid.ofBytes (k.block sha).1.toBytes = some (k.block sha).1 :=
    fun k => Cid.ofBytes_toBytes _ (T.cid_valid hsha k)
  refine ⟨_, _, hadd _ rfl, hlast, ?_, ?_, ?_⟩
  · intro b hb
    obtain ⟨t, _, rfl⟩ := List.mem_map.mp hb
    simp only [AnyT.block, T.block_eq, renderAndHash]
  · intro pre b post he
    obtain ⟨lpre, lrest, hl, hpre, hrest⟩ := List.map_eq_append_iff.mp he
    obtain ⟨t, lpost, rfl, rfl, rfl⟩ := List.map_eq_cons_iff.mp hrest
    refine ⟨_, hparse t (by rw [hl]; simp), ?_⟩
    intro l hlk
    obtain ⟨d, t⟩ := t
    cases d with
    | zero => cases hlk
    | succ d =>
      rw [T.flat_node] at hlk
      obtain ⟨k, hk, rfl⟩ := List.mem_map.mp hlk
      refine ⟨k.block sha, ?_, ?_⟩
      · rw [← hpre]
        exact List.mem_map.mpr ⟨k.any, hlog.closed _ _ _ hl _ (List.mem_map.mpr ⟨k, hk, rfl⟩), rfl⟩
      · exact hcid k
  · intro b hb
    obtain ⟨t, ht, rfl⟩ := List.mem_map.mp hb
    have key : ∀ s t : AnyT, Sub s t → t ∈ log →
        Below (log.map (AnyT.block sha)) (AnyT.block sha s) (AnyT.block sha t) := by
      intro s t hs
      induction hs with
      | refl => intro _; exact .refl
      | @step k t _ hk ih =>
        intro ht
        have hkm : k ∈ log := hlog.closed.mem_of_sub (.step (.refl k) hk) ht
        refine .step (ih hkm) (List.mem_map.mpr ⟨k, hkm, rfl⟩) ?_
        have hp := hparse t ht
        obtain ⟨d, t⟩ := t
        cases d with
        | zero => cases hk
        | succ d =>
          obtain ⟨k, hk', rfl⟩ := List.mem_map.mp hk
          rw [T.flat_node] at hp
          exact ⟨_, T.pbLink sha k, hp, List.mem_map.mpr ⟨k, hk', rfl⟩, hcid k⟩
    exact key t root (hlog.sub t ht) (List.mem_of_getLast? hlog.last)

/-! ## C04 and C05 -/

/-- **C04.** The last emitted block is, in any store with the emitted blocks, the root of a dag for
a tree of the content in which every recorded file size, block size and link size is exact: that
is what `FileDag` says of every node. -/
theorem C04_sizes_exact {sha : Bytes → Bytes} (hsha : Digest32 sha) {chunk bf : Nat}
    {slices : List Bytes} (hfit : Fits chunk bf slices.flatten) :
    ∃ blocks root, addFile sha chunk bf slices = .ok blocks ∧ blocks.getLast? = some root ∧
      ∃ (d : Nat) (t : T d) (total : Nat), t.content = slices.flatten ∧
        ∀ fetch : Cid → Option Bytes, (∀ b ∈ blocks, fetch b.1 = some b.2) →
          FileDag fetch d root.1 t total := by
  obtain ⟨log, root, hlog, hadd, hlast, hcon, hshape, htot, _, hsub⟩ := add_spec hsha hfit
  have hlen := hfit.content
  refine ⟨_, _, hadd _ rfl, hlast, root.1, root.2, root.2.total sha, hcon, ?_⟩
  intro fetch hfetch
  exact fileDag_of_blocks hsha hfit.chunkLe hfit.bfLe root.2 hshape htot (by rw [hcon]; omega)
    (fun s hs => hfetch _ (List.mem_map.mpr ⟨s, hsub s hs, rfl⟩))

/-- **C05.** The tree stored by the adder has all leaves at the same depth (it is a `T d`), is
made of the content cut into pieces of `chunk` bytes except for a shorter last one (or is one empty
leaf), and on every level all nodes but the last have exactly `bf` links, the last at least one. -/
theorem C05_balanced {sha : Bytes → Bytes} (hsha : Digest32 sha) {chunk bf : Nat}
    {slices : List Bytes} (hfit : Fits chunk bf slices.flatten) :
    ∃ blocks root, addFile sha chunk bf slices = .ok blocks ∧ blocks.getLast? = some root ∧
      ∃ (d : Nat) (t : T d) (total : Nat),
        (∀ fetch : Cid → Option Bytes, (∀ b ∈ blocks, fetch b.1 = some b.2) →
          FileDag fetch d root.1 t total) ∧
        t.leafs.flatten = slices.flatten ∧
        (slices.flatten = [] → t.leafs = [[]]) ∧
        (slices.flatten ≠ [] → AlmostFull chunk (t.leafs.map List.length)) ∧
        ∀ level, AlmostFull bf (t.widths level) := by
  obtain ⟨log, root, hlog, hadd, hlast, hcon, hshape, htot, _, hsub⟩ := add_spec hsha hfit
  have hlen := hfit.content
  have hc := hfit.chunkPos
  have hb := hfit.bfGe
  obtain ⟨hw, hl⟩ := root_shape (by omega) hlog
  refine ⟨_, _, hadd _ rfl, hlast, root.1, root.2, root.2.total sha, ?_, ?_, ?_, ?_, hw⟩
  · intro fetch hfetch
    exact fileDag_of_blocks hsha hfit.chunkLe hfit.bfLe root.2 hshape htot (by rw [hcon]; omega)
      (fun s hs => hfetch _ (List.mem_map.mpr ⟨s, hsub s hs, rfl⟩))
  · rw [hl]
    split
    · rename_i h; rw [h]; rfl
    · exact chunksOf_flatten hc _
  · intro h; rw [hl, if_pos h]
  · intro h
    rw [hl, if_neg h]
    refine ⟨?_, ?_⟩
    · intro x hx
      obtain ⟨c, hc', rfl⟩ := List.mem_map.mp hx
      exact chunksOf_mem_length hc _ c hc'
    · intro x hx
      rw [← List.map_dropLast] at hx
      obtain ⟨c, hc', rfl⟩ := List.mem_map.mp hx
      exact chunksOf_dropLast_length hc _ c hc'

/-! ## C06 -/

/-- **C06.** In every state reached by pushes, a push never fails, consumes no more than the input
and no more than what completes the current chunk, at least one byte of a non-empty input, and
emits at most two blocks. -/
theorem C06_push_progress {sha : Bytes → Bytes} {chunk bf : Nat} (hc : 1 ≤ chunk) (hb : 1 ≤ bf)
    {content : Bytes} {blocks : List (Cid × Bytes)} {a : Adder} (h : Run sha chunk bf content blocks a)
    (input : Bytes) :
    ∃ new n a', a.push sha input = .ok (new, n, a') ∧ n ≤ input.length ∧
      content.length % chunk + n ≤ chunk ∧ (input ≠ [] → 1 ≤ n) ∧ new.length ≤ 2 := by
  obtain ⟨hr, hi, _⟩ := h.spec hc hb
  obtain ⟨bs, a', new, h1, _, _, _, h5⟩ := Adder.push_spec sha hc hb hr hi input
  have hbuf := hi.buf
  have hmod := Abs.run_buf_length hc bf content
  refine ⟨_, _, _, h1, Nat.min_le_left _ _, by omega, ?_, h5⟩
  intro hne
  have := List.length_pos_iff.mpr hne
  omega

/-- **C06.** The loop pushing the unconsumed rest ends with everything consumed. -/
theorem C06_loop_terminates {sha : Bytes → Bytes} {chunk bf : Nat} (hc : 1 ≤ chunk) (hb : 1 ≤ bf)
    {content : Bytes} {blocks : List (Cid × Bytes)} {a : Adder} (h : Run sha chunk bf content blocks a)
    (input : Bytes) :
    ∃ new a', Adder.pushAll sha input.length a input = .ok (new, a') ∧
      Run sha chunk bf (content ++ input) (blocks ++ new) a' := by
  have key : ∀ (fuel : Nat) (input content : Bytes) (blocks : List (Cid × Bytes)) (a : Adder),
      input.length ≤ fuel → Run sha chunk bf content blocks a →
      ∃ new a', Adder.pushAll sha fuel a input = .ok (new, a') ∧
        Run sha chunk bf (content ++ input) (blocks ++ new) a' := by
    intro fuel
    induction fuel with
    | zero =>
      intro input content blocks a hl h
      have : input = [] := List.length_eq_zero_iff.mp (by omega)
      subst this
      exact ⟨[], a, rfl, by simpa using h⟩
    | succ fuel ih =>
      intro input content blocks a hl h
      by_cases hne : input = []
      · subst hne
        exact ⟨[], a, rfl, by simpa using h⟩
      · obtain ⟨new, n, a', hp, h1, _, h3, _⟩ := C06_push_progress hc hb h input
        have := h3 hne
        obtain ⟨more, a'', hm, hrun⟩ := ih (input.drop n) _ _ a' (by simp; omega) (Run.push input h hp)
        refine ⟨new ++ more, a'', ?_, ?_⟩
        · have : input.isEmpty = false := by simpa using hne
          simp only [Adder.pushAll, this, hp, hm]
          rfl
        · rw [List.append_assoc, List.take_append_drop, List.append_assoc] at hrun
          exact hrun
  exact key _ _ _ _ _ (Nat.le_refl _) h

/-! ## C07 -/

/-- **C07.** Reading the range `start..stop` of an added file gives exactly the bytes at the
positions `start ≤ i < stop` that exist. -/
theorem C07_range {sha : Bytes → Bytes} (hsha : Digest32 sha) {chunk bf : Nat}
    {slices : List Bytes} (hfit : Fits chunk bf slices.flatten) (start stop : Nat) :
    ∃ blocks root, addFile sha chunk bf slices = .ok blocks ∧ blocks.getLast? = some root ∧
      ∀ fetch : Cid → Option Bytes, (∀ b ∈ blocks, fetch b.1 = some b.2) →
        ∃ n chunks, chunks.flatten = (slices.flatten.take stop).drop start ∧
          ∀ fuel, n ≤ fuel → cat fetch (some ⟨start, stop⟩) root.2 fuel = (chunks, .done) := by
  obtain ⟨log, root, hlog, hadd, hlast, hcon, hshape, htot, _, hsub⟩ := add_spec hsha hfit
  refine ⟨_, _, hadd _ rfl, hlast, ?_⟩
  intro fetch hfetch
  have hlen := hfit.content
  obtain ⟨n, cs, hcs, hcat⟩ := cat_tree (some ⟨start, stop⟩) hsha hfit.chunkLe hfit.bfLe
    (fetch := fetch) root.2 hshape htot (by rw [hcon]; omega) (fun s hs => by
      exact hfetch _ (List.mem_map.mpr ⟨s, hsub s hs, rfl⟩))
  exact ⟨n, cs, by rw [hcs, hcon]; rfl, hcat⟩

/-! ## C09 -/

/-- **C09.** Any UnixFS node whose lengths fit survives encoding, and the size computed
beforehand is the number of bytes written. -/
theorem C09_flat_roundtrip (f : Flat) (h : f.WF) :
    Flat.parse f.write = .ok f ∧ f.write.length = f.getSize :=
  ⟨Flat.parse_write f h, Flat.write_length f h⟩

/-- **C09** for plain dag-pb nodes. -/
theorem C09_node_roundtrip (n : PBNode) (h : n.WF) :
    PBNode.parse n.write = some n ∧ n.write.length = n.getSize :=
  ⟨PBNode.parse_write n h, PBNode.write_length n h⟩

/-- A node using every field. -/
example : Flat.WF
    { links := [{ hash := some [1, 2], name := some [104, 105], tsize := some 5 }]
      data := { type := .hamtShard, data := some [0xff], filesize := some (2 ^ 64 - 1),
                blocksizes := [0, 2 ^ 63], hashType := some 0x22, fanout := some 256,
                mode := some 0o644, mtime := some { seconds := -1, nanos := some 999999999 } } } := by
  refine ⟨?_, ?_, by decide⟩
  · intro l hl
    simp at hl
    subst hl
    refine ⟨?_, ?_, ?_, by decide⟩ <;> simp [OptAll] <;> decide
  · constructor <;> simp [OptAll]
    exact ⟨by simp, by simp, by simp [OptAll]⟩

/-! ## Why chunk size 0 and branching factor 1 are excluded -/

/-- With chunk size 0 every push panics. -/
theorem chunk0_panics (sha : Bytes → Bytes) (bf : Nat) (input : Bytes) :
    Adder.push sha { chunk := 0, bf := bf } input = .error .panic := by
  simp [Adder.push, accept, flushBufferedLeaf]

/-- With branching factor 1 (accepted by `BalancedCollector::with_branching_factor`) finishing a
file of two leaves never ends, whatever number of levels is tried: each round puts a new node above
each of the two links. -/
theorem bf1_diverges (sha : Bytes → Bytes) : ∀ (fuel level : Nat) (l1 l2 : Link) (ret : List Block),
    l1.depth = level → l2.depth = level →
    flushLoop sha 1 true fuel level [l1, l2] ret = .error .diverges := by
  intro fuel
  induction fuel with
  | zero => intros; rfl
  | succ fuel ih =>
    intro level l1 l2 ret h1 h2
    simp only [flushLoop, List.length_cons, List.length_nil, levelLoop]
    simp [h1, h2, List.findIdx?_cons]
    apply ih <;> rfl

end Verif.Props
