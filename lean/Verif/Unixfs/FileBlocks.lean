import Verif.Unixfs.PbLemmas
import Verif.Unixfs.FileLog

/-! # The blocks of file trees: sizes, encoding and decoding -/

namespace Verif.Unixfs

open Verif

/-- The link to a tree in its parent's block. -/
def T.pbLink (sha : Bytes → Bytes) {d : Nat} (k : T d) : PBLink :=
  { hash := some (k.block sha).1.toBytes, name := some [], tsize := some ((k.link sha).totalSize) }

/-- The link `partition_link` makes. -/
def Link.pb (l : Link) : PBLink :=
  { hash := some l.target.toBytes, name := some [], tsize := some l.totalSize }

theorem foldl_partition (ls : List Link) (p : Partition) :
    ls.foldl partitionLink p =
      { links := p.links ++ ls.map Link.pb
        blocksizes := p.blocksizes ++ ls.map Link.fileSize
        nestedSize := p.nestedSize + (ls.map Link.fileSize).sum
        nestedTotal := p.nestedTotal + (ls.map Link.totalSize).sum } := by
  induction ls generalizing p with
  | nil => simp
  | cons l ls ih =>
    rw [List.foldl_cons, ih]
    simp [partitionLink, Link.pb]
    omega

/-- The node of a tree's top. -/
def T.flat (sha : Bytes → Bytes) : {d : Nat} → T d → Flat
  | 0, (b : Bytes) => leafFlat b
  | _ + 1, t =>
    { links := (t.kids.map (T.link sha)).map Link.pb
      data :=
        { type := .file
          filesize := some ((t.kids.map (T.link sha)).map Link.fileSize).sum
          blocksizes := (t.kids.map (T.link sha)).map Link.fileSize } }

theorem T.block_eq (sha : Bytes → Bytes) {d : Nat} (t : T d) :
    t.block sha = renderAndHash sha (t.flat sha) := by
  cases d with
  | zero => rfl
  | succ d => simp [T.block, T.flat, foldl_partition, Partition.flat]

theorem sum_map_length_flatten {α β : Type} (l : List α) (f : α → List β) :
    ((l.map f).flatten).length = (l.map (fun x => (f x).length)).sum := by
  induction l with
  | nil => rfl
  | cons a as ih => simp [ih]

theorem T.fileSize_eq (sha : Bytes → Bytes) : ∀ {d : Nat} (t : T d),
    (t.link sha).fileSize = t.content.length := by
  intro d
  induction d with
  | zero => intro t; rfl
  | succ d ih =>
    intro t
    simp only [T.link, foldl_partition, T.content, Nat.zero_add, List.map_map]
    rw [sum_map_length_flatten]
    congr 1
    apply List.map_congr_left
    intro k _
    exact ih k

/-- Bytes of all blocks of a tree, counted as often as they are linked. -/
def T.total (sha : Bytes → Bytes) : {d : Nat} → T d → Nat
  | 0, t => (t.block sha).2.length
  | _ + 1, t => (t.block sha).2.length + (t.kids.map (T.total sha)).sum

theorem T.totalSize_eq (sha : Bytes → Bytes) : ∀ {d : Nat} (t : T d),
    (t.link sha).totalSize = t.total sha := by
  intro d
  induction d with
  | zero => intro t; rfl
  | succ d ih =>
    intro t
    have : (t.kids.map (T.link sha)).map Link.totalSize = t.kids.map (T.total sha) := by
      rw [List.map_map]; apply List.map_congr_left; intro k _; exact ih k
    have hb : (renderAndHash sha ((t.kids.map (T.link sha)).foldl partitionLink {}).flat).2 =
        (t.block sha).2 := by simp [T.block]
    simp only [T.link]
    rw [hb, T.total, foldl_partition]
    simp only [this]
    omega

theorem T.flat_node (sha : Bytes → Bytes) {d : Nat} (t : T (d + 1)) :
    t.flat sha =
      { links := t.kids.map (T.pbLink sha)
        data :=
          { type := .file, filesize := some t.content.length
            blocksizes := t.kids.map (fun k => k.content.length) } } := by
  have h1 : (t.kids.map (T.link sha)).map Link.fileSize = t.kids.map (fun k => k.content.length) := by
    rw [List.map_map]; apply List.map_congr_left; intro k _; exact T.fileSize_eq sha k
  have h2 : (t.kids.map (fun k => k.content.length)).sum = t.content.length := by
    rw [T.content, sum_map_length_flatten]
  have h3 : (t.kids.map (T.link sha)).map Link.pb = t.kids.map (T.pbLink sha) := by
    rw [List.map_map]; apply List.map_congr_left; intro k _
    simp only [Function.comp_def, Link.pb, T.pbLink, T.link_target]
  simp only [T.flat, h1, h2, h3]

/-- Shape of a file tree: leaves no longer than `chunk`, nodes with one to `bf` children. -/
def T.Shape (chunk bf : Nat) : {d : Nat} → T d → Prop
  | 0, t => t.bytes.length ≤ chunk
  | _ + 1, t => t.kids ≠ [] ∧ t.kids.length ≤ bf ∧ ∀ k ∈ t.kids, T.Shape chunk bf k

theorem sizeofVarint_le (n : Nat) : 1 ≤ sizeofVarint n ∧ sizeofVarint n ≤ 10 := by
  unfold sizeofVarint; repeat' split
  all_goals omega

theorem sum_map_le {α : Type} (l : List α) (f : α → Nat) (b : Nat) (h : ∀ x ∈ l, f x ≤ b) :
    (l.map f).sum ≤ b * l.length := by
  induction l with
  | nil => simp
  | cons a as ih =>
    have h1 := h a (by simp)
    have h2 := ih (fun x hx => h x (by simp [hx]))
    simp only [List.map_cons, List.sum_cons, List.length_cons, Nat.mul_add, Nat.mul_one]
    omega

theorem le_sum_map {α : Type} (l : List α) (f : α → Nat) {x : α} (hx : x ∈ l) :
    f x ≤ (l.map f).sum := by
  induction l with
  | nil => cases hx
  | cons a as ih =>
    simp only [List.map_cons, List.sum_cons]
    rcases List.mem_cons.mp hx with rfl | hx
    · omega
    · have := ih hx; omega

theorem Cid.v0_toBytes_length (d : Bytes) (h : d.length = 32) : (Cid.v0 d).toBytes.length = 34 := by
  simp [Cid.toBytes, Cid.v0, mhBytes, h, mhSha256]
  rw [writeVarint_small (by omega), writeVarint_small (by omega)]
  simp

section

variable {sha : Bytes → Bytes} (hsha : ∀ b, (sha b).length = 32)
include hsha

theorem T.cid_valid {d : Nat} (t : T d) : (t.block sha).1.Valid := by
  rw [T.block_eq]; exact Cid.v0_valid _ (hsha _)

theorem T.cid_length {d : Nat} (t : T d) : (t.block sha).1.toBytes.length = 34 := by
  rw [T.block_eq]; exact Cid.v0_toBytes_length _ (hsha _)

omit hsha in
theorem T.kid_total_le {d : Nat} (t : T (d + 1)) {k : T d} (hk : k ∈ t.kids) :
    k.total sha ≤ t.total sha := by
  have := le_sum_map t.kids (T.total sha) hk
  rw [T.total]; omega

omit hsha in
theorem T.kids_total_lt {n d : Nat} (t : T d) (h : t.total sha < n) :
    ∀ k ∈ t.any.kids, k.2.total sha < n := by
  intro k hk
  cases d with
  | zero => cases hk
  | succ d =>
    obtain ⟨x, hx, rfl⟩ := List.mem_map.mp hk
    exact Nat.lt_of_le_of_lt (T.kid_total_le t hx) h

/-- The size the code computes for a node, bounded. -/
theorem T.getSize_le {chunk bf : Nat} {d : Nat} (t : T d) (h : t.Shape chunk bf) :
    (t.flat sha).data.getSize ≤ chunk + 11 * bf + 40 ∧
    (∀ l ∈ (t.flat sha).links, l.getSize ≤ 49) ∧
    (t.flat sha).getSize ≤ t.content.length * (if d = 0 then 1 else 0) +
      80 * (t.flat sha).links.length + 60 := by
  have hv := sizeofVarint_le
  cases d with
  | zero =>
    have hl : t.bytes.length ≤ chunk := h
    have hd : (t.flat sha).data.getSize ≤ t.content.length + 36 := by
      have h1 := hv (leafFlat t.bytes).data.type.toWire
      have h2 := hv t.bytes.length
      change (leafFlat t.bytes).data.getSize ≤ t.bytes.length + 36
      unfold UnixFs.getSize leafFlat
      unfold leafFlat at h1
      by_cases he : t.bytes.isEmpty
      · simp only [he, if_true, optSize, List.map_nil, List.sum_nil] at h1 ⊢
        omega
      · simp only [he, optSize, List.map_nil, List.sum_nil, sizeofLen] at h1 ⊢
        simp
        omega
    have hc : t.content = t.bytes := rfl
    refine ⟨by rw [hc] at hd; omega, ?_, ?_⟩
    · intro l hl; cases hl
    · have h3 := hv (t.flat sha).data.getSize
      have : (t.flat sha).links = [] := rfl
      unfold Flat.getSize
      rw [this]
      simp [sizeofLen]
      omega
  | succ d =>
    obtain ⟨hne, hlen, hk⟩ := h
    rw [T.flat_node]
    have hlink : ∀ l ∈ t.kids.map (T.pbLink sha), l.getSize ≤ 49 := by
      intro l hl
      obtain ⟨k, _, rfl⟩ := List.mem_map.mp hl
      have h1 := hv (k.total sha)
      simp only [T.pbLink, T.totalSize_eq, PBLink.getSize, optSize, sizeofLen, T.cid_length hsha, List.length_nil]
      have h34 : sizeofVarint 34 = 1 := by decide
      have h0 : sizeofVarint 0 = 1 := by decide
      rw [h34, h0]
      omega
    have hbs : ((t.kids.map (fun k => k.content.length)).map (fun s => 1 + sizeofVarint s)).sum ≤
        11 * t.kids.length := by
      have := sum_map_le (t.kids.map (fun k => k.content.length)) (fun s => 1 + sizeofVarint s) 11
        (fun x _ => by have := hv x; omega)
      simpa using this
    have hds : (UnixFs.getSize
        { type := .file, filesize := some t.content.length,
          blocksizes := t.kids.map (fun k => k.content.length) }) ≤ 11 * t.kids.length + 22 := by
      have h1 := hv FsType.file.toWire
      have h2 := hv t.content.length
      simp only [UnixFs.getSize, optSize]
      omega
    refine ⟨?_, hlink, ?_⟩
    · simp only []; omega
    · have hs := sum_map_le (t.kids.map (T.pbLink sha)) (fun s => 1 + sizeofLen s.getSize) 60 (by
          intro l hl
          have h1 := hlink l hl
          have h2 := hv l.getSize
          simp only [sizeofLen]; omega)
      have h3 := hv (UnixFs.getSize
        { type := .file, filesize := some t.content.length,
          blocksizes := t.kids.map (fun k => k.content.length) })
      simp only [Flat.getSize, List.length_map, sizeofLen] at hs ⊢
      omega

theorem T.flat_wf {chunk bf : Nat} (hchunk : chunk ≤ 2 ^ 30) (hbf : bf ≤ 2 ^ 27) {d : Nat} (t : T d)
    (h : t.Shape chunk bf) (htot : ∀ k ∈ t.any.kids, k.2.total sha < 2 ^ 64)
    (hcon : t.content.length < 2 ^ 64) : (t.flat sha).WF := by
  obtain ⟨g1, g2, _⟩ := T.getSize_le hsha t h
  cases d with
  | zero =>
    have hl : t.bytes.length ≤ chunk := h
    refine ⟨fun l hl => (by cases hl), ?_, by omega⟩
    constructor
    · intro b hb
      have : b = t.bytes := by
        change (if t.bytes.isEmpty then none else some t.bytes) = some b at hb
        split at hb
        · cases hb
        · exact (Option.some.inj hb).symm
      rw [this]; omega
    · intro n hn
      have : n = t.bytes.length := (Option.some.inj hn).symm
      omega
    · intro n hn; cases hn
    · intro n hn; cases hn
    · intro n hn; cases hn
    · intro n hn; cases hn
    · intro n hn; cases hn
  | succ d =>
    have hks : ∀ k ∈ t.kids, k.content.length ≤ t.content.length := by
      intro k hk
      rw [show t.content.length = (t.kids.map (fun k => k.content.length)).sum by
        rw [T.content, sum_map_length_flatten]]
      exact le_sum_map t.kids (fun k => k.content.length) hk
    have hkt : ∀ k ∈ t.kids, k.total sha < 2 ^ 64 := fun k hk =>
      htot k.any (List.mem_map.mpr ⟨k, hk, rfl⟩)
    rw [T.flat_node] at g1 g2 ⊢
    refine ⟨?_, ?_, by omega⟩
    · intro l hl
      have hs := g2 l hl
      obtain ⟨k, hk, rfl⟩ := List.mem_map.mp hl
      refine ⟨?_, ?_, ?_, by omega⟩
      · intro b hb
        rw [← Option.some.inj hb, T.cid_length hsha]; omega
      · intro b hb
        rw [← Option.some.inj hb]; decide
      · intro n hn
        rw [← Option.some.inj hn, T.totalSize_eq]
        exact hkt k hk
    · constructor
      · intro b hb; cases hb
      · intro n hn
        rw [← Option.some.inj hn]; exact hcon
      · intro n hn
        obtain ⟨k, hk, rfl⟩ := List.mem_map.mp hn
        have := hks k hk
        omega
      · intro n hn; cases hn
      · intro n hn; cases hn
      · intro n hn; cases hn
      · intro n hn; cases hn

theorem T.parse_block {chunk bf : Nat} (hchunk : chunk ≤ 2 ^ 30) (hbf : bf ≤ 2 ^ 27) {d : Nat} (t : T d)
    (h : t.Shape chunk bf) (htot : t.total sha < 2 ^ 64) (hcon : t.content.length < 2 ^ 64) :
    Flat.parse (t.block sha).2 = .ok (t.flat sha) := by
  rw [T.block_eq]
  exact Flat.parse_write _ (T.flat_wf hsha hchunk hbf t h (T.kids_total_lt t htot) hcon)

end

theorem Sub.bounds (sha : Bytes → Bytes) {s t : AnyT} (h : Sub s t) :
    s.2.total sha ≤ t.2.total sha ∧ s.2.content.length ≤ t.2.content.length := by
  induction h with
  | refl => exact ⟨Nat.le_refl _, Nat.le_refl _⟩
  | @step k t _ hk ih =>
    obtain ⟨d, t⟩ := t
    cases d with
    | zero => cases hk
    | succ d =>
      obtain ⟨x, hx, rfl⟩ := List.mem_map.mp hk
      have h1 := T.kid_total_le (sha := sha) t hx
      have h2 := le_sum_map (T.kids t) (fun k => k.content.length) hx
      rw [show ((T.kids t).map (fun k => k.content.length)).sum = t.content.length by
        rw [T.content, sum_map_length_flatten]] at h2
      exact ⟨Nat.le_trans ih.1 h1, Nat.le_trans ih.2 h2⟩

end Verif.Unixfs
