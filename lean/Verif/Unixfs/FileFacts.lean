import Verif.Unixfs.FileBlocks

/-! # Sizes and shape of the tree of a file -/

namespace Verif.Unixfs

open Verif

section

variable {sha : Bytes → Bytes} (hsha : ∀ b, (sha b).length = 32)
include hsha

theorem T.block_length_le {chunk bf : Nat} (hchunk : chunk ≤ 2 ^ 30) (hbf : bf ≤ 2 ^ 27) {d : Nat}
    (t : T d) (h : t.Shape chunk bf) (htot : ∀ k ∈ t.any.kids, k.2.total sha < 2 ^ 64)
    (hcon : t.content.length < 2 ^ 64) :
    (t.block sha).2.length ≤ t.content.length * (if d = 0 then 1 else 0) +
      80 * t.any.kids.length + 60 := by
  have hw := Flat.write_length _ (T.flat_wf hsha hchunk hbf t h htot hcon)
  have hg := (T.getSize_le hsha t h).2.2
  have hk : (t.flat sha).links.length = t.any.kids.length := by
    cases d with
    | zero => rfl
    | succ d => simp [T.flat_node, AnyT.kids, T.any]
  rw [T.block_eq]
  change (t.flat sha).write.length ≤ _
  rw [hw, ← hk]; exact hg

omit hsha in
theorem chunksOf_length_half {α : Type} {n : Nat} (hn : 2 ≤ n) (l : List α) :
    2 * (chunksOf n l).length ≤ l.length + 1 := by
  induction l using chunksOf_induction (show 0 < n by omega) with
  | nil => simp
  | cons l hl ih =>
    rw [chunksOf_cons (by omega) hl]
    have hp := List.length_pos_iff.mpr hl
    simp only [List.length_cons, List.length_drop] at ih ⊢
    by_cases h : l.length ≤ n
    · have : l.drop n = [] := List.drop_eq_nil_of_le h
      rw [this]; simp; omega
    · omega

omit hsha in
theorem sum_map_chunks {α : Type} {n : Nat} (hn : 0 < n) (f : α → Nat) (l : List α) :
    ((chunksOf n l).map (fun c => (c.map f).sum)).sum = (l.map f).sum := by
  rw [show (l.map f).sum = (((chunksOf n l).flatten).map f).sum by rw [chunksOf_flatten hn l]]
  generalize chunksOf n l = cs
  induction cs with
  | nil => rfl
  | cons c cs ih => simp [ih]

/-- The sum over one level, from the level below. -/
theorem level_total {chunk bf : Nat} (hchunk : chunk ≤ 2 ^ 30) (hbf : bf ≤ 2 ^ 27) {d : Nat} :
    ∀ (cs : List (List (T d))), (∀ c ∈ cs, (T.node c).Shape chunk bf ∧
      (T.node c).content.length < 2 ^ 64 ∧ ∀ k ∈ c, k.total sha < 2 ^ 64) →
      ((cs.map T.node).map (T.total sha)).sum ≤
        (cs.map (fun c => (c.map (T.total sha)).sum)).sum + 80 * cs.flatten.length + 60 * cs.length := by
  intro cs
  induction cs with
  | nil => simp
  | cons c cs ih =>
    intro h
    obtain ⟨h1, h2, h3⟩ := h c (by simp)
    have hi := ih (fun c' hc' => h c' (by simp [hc']))
    have hb := T.block_length_le hsha hchunk hbf (T.node c) h1 (by
      intro k hk
      rw [AnyT.kids_node] at hk
      obtain ⟨x, hx, rfl⟩ := List.mem_map.mp hk
      exact h3 x hx) h2
    rw [AnyT.kids_node] at hb
    simp only [List.map_cons, List.sum_cons, List.flatten_cons, List.length_append,
      List.length_cons, List.length_map, Nat.succ_ne_zero, if_false, Nat.mul_zero] at hb hi ⊢
    have ht : (T.node c).total sha = ((T.node c).block sha).2.length + (c.map (T.total sha)).sum := rfl
    rw [ht]
    omega

theorem collapse_total {chunk bf : Nat} (hchunk : chunk ≤ 2 ^ 30) (hbf : bf ≤ 2 ^ 27) (hb : 2 ≤ bf) :
    ∀ (fuel : Nat) {d : Nat} (ts : List (T d)) log r, collapse bf fuel ts = some (log, r) →
      (∀ t ∈ ts, t.Shape chunk bf) → ((ts.map T.content).flatten).length < 2 ^ 64 → ts ≠ [] →
      (ts.map (T.total sha)).sum + 420 * ts.length < 2 ^ 64 →
      r.2.total sha ≤ (ts.map (T.total sha)).sum + 420 * ts.length := by
  intro fuel
  induction fuel with
  | zero => intro d ts log r h; cases h
  | succ fuel ih =>
    intro d ts log r h hsh hcon hne hbound
    by_cases h1 : ts.length = 1
    · match ts, h1 with
      | [t], _ =>
        rw [collapse_one] at h; cases h
        simp [T.any]
    · rw [collapse_step _ _ _ h1] at h
      obtain ⟨⟨log', r'⟩, hr, he⟩ := Option.map_eq_some_iff.mp h
      cases he
      have hp := List.length_pos_iff.mpr hne
      have hhalf := chunksOf_length_half hb ts
      have hmem : ∀ c ∈ chunksOf bf ts, ∀ k ∈ c, k ∈ ts := by
        intro c hc k hk
        rw [← chunksOf_flatten (show 0 < bf by omega) ts]
        exact List.mem_flatten.mpr ⟨c, hc, hk⟩
      have hshape : ∀ c ∈ chunksOf bf ts, (T.node c).Shape chunk bf := by
        intro c hc
        have hl := chunksOf_mem_length (show 0 < bf by omega) ts c hc
        exact ⟨List.length_pos_iff.mp hl.1, hl.2, fun k hk => hsh k (hmem c hc k hk)⟩
      have hcont : (((chunksOf bf ts).map T.node).map T.content).flatten = (ts.map T.content).flatten := by
        rw [List.map_map]; exact flatten_map_chunks (by omega) T.content ts
      have hl := level_total hsha hchunk hbf (chunksOf bf ts) (by
        intro c hc
        refine ⟨hshape c hc, ?_, ?_⟩
        · refine Nat.lt_of_le_of_lt ?_ hcon
          rw [← hcont, sum_map_length_flatten]
          exact le_sum_map _ (fun x : T (d + 1) => x.content.length) (List.mem_map.mpr ⟨c, hc, rfl⟩)
        · intro k hk
          have := le_sum_map ts (T.total sha) (hmem c hc k hk)
          omega)
      rw [sum_map_chunks (by omega), chunksOf_flatten (by omega)] at hl
      have := ih ((chunksOf bf ts).map T.node) _ _ hr (by
        intro t ht
        obtain ⟨c, hc, rfl⟩ := List.mem_map.mp ht
        exact hshape c hc) (by rw [hcont]; exact hcon)
        (by simpa using chunksOf_ne_nil (by omega) hne)
        (by rw [List.length_map]; omega)
      rw [List.length_map] at this
      simp only [] at this ⊢
      omega

omit hsha in
theorem leavesOf_content {chunk : Nat} (hc : 0 < chunk) (content : Bytes) :
    ((leavesOf chunk content).map T.content).flatten = content := by
  unfold leavesOf
  split
  · rename_i h; rw [h]; rfl
  · rw [List.map_map]
    have : (T.content ∘ T.leaf) = (id : Bytes → Bytes) := rfl
    rw [this, List.map_id, chunksOf_flatten hc]

omit hsha in
theorem leavesOf_shape {chunk bf : Nat} (hc : 0 < chunk) (content : Bytes) :
    ∀ t ∈ leavesOf chunk content, t.Shape chunk bf := by
  intro t ht
  unfold leavesOf at ht
  split at ht
  · rw [List.mem_singleton] at ht; subst ht; exact Nat.zero_le _
  · obtain ⟨b, hb, rfl⟩ := List.mem_map.mp ht
    exact (chunksOf_mem_length hc content b hb).2

omit hsha in
theorem leavesOf_length_le {chunk : Nat} (hc : 0 < chunk) (content : Bytes) :
    (leavesOf chunk content).length ≤ content.length + 1 := by
  unfold leavesOf
  split
  · simp
  · have := chunksOf_length_le hc content
    rw [List.length_map]; omega

theorem leaves_total {chunk bf : Nat} (hchunk : chunk ≤ 2 ^ 30) (hbf : bf ≤ 2 ^ 27) :
    ∀ (ts : List (T 0)), (∀ t ∈ ts, t.Shape chunk bf) →
      (ts.map (T.total sha)).sum ≤ ((ts.map T.content).flatten).length + 60 * ts.length := by
  intro ts
  induction ts with
  | nil => simp
  | cons t ts ih =>
    intro h
    have hi := ih (fun x hx => h x (by simp [hx]))
    have hs : t.bytes.length ≤ chunk := h t (by simp)
    have hcb : t.content = t.bytes := rfl
    have hb := T.block_length_le hsha hchunk hbf t (h t (by simp)) (by intro k hk; cases hk)
      (by rw [hcb]; omega)
    have hk : t.any.kids = [] := rfl
    have ht : t.total sha = (t.block sha).2.length := rfl
    rw [hk] at hb
    simp at hb
    simp only [List.map_cons, List.sum_cons, List.flatten_cons, List.length_append, List.length_cons]
    rw [ht]
    omega

/-- Facts about the tree of a file. -/
theorem root_facts {chunk bf : Nat} (hc : 0 < chunk) (hchunk : chunk ≤ 2 ^ 30) (hb : 2 ≤ bf)
    (hbf : bf ≤ 2 ^ 27) {content : Bytes} (hlen : content.length ≤ 2 ^ 54) {log : List AnyT}
    {root : AnyT} (h : FileLog chunk bf content log root) :
    root.2.content = content ∧ root.2.Shape chunk bf ∧ root.2.total sha < 2 ^ 64 ∧
      ∀ t ∈ log, t.2.Shape chunk bf := by
  obtain ⟨fuel, l, hcol, hmem⟩ := h.made
  have hlc := leavesOf_content hc content
  have hls := leavesOf_shape (bf := bf) hc content
  have hll := leavesOf_length_le hc content
  have hshape := collapse_ind (show 0 < bf by omega) (fun d t => t.Shape chunk bf)
    (fun d ts h1 h2 h3 => ⟨h1, h2, h3⟩) _ _ _ _ hcol hls
  have hlt := leaves_total hsha hchunk hbf _ hls
  rw [hlc] at hlt
  have htot := collapse_total hsha hchunk hbf hb _ _ _ _ hcol hls (by rw [hlc]; omega)
    (leavesOf_ne_nil hc content) (by omega)
  refine ⟨by rw [collapse_content (by omega) _ _ _ _ hcol, hlc], hshape.1, by omega, ?_⟩
  intro t ht
  rcases List.mem_append.mp ((hmem t).mp ht) with ht | ht
  · obtain ⟨x, hx, rfl⟩ := List.mem_map.mp ht
    exact hls x hx
  · exact hshape.2 t ht

end

/-! ## Shape -/

/-- Widths of all trees of a level, left to right. -/
def widthsF {d : Nat} (ts : List (T d)) (k : Nat) : List Nat := (ts.map (fun t => T.widths t k)).flatten

theorem widthsF_up_zero {n d : Nat} (ts : List (T d)) :
    widthsF ((chunksOf n ts).map T.node) 0 = (chunksOf n ts).map List.length := by
  unfold widthsF
  generalize chunksOf n ts = cs
  induction cs with
  | nil => rfl
  | cons c cs ih => simp [T.widths] at ih ⊢; exact ih

theorem widthsF_up_succ {n d : Nat} (hn : 0 < n) (ts : List (T d)) (k : Nat) :
    widthsF ((chunksOf n ts).map T.node) (k + 1) = widthsF ts k := by
  rw [show widthsF ts k = widthsF (chunksOf n ts).flatten k by rw [chunksOf_flatten hn]]
  unfold widthsF
  generalize chunksOf n ts = cs
  induction cs with
  | nil => rfl
  | cons c cs ih => simp [T.widths] at ih ⊢; rw [ih]

theorem chunksOf_almostFull {α : Type} {n : Nat} (hn : 0 < n) (l : List α) :
    AlmostFull n ((chunksOf n l).map List.length) := by
  refine ⟨?_, ?_⟩
  · intro x hx
    obtain ⟨c, hc, rfl⟩ := List.mem_map.mp hx
    have := chunksOf_mem_length hn l c hc
    omega
  · intro x hx
    rw [← List.map_dropLast] at hx
    obtain ⟨c, hc, rfl⟩ := List.mem_map.mp hx
    exact chunksOf_dropLast_length hn l c hc

theorem collapse_widths {bf : Nat} (hb : 0 < bf) : ∀ (fuel : Nat) {d : Nat} (ts : List (T d)) log r,
    collapse bf fuel ts = some (log, r) → (∀ k, AlmostFull bf (widthsF ts k)) →
      ∀ k, AlmostFull bf (r.2.widths k) := by
  intro fuel
  induction fuel with
  | zero => intro d ts log r h; cases h
  | succ fuel ih =>
    intro d ts log r h hts
    by_cases h1 : ts.length = 1
    · match ts, h1 with
      | [t], _ =>
        rw [collapse_one] at h; cases h
        simpa [widthsF, T.any] using hts
    · rw [collapse_step _ _ _ h1] at h
      obtain ⟨⟨log', r'⟩, hr, he⟩ := Option.map_eq_some_iff.mp h
      cases he
      refine ih _ _ _ hr ?_
      intro k
      cases k with
      | zero => rw [widthsF_up_zero]; exact chunksOf_almostFull hb ts
      | succ k => rw [widthsF_up_succ hb]; exact hts k

theorem collapse_leafs {bf : Nat} (hb : 0 < bf) : ∀ (fuel : Nat) {d : Nat} (ts : List (T d)) log r,
    collapse bf fuel ts = some (log, r) → r.2.leafs = (ts.map T.leafs).flatten := by
  intro fuel
  induction fuel with
  | zero => intro d ts log r h; cases h
  | succ fuel ih =>
    intro d ts log r h
    by_cases h1 : ts.length = 1
    · match ts, h1 with
      | [t], _ =>
        rw [collapse_one] at h; cases h
        simp [T.any]
    · rw [collapse_step _ _ _ h1] at h
      obtain ⟨⟨log', r'⟩, hr, he⟩ := Option.map_eq_some_iff.mp h
      cases he
      rw [ih _ _ _ hr, List.map_map]
      rw [show (ts.map T.leafs).flatten = (((chunksOf bf ts).flatten).map T.leafs).flatten by
        rw [chunksOf_flatten hb]]
      generalize chunksOf bf ts = cs
      induction cs with
      | nil => rfl
      | cons c cs ih => simp [T.leafs] at ih ⊢; rw [ih]

theorem root_shape {chunk bf : Nat} (hb : 0 < bf) {content : Bytes}
    {log : List AnyT} {root : AnyT} (h : FileLog chunk bf content log root) :
    (∀ k, AlmostFull bf (root.2.widths k)) ∧
      root.2.leafs = (if content = [] then [[]] else chunksOf chunk content) := by
  obtain ⟨fuel, l, hcol, hmem⟩ := h.made
  refine ⟨collapse_widths hb _ _ _ _ hcol ?_, ?_⟩
  · intro k
    have : widthsF (leavesOf chunk content) k = [] := by
      unfold widthsF
      generalize leavesOf chunk content = ts
      induction ts with
      | nil => rfl
      | cons t ts ih => simp [T.widths] 
    rw [this]; exact ⟨by simp, by simp⟩
  · rw [collapse_leafs hb _ _ _ _ hcol]
    unfold leavesOf
    split
    · rfl
    · rw [List.map_map]
      generalize chunksOf chunk content = cs
      induction cs with
      | nil => rfl
      | cons c cs ih => simp at ih ⊢; rw [ih]; rfl

/-! ## The dag in a store -/

theorem fileDag_of_blocks {sha : Bytes → Bytes} (hsha : ∀ b, (sha b).length = 32) {chunk bf : Nat}
    (hchunk : chunk ≤ 2 ^ 30) (hbf : bf ≤ 2 ^ 27) {fetch : Cid → Option Bytes} :
    ∀ {d : Nat} (t : T d), t.Shape chunk bf → t.total sha < 2 ^ 64 → t.content.length < 2 ^ 64 →
      (∀ s, Sub s t.any → fetch (s.2.block sha).1 = some (s.2.block sha).2) →
      FileDag fetch d (t.block sha).1 t (t.total sha) := by
  intro d
  induction d with
  | zero =>
    intro t hs ht hcl hf
    refine ⟨(t.block sha).2, t.flat sha, hf _ (Sub.refl _), T.parse_block hsha hchunk hbf t hs ht hcl,
      rfl, rfl, rfl, ?_, rfl, rfl⟩
    change (if t.bytes.isEmpty then none else some t.bytes).getD [] = t.bytes
    cases hx : t.bytes with
    | nil => rfl
    | cons b bs => rfl
  | succ d ih =>
    intro t hs ht hcl hf
    have hp := T.parse_block hsha hchunk hbf t hs ht hcl
    have hsum : (t.kids.map (fun k => k.content.length)).sum = t.content.length := by
      rw [T.content, sum_map_length_flatten]
    refine ⟨(t.block sha).2, t.flat sha, t.kids.map (T.total sha), hf _ (Sub.refl _), hp, ?_⟩
    rw [T.flat_node]
    refine ⟨rfl, rfl, rfl, rfl, hsum, by simp, by simp, ?_, ?_, rfl⟩
    · simp only [List.map_map]
      apply List.map_congr_left
      intro k _
      simp [T.pbLink, T.totalSize_eq]
    · intro i l k n hl hk hn
      simp only [List.getElem?_map] at hl hn
      rw [hk] at hl hn
      simp only [Option.map_some, Option.some.injEq] at hl hn
      subst hl hn
      have hkm : k ∈ t.kids := List.mem_of_getElem? hk
      refine ⟨(k.block sha).1, ?_, ?_⟩
      · exact Cid.ofBytes_toBytes _ (T.cid_valid hsha k)
      · refine ih k (hs.2.2 k hkm) (Nat.lt_of_le_of_lt (T.kid_total_le t hkm) ht) ?_ ?_
        · have := le_sum_map t.kids (fun k => k.content.length) hkm
          omega
        · intro s hsub
          exact hf s (Sub.step hsub (List.mem_map.mpr ⟨k, hkm, rfl⟩))

end Verif.Unixfs
