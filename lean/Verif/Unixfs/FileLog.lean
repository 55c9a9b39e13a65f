import Verif.Unixfs.AdderFinish

/-! # All blocks of a file, in the order the adder emits them -/

namespace Verif.Unixfs

open Verif

/-- The subtrees right below a tree. -/
def AnyT.kids : AnyT → List AnyT
  | ⟨0, _⟩ => []
  | ⟨_ + 1, t⟩ => (T.kids t).map T.any

theorem AnyT.kids_node {d : Nat} (ts : List (T d)) : (T.node ts).any.kids = ts.map T.any := rfl

/-- Every tree comes after the trees right below it. -/
def Closed (log : List AnyT) : Prop :=
  ∀ pre t post, log = pre ++ t :: post → ∀ k ∈ t.kids, k ∈ pre

theorem Closed.nil : Closed [] := by
  intro pre t post h; simp at h

/-- Appending trees whose children are already there. -/
theorem Closed.append {log more : List AnyT} (h : Closed log)
    (hm : ∀ pre t post, more = pre ++ t :: post → ∀ k ∈ t.kids, k ∈ log ++ pre) :
    Closed (log ++ more) := by
  intro pre t post he k hk
  rcases List.append_eq_append_iff.mp he with ⟨a, h1, h2⟩ | ⟨a, h1, h2⟩
  · subst h1; exact hm a t post h2 k hk
  · cases a with
    | nil =>
      simp at h1 h2
      subst h1
      have := hm [] t post (by simpa using h2.symm) k hk
      simpa using this
    | cons x xs =>
      simp only [List.cons_append, List.cons.injEq] at h2
      obtain ⟨rfl, _⟩ := h2
      exact h _ _ _ h1 k hk

theorem Closed.append_one {log : List AnyT} (h : Closed log) {t : AnyT}
    (ht : ∀ k ∈ t.kids, k ∈ log) : Closed (log ++ [t]) := by
  apply h.append
  intro pre t' post he k hk
  cases pre with
  | nil => simp at he; obtain ⟨rfl, _⟩ := he; simpa using ht k hk
  | cons x xs => simp at he

/-- `s` is `t` or below it. -/
inductive Sub : AnyT → AnyT → Prop where
  | refl (t : AnyT) : Sub t t
  | step {s k t : AnyT} : Sub s k → k ∈ t.kids → Sub s t

theorem Sub.trans {a b c : AnyT} (h1 : Sub a b) (h2 : Sub b c) : Sub a c := by
  induction h2 with
  | refl => exact h1
  | step _ hk ih => exact Sub.step ih hk

theorem Closed.mem_of_sub {log : List AnyT} (h : Closed log) {s t : AnyT} (hs : Sub s t)
    (ht : t ∈ log) : s ∈ log := by
  induction hs with
  | refl => exact ht
  | step _ hk ih =>
    obtain ⟨pre, post, he⟩ := List.append_of_mem ht
    exact ih (by rw [he]; exact List.mem_append.mpr (Or.inl (h _ _ _ he _ hk)))

/-! ## What `collapse` gives -/

/-- What is true of all the trees given and preserved by making an inner node of at most
`bf` trees is true of everything made. -/
theorem collapse_ind {bf : Nat} (hb : 0 < bf) (Q : (d : Nat) → T d → Prop)
    (hQ : ∀ d (ts : List (T d)), ts ≠ [] → ts.length ≤ bf → (∀ t ∈ ts, Q d t) → Q (d + 1) (T.node ts)) :
    ∀ (fuel : Nat) {d : Nat} (ts : List (T d)) log r, collapse bf fuel ts = some (log, r) →
      (∀ t ∈ ts, Q d t) → Q r.1 r.2 ∧ ∀ x ∈ log, Q x.1 x.2 := by
  intro fuel
  induction fuel with
  | zero => intro d ts log r h; cases h
  | succ fuel ih =>
    intro d ts log r h hts
    by_cases h1 : ts.length = 1
    · match ts, h1 with
      | [t], _ =>
        rw [collapse_one] at h; cases h
        exact ⟨hts t (by simp), by simp⟩
    · rw [collapse_step _ _ _ h1] at h
      obtain ⟨⟨log', r'⟩, hr, he⟩ := Option.map_eq_some_iff.mp h
      cases he
      have hup : ∀ t ∈ (chunksOf bf ts).map T.node, Q (d + 1) t := by
        intro t ht
        obtain ⟨c, hc, rfl⟩ := List.mem_map.mp ht
        have hl := chunksOf_mem_length hb ts c hc
        refine hQ d c (List.length_pos_iff.mp hl.1) hl.2 (fun x hx => hts x ?_)
        rw [← chunksOf_flatten hb ts]
        exact List.mem_flatten.mpr ⟨c, hc, hx⟩
      obtain ⟨hq, hl⟩ := ih _ _ _ hr hup
      refine ⟨hq, fun x hx => ?_⟩
      rcases List.mem_append.mp hx with hx | hx
      · obtain ⟨t, ht, rfl⟩ := List.mem_map.mp hx
        exact hup t ht
      · exact hl x hx

theorem collapse_last {bf : Nat} : ∀ (fuel : Nat) {d : Nat} (ts : List (T d)) log r,
    collapse bf fuel ts = some (log, r) →
      (ts.length = 1 → log = [] ∧ ts.map T.any = [r]) ∧
      (ts.length ≠ 1 → log.getLast? = some r) := by
  intro fuel
  induction fuel with
  | zero => intro d ts log r h; cases h
  | succ fuel ih =>
    intro d ts log r h
    by_cases h1 : ts.length = 1
    · match ts, h1 with
      | [t], _ =>
        rw [collapse_one] at h; cases h
        simp
    · rw [collapse_step _ _ _ h1] at h
      obtain ⟨⟨log', r'⟩, hr, he⟩ := Option.map_eq_some_iff.mp h
      cases he
      refine ⟨fun h0 => absurd h0 h1, fun _ => ?_⟩
      obtain ⟨ha, hb'⟩ := ih _ _ _ hr
      by_cases h2 : ((chunksOf bf ts).map T.node).length = 1
      · obtain ⟨e1, e2⟩ := ha h2
        simp only [] at e1 e2 ⊢
        rw [e1, e2]; rfl
      · have := hb' h2
        simp only [] at this ⊢
        rw [List.getLast?_append, this]; rfl

theorem collapse_closed {bf : Nat} (hb : 0 < bf) : ∀ (fuel : Nat) {d : Nat} (ts : List (T d)) log r,
    collapse bf fuel ts = some (log, r) →
      ∀ pre t post, log = pre ++ t :: post → ∀ k ∈ t.kids, k ∈ ts.map T.any ++ pre := by
  intro fuel
  induction fuel with
  | zero => intro d ts log r h; cases h
  | succ fuel ih =>
    intro d ts log r h
    by_cases h1 : ts.length = 1
    · match ts, h1 with
      | [t], _ =>
        rw [collapse_one] at h; cases h
        intro pre t post he; simp at he
    · rw [collapse_step _ _ _ h1] at h
      obtain ⟨⟨log', r'⟩, hr, he⟩ := Option.map_eq_some_iff.mp h
      cases he
      intro pre t post he k hk
      have hup : ∀ t ∈ ((chunksOf bf ts).map T.node).map T.any, ∀ k ∈ t.kids, k ∈ ts.map T.any := by
        intro t ht k hk
        obtain ⟨n, hn, rfl⟩ := List.mem_map.mp ht
        obtain ⟨c, hc, rfl⟩ := List.mem_map.mp hn
        rw [AnyT.kids_node] at hk
        obtain ⟨x, hx, rfl⟩ := List.mem_map.mp hk
        refine List.mem_map.mpr ⟨x, ?_, rfl⟩
        rw [← chunksOf_flatten hb ts]
        exact List.mem_flatten.mpr ⟨c, hc, hx⟩
      rcases List.append_eq_append_iff.mp he with ⟨a, e1, e2⟩ | ⟨a, e1, e2⟩
      · simp only [] at e1 e2
        have := ih _ _ _ hr a t post e2 k hk
        rw [e1]
        simp only [List.mem_append] at this ⊢
        exact Or.inr this
      · cases a with
        | nil =>
          simp at e1 e2
          have := ih _ _ _ hr [] t post (by simpa using e2.symm) k hk
          rw [← e1]
          simp at this ⊢
          exact Or.inr this
        | cons x xs =>
          simp only [List.cons_append, List.cons.injEq] at e2
          obtain ⟨rfl, _⟩ := e2
          have := hup t (by rw [e1]; simp) k hk
          exact List.mem_append.mpr (Or.inl this)

theorem collapse_sub {bf : Nat} (hb : 0 < bf) : ∀ (fuel : Nat) {d : Nat} (ts : List (T d)) log r,
    collapse bf fuel ts = some (log, r) → ∀ t ∈ ts.map T.any ++ log, Sub t r := by
  intro fuel
  induction fuel with
  | zero => intro d ts log r h; cases h
  | succ fuel ih =>
    intro d ts log r h
    by_cases h1 : ts.length = 1
    · match ts, h1 with
      | [t], _ =>
        rw [collapse_one] at h; cases h
        intro x hx; simp at hx; subst hx; exact Sub.refl _
    · rw [collapse_step _ _ _ h1] at h
      obtain ⟨⟨log', r'⟩, hr, he⟩ := Option.map_eq_some_iff.mp h
      cases he
      have hall := ih _ _ _ hr
      intro t ht
      simp only [List.mem_append] at ht hall
      rcases ht with ht | ht | ht
      · obtain ⟨x, hx, rfl⟩ := List.mem_map.mp ht
        rw [← chunksOf_flatten hb ts] at hx
        obtain ⟨c, hc, hxc⟩ := List.mem_flatten.mp hx
        have hn := hall (T.node c).any
          (Or.inl (List.mem_map.mpr ⟨_, List.mem_map.mpr ⟨c, hc, rfl⟩, rfl⟩))
        refine Sub.trans (Sub.step (Sub.refl _) ?_) hn
        rw [AnyT.kids_node]
        exact List.mem_map.mpr ⟨x, hxc, rfl⟩
      · exact hall t (Or.inl ht)
      · exact hall t (Or.inr ht)

theorem T.content_node {d : Nat} (ts : List (T d)) :
    (T.node ts).content = (ts.map T.content).flatten := rfl

theorem flatten_map_chunks {α : Type} {n : Nat} (hn : 0 < n) (f : α → Bytes) (l : List α) :
    ((chunksOf n l).map (fun c => (c.map f).flatten)).flatten = (l.map f).flatten := by
  rw [show (l.map f).flatten = (((chunksOf n l).flatten).map f).flatten by rw [chunksOf_flatten hn l]]
  generalize chunksOf n l = cs
  induction cs with
  | nil => rfl
  | cons c cs ih => simp [ih]

theorem collapse_content {bf : Nat} (hb : 0 < bf) : ∀ (fuel : Nat) {d : Nat} (ts : List (T d)) log r,
    collapse bf fuel ts = some (log, r) → r.2.content = (ts.map T.content).flatten := by
  intro fuel
  induction fuel with
  | zero => intro d ts log r h; cases h
  | succ fuel ih =>
    intro d ts log r h
    by_cases h1 : ts.length = 1
    · match ts, h1 with
      | [t], _ =>
        rw [collapse_one] at h; cases h
        simp [T.any]
    · rw [collapse_step _ _ _ h1] at h
      obtain ⟨⟨log', r'⟩, hr, he⟩ := Option.map_eq_some_iff.mp h
      cases he
      rw [ih _ _ _ hr, List.map_map]
      exact flatten_map_chunks hb T.content ts

/-! ## The log while pushing -/

structure Abs.LogInv (st : Abs) : Prop where
  closed : Closed st.log
  has : ∀ x ∈ st.leaves.map T.any ++ st.t1.map T.any, x ∈ st.log
  only : ∀ x ∈ st.log, x ∈ st.leaves.map T.any ++ st.t1.map T.any
  none : st.leaves = [] → st.log = []
  one : ∀ x, st.leaves = [x] → st.log = [x.any]

theorem Abs.init_logInv : (({} : Abs)).LogInv :=
  ⟨Closed.nil, by simp [Abs.leaves], by simp, by simp, by simp [Abs.leaves]⟩

theorem Abs.flush_logInv {bf : Nat} (hb : 0 < bf) {st : Abs} (h : st.LogInv) (b : Bytes) :
    (st.flush bf b).LogInv := by
  have hl := Abs.flush_leaves bf st b
  have hc1 : Closed (st.log ++ [(T.leaf b).any]) := h.closed.append_one (by
    intro k hk; cases hk)
  by_cases hcase : (st.t0 ++ [T.leaf b]).length ≤ bf
  · have e1 : (st.flush bf b).t1 = st.t1 := by unfold Abs.flush; simp only []; rw [if_pos hcase]
    have e2 : (st.flush bf b).log = st.log ++ [(T.leaf b).any] := by
      unfold Abs.flush; simp only []; rw [if_pos hcase]; rfl
    constructor
    · rw [e2]; exact hc1
    · rw [e2, hl, e1]
      intro x hx
      simp only [List.map_append, List.map_cons, List.map_nil, List.mem_append, List.mem_singleton] at hx ⊢
      rcases hx with (hx | hx) | hx
      · exact Or.inl (h.has x (List.mem_append.mpr (Or.inl hx)))
      · exact Or.inr hx
      · exact Or.inl (h.has x (List.mem_append.mpr (Or.inr hx)))
    · rw [e2, hl, e1]
      intro x hx
      simp only [List.map_append, List.map_cons, List.map_nil, List.mem_append, List.mem_singleton] at hx ⊢
      rcases hx with hx | hx
      · have := List.mem_append.mp (h.only x hx)
        rcases this with h' | h'
        · exact Or.inl (Or.inl h')
        · exact Or.inr h'
      · exact Or.inl (Or.inr hx)
    · rw [hl]; intro h0; simp at h0
    · rw [hl, e2]
      intro x hx
      have hn : st.leaves = [] := by
        have := congrArg List.length hx
        simp at this; exact this
      rw [hn] at hx
      simp at hx
      rw [h.none hn, ← hx]; rfl
  · have e1 : (st.flush bf b).t1 = st.t1 ++ [T.node ((st.t0 ++ [T.leaf b]).take bf)] := by
      unfold Abs.flush; simp only []; rw [if_neg hcase]
    have e2 : (st.flush bf b).log =
        (st.log ++ [(T.leaf b).any]) ++ [(T.node ((st.t0 ++ [T.leaf b]).take bf)).any] := by
      unfold Abs.flush; simp only []; rw [if_neg hcase]; simp [T.any]
    have ht0 : ∀ x ∈ st.t0 ++ [T.leaf b], x.any ∈ st.log ++ [(T.leaf b).any] := by
      intro x hx
      rcases List.mem_append.mp hx with hx | hx
      · refine List.mem_append.mpr (Or.inl (h.has _ (List.mem_append.mpr (Or.inl ?_))))
        exact List.mem_map.mpr ⟨x, List.mem_append.mpr (Or.inr hx), rfl⟩
      · rw [List.mem_singleton] at hx; rw [hx]; simp
    constructor
    · rw [e2]
      apply hc1.append_one
      intro k hk
      rw [AnyT.kids_node] at hk
      obtain ⟨x, hx, rfl⟩ := List.mem_map.mp hk
      exact ht0 x (List.mem_of_mem_take hx)
    · rw [e2, hl, e1]
      intro x hx
      simp only [List.map_append, List.map_cons, List.map_nil, List.mem_append, List.mem_singleton] at hx ⊢
      rcases hx with (hx | hx) | (hx | hx)
      · exact Or.inl (Or.inl (h.has x (List.mem_append.mpr (Or.inl hx))))
      · exact Or.inl (Or.inr hx)
      · exact Or.inl (Or.inl (h.has x (List.mem_append.mpr (Or.inr hx))))
      · exact Or.inr hx
    · rw [e2, hl, e1]
      intro x hx
      simp only [List.map_append, List.map_cons, List.map_nil, List.mem_append, List.mem_singleton] at hx ⊢
      rcases hx with (hx | hx) | hx
      · have := List.mem_append.mp (h.only x hx)
        rcases this with h' | h'
        · exact Or.inl (Or.inl h')
        · exact Or.inr (Or.inl h')
      · exact Or.inl (Or.inr hx)
      · exact Or.inr (Or.inr hx)
    · rw [hl]; intro h0; simp at h0
    · rw [hl]
      intro x hx
      have hn : st.leaves = [] := by
        have := congrArg List.length hx
        simp at this; exact this
      have : st.t0 = [] := (List.append_eq_nil_iff.mp hn).2
      rw [this] at hcase
      simp at hcase; omega

theorem Abs.byte_logInv {chunk bf : Nat} (hb : 0 < bf) {st : Abs} (h : st.LogInv) (b : UInt8) :
    (st.byte chunk bf b).LogInv := by
  unfold Abs.byte
  split
  · exact ⟨h.closed, h.has, h.only, h.none, h.one⟩
  · exact Abs.flush_logInv hb h _

theorem Abs.run_logInv {chunk bf : Nat} (hb : 0 < bf) (content : Bytes) :
    (Abs.run chunk bf content).LogInv := by
  have key : ∀ (more : Bytes) (st : Abs), st.LogInv → (more.foldl (Abs.byte chunk bf) st).LogInv := by
    intro more
    induction more with
    | nil => intro st h; exact h
    | cons b bs ih => intro st h; exact ih _ (Abs.byte_logInv hb h b)
  exact key content {} Abs.init_logInv

/-- Everything the adder emits for a content: the trees in emission order and the root. -/
structure FileLog (chunk bf : Nat) (content : Bytes) (log : List AnyT) (root : AnyT) : Prop where
  closed : Closed log
  last : log.getLast? = some root
  sub : ∀ t ∈ log, Sub t root
  made : ∃ fuel l, collapse bf fuel (leavesOf chunk content) = some (l, root) ∧
    ∀ t, t ∈ log ↔ t ∈ (leavesOf chunk content).map T.any ++ l

/-- Adding a file emits the blocks of its tree. The log does not depend on the slices. -/
theorem addFile_spec (sha : Bytes → Bytes) {chunk bf : Nat} (hc : 0 < chunk) (hb : 2 ≤ bf)
    (content : Bytes) : ∃ log root, FileLog chunk bf content log root ∧
      ∀ slices : List Bytes, slices.flatten = content →
        addFile sha chunk bf slices = .ok (log.map (AnyT.block sha)) := by
  have hst := Abs.run_holds hc (show 0 < bf by omega) content
  have hli := Abs.run_logInv (chunk := chunk) (show 0 < bf by omega) content
  -- any adder in this state finishes the same way
  have hrep : ∃ a : Adder, Rep sha chunk bf a (Abs.run chunk bf content) :=
    ⟨⟨_, _, _, _⟩, rfl, rfl, rfl, rfl⟩
  obtain ⟨a0, ha0⟩ := hrep
  obtain ⟨fuel, l, r, log', hcol, hfin, hlog, hne⟩ := Adder.finish_spec sha hc hb ha0 hst
  generalize hs : Abs.run chunk bf content = st at hst hli ha0 hfin hlog
  have hle := hst.leaves_eq hc
  refine ⟨st.log ++ (st.lastLeaf.map T.any ++ log'), r, ?_, ?_⟩
  · have hmem : ∀ t, t ∈ st.log ++ (st.lastLeaf.map T.any ++ log') ↔
        t ∈ (leavesOf chunk content).map T.any ++ l := by
      intro t
      rw [hle, hlog]
      simp only [List.map_append, List.mem_append]
      have h1 := hli.has t
      have h2 := hli.only t
      simp only [List.mem_append] at h1 h2
      constructor
      · rintro (h | h | h)
        · rcases h2 h with h | h
          · exact Or.inl (Or.inl h)
          · exact Or.inr (Or.inl h)
        · exact Or.inl (Or.inr h)
        · exact Or.inr (Or.inr h)
      · rintro ((h | h) | (h | h))
        · exact Or.inl (h1 (Or.inl h))
        · exact Or.inr (Or.inl h)
        · exact Or.inl (h1 (Or.inr h))
        · exact Or.inr (Or.inr h)
    refine ⟨?_, ?_, ?_, ⟨fuel, l, hcol, hmem⟩⟩
    · rw [← List.append_assoc]
      have hc1 : Closed (st.log ++ st.lastLeaf.map T.any) := by
        apply hli.closed.append
        intro pre t post he k hk
        have : t ∈ st.lastLeaf.map T.any := by rw [he]; simp
        obtain ⟨x, _, rfl⟩ := List.mem_map.mp this
        cases hk
      apply hc1.append
      intro pre t post he k hk
      have := collapse_closed (by omega) _ _ _ _ hcol (st.t1.map T.any ++ pre) t post
        (by rw [hlog, he, List.append_assoc]) k hk
      rw [hle] at this
      simp only [List.map_append, List.mem_append] at this ⊢
      have h1 := hli.has k
      simp only [List.mem_append] at h1
      rcases this with (h | h) | (h | h)
      · exact Or.inl (Or.inl (h1 (Or.inl h)))
      · exact Or.inl (Or.inr h)
      · exact Or.inl (Or.inl (h1 (Or.inr h)))
      · exact Or.inr h
    · obtain ⟨hone, hmany⟩ := collapse_last _ _ _ _ hcol
      by_cases h1 : (leavesOf chunk content).length = 1
      · obtain ⟨e1, e2⟩ := hone h1
        rw [hlog] at e1
        have e3 := (List.append_eq_nil_iff.mp e1).2
        rw [hle] at e2 h1
        rw [e3, List.append_nil]
        match hx : st.leaves, hy : st.lastLeaf, h1 with
        | [], [y], _ =>
          rw [hx, hy] at e2; simp at e2
          rw [hli.none hx]; simp [e2]
        | [x], [], _ =>
          rw [hx, hy] at e2; simp at e2
          rw [hli.one x hx]; simp [e2]
      · have hlast := hmany h1
        have hne' := hne h1
        rw [hlog, List.getLast?_append] at hlast
        rw [← List.append_assoc, List.getLast?_append]
        cases hg : log'.getLast? with
        | none => exact absurd (List.getLast?_eq_none_iff.mp hg) hne'
        | some x => rw [hg] at hlast; simpa using hlast
    · intro t ht
      exact collapse_sub (by omega) _ _ _ _ hcol t ((hmem t).mp ht)
  · intro slices hsl
    obtain ⟨blocks, a, new, hp, hr, hl, hbl⟩ := Adder.pushSlices_spec sha hc (show 0 < bf by omega)
      slices (a := { chunk := chunk, bf := bf }) (st := {}) ⟨rfl, rfl, rfl, rfl⟩ (Abs.init_inv hc)
    rw [hsl] at hr hl
    change Rep sha chunk bf a (Abs.run chunk bf content) at hr
    change (Abs.run chunk bf content).log = [] ++ new at hl
    rw [hs] at hr hl
    have : a = a0 := by
      obtain ⟨_, _, _, _⟩ := a
      obtain ⟨_, _, _, _⟩ := a0
      obtain ⟨q1, q2, q3, q4⟩ := hr
      obtain ⟨r1, r2, r3, r4⟩ := ha0
      simp only at q1 q2 q3 q4 r1 r2 r3 r4
      subst q1 q2 q3 q4 r1 r2
      rw [r3, r4]
    unfold addFile
    rw [hp]
    simp only [this, hfin, hbl]
    rw [hl]
    simp

end Verif.Unixfs
