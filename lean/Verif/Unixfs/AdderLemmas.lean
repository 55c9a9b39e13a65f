import Verif.Unixfs.FileTree

/-! # The adder as a machine consuming one byte at a time -/

namespace Verif.Unixfs

open Verif

/-- Abstract adder state: finished depth-1 trees, finished leaves not yet linked, the
partial leaf, and the log of trees whose blocks have been emitted. -/
structure Abs where
  t1 : List (T 1) := []
  t0 : List (T 0) := []
  buf : Bytes := []
  log : List AnyT := []

/-- A leaf is complete. -/
def Abs.flush (bf : Nat) (st : Abs) (b : Bytes) : Abs :=
  let t0 := st.t0 ++ [T.leaf b]
  if t0.length ≤ bf then { st with t0 := t0, buf := [], log := st.log ++ [⟨0, T.leaf b⟩] }
  else
    { t1 := st.t1 ++ [T.node (t0.take bf)]
      t0 := t0.drop bf
      buf := []
      log := st.log ++ [⟨0, T.leaf b⟩, ⟨1, T.node (t0.take bf)⟩] }

/-- One more byte of content. -/
def Abs.byte (chunk bf : Nat) (st : Abs) (b : UInt8) : Abs :=
  if st.buf.length + 1 < chunk then { st with buf := st.buf ++ [b] }
  else st.flush bf (st.buf ++ [b])

/-- The state after some content. -/
def Abs.run (chunk bf : Nat) (content : Bytes) : Abs := content.foldl (Abs.byte chunk bf) {}

/-- Invariant of the abstract machine. -/
structure Abs.Inv (chunk bf : Nat) (st : Abs) : Prop where
  buf : st.buf.length < chunk
  t0 : st.t0.length ≤ bf
  t1 : st.t1 ≠ [] → st.t0 ≠ []

theorem Abs.flush_inv {chunk bf : Nat} (hc : 0 < chunk) (hb : 0 < bf) {st : Abs}
    (h : st.Inv chunk bf) (b : Bytes) : (st.flush bf b).Inv chunk bf := by
  have := h.t0
  unfold Abs.flush
  simp only []
  split
  · rename_i hl
    exact ⟨by simpa using hc, hl, by simp⟩
  · rename_i hl
    simp at hl
    refine ⟨by simpa using hc, ?_, ?_⟩
    · simp; omega
    · intro _ hd
      have := congrArg List.length hd
      simp at this; omega

theorem Abs.byte_inv {chunk bf : Nat} (hc : 0 < chunk) (hb : 0 < bf) {st : Abs}
    (h : st.Inv chunk bf) (b : UInt8) : (st.byte chunk bf b).Inv chunk bf := by
  unfold Abs.byte
  split
  · rename_i hl
    exact ⟨by simpa using hl, h.t0, h.t1⟩
  · exact Abs.flush_inv hc hb h _

theorem Abs.foldl_inv {chunk bf : Nat} (hc : 0 < chunk) (hb : 0 < bf) (content : Bytes) {st : Abs}
    (h : st.Inv chunk bf) : (content.foldl (Abs.byte chunk bf) st).Inv chunk bf := by
  induction content generalizing st with
  | nil => exact h
  | cons b bs ih => exact ih (Abs.byte_inv hc hb h b)

theorem Abs.init_inv {chunk bf : Nat} (hc : 0 < chunk) : (({} : Abs)).Inv chunk bf :=
  ⟨by simpa using hc, by simp, by simp⟩

/-- Bytes that do not complete the leaf only extend the buffer. -/
theorem Abs.foldl_short {chunk bf : Nat} (a : Bytes) (st : Abs)
    (h : st.buf.length + a.length < chunk) :
    a.foldl (Abs.byte chunk bf) st = { st with buf := st.buf ++ a } := by
  induction a generalizing st with
  | nil => simp
  | cons b bs ih =>
    simp only [List.length_cons] at h
    simp only [List.foldl_cons]
    rw [show Abs.byte chunk bf st b = { st with buf := st.buf ++ [b] } by
      unfold Abs.byte; rw [if_pos (by omega)]]
    rw [ih _ (by simp; omega)]
    simp

/-- Bytes that complete the leaf exactly flush it. -/
theorem Abs.foldl_full {chunk bf : Nat} (a : Bytes) (st : Abs) (ha : a ≠ [])
    (h : st.buf.length + a.length = chunk) :
    a.foldl (Abs.byte chunk bf) st = st.flush bf (st.buf ++ a) := by
  obtain ⟨xs, x, rfl⟩ : ∃ xs x, a = xs ++ [x] := ⟨_, _, (List.dropLast_concat_getLast ha).symm⟩
  simp only [List.length_append, List.length_cons, List.length_nil] at h
  rw [List.foldl_append, Abs.foldl_short xs st (by omega)]
  simp only [List.foldl_cons, List.foldl_nil]
  unfold Abs.byte
  simp only [List.length_append]
  rw [if_neg (by omega)]
  simp [Abs.flush]

/-- Flushing never touches what was logged before. -/
theorem Abs.flush_log (bf : Nat) (st : Abs) (b : Bytes) : ∃ new, (st.flush bf b).log = st.log ++ new := by
  unfold Abs.flush
  simp only []
  split
  · exact ⟨_, rfl⟩
  · exact ⟨_, rfl⟩

/-- The concrete state represents the abstract one. -/
structure Rep (sha : Bytes → Bytes) (chunk bf : Nat) (a : Adder) (st : Abs) : Prop where
  chunk : a.chunk = chunk
  bf : a.bf = bf
  buffer : a.buffer = st.buf
  links : a.links = st.t1.map (T.link sha) ++ st.t0.map (T.link sha)

theorem findIdx_skip {α : Type} (p : α → Bool) (xs ys : List α) (hx : xs.any p = false) :
    (xs ++ ys).findIdx? p = (ys.findIdx? p).map (· + xs.length) := by
  induction xs with
  | nil => simp
  | cons x xs ih =>
    simp only [List.any_cons, Bool.or_eq_false_iff] at hx
    simp only [List.cons_append, List.findIdx?_cons, hx.1, ih hx.2]
    cases ys.findIdx? p <;> simp; omega

/-- `flush_links(.., false)` after a new leaf does what `Abs.flush` does. -/
theorem flushLinks_push (sha : Bytes → Bytes) {bf : Nat} (hbf : 0 < bf) (t1 : List (T 1))
    (t0 : List (T 0)) (h0 : t0 ≠ []) (hlen : t0.length ≤ bf + 1) :
    flushLinks sha bf (t1.map (T.link sha) ++ t0.map (T.link sha)) false =
      if t0.length ≤ bf then .ok (t1.map (T.link sha) ++ t0.map (T.link sha), [])
      else .ok ((t1 ++ [T.node (t0.take bf)]).map (T.link sha) ++ (t0.drop bf).map (T.link sha),
        [(T.node (t0.take bf)).block sha]) := by
  have hP := any_map_link_eq sha (show (1 : Nat) ≠ 0 by omega) t1
  have h0l : 0 < t0.length := List.length_pos_iff.mpr h0
  have hfind : (t1.map (T.link sha) ++ t0.map (T.link sha)).findIdx? (fun l => l.depth == 0) =
      some t1.length := by
    rw [findIdx_skip _ _ _ hP, findIdx_map_link sha t0 h0]; simp
  have hdrop : (t1.map (T.link sha) ++ t0.map (T.link sha)).drop t1.length = t0.map (T.link sha) := by
    rw [List.drop_append_of_le_length (by simp), List.drop_of_length_le (by simp)]; simp
  unfold flushLinks
  generalize hf : (t1.map (T.link sha) ++ t0.map (T.link sha)).length + 2 = fuel
  obtain ⟨fuel, rfl⟩ : ∃ k, fuel = k + 1 := ⟨fuel - 1, by omega⟩
  unfold flushLoop
  by_cases hshort : (t1.map (T.link sha) ++ t0.map (T.link sha)).length ≤ bf
  · have : t0.length ≤ bf := by simp at hshort; omega
    simp [this]
    intro h; simp at hshort; omega
  · simp only [Bool.and_false, hshort, decide_false, Bool.false_and, Bool.or_self]
    simp only [Bool.false_eq_true, if_false]
    unfold levelLoop
    simp only [List.drop_zero, hfind, Nat.add_zero, hdrop, Bool.not_false, Bool.true_and,
      List.length_map, decide_eq_true_eq, Option.elim_none, Option.map_none, Option.getD_none]
    by_cases hle : t0.length ≤ bf
    · simp [hle]
    · have hl : t0.length = bf + 1 := by omega
      simp only [hle, if_false]
      have hgroup : (t0.map (T.link sha)).take
          (min (t1.length + bf) (t1.map (T.link sha) ++ t0.map (T.link sha)).length - t1.length) =
          (t0.take bf).map (T.link sha) := by
        rw [List.map_take]
        simp only [List.length_append, List.length_map]
        congr 1; omega
      rw [hgroup, any_map_link_ne]
      simp only [Bool.false_eq_true, if_false]
      have hkey := T.link_node sha (t0.take bf)
      simp only [Nat.reduceAdd] at hkey
      rw [← hkey, ← T.block_node]
      have hset : (t1.map (T.link sha) ++ t0.map (T.link sha)).set t1.length
          ((T.node (t0.take bf)).link sha) =
          t1.map (T.link sha) ++ (T.node (t0.take bf)).link sha :: (t0.map (T.link sha)).tail := by
        rw [List.set_append_right _ _ (by simp)]
        simp only [List.length_map, Nat.sub_self]
        cases t0 with
        | nil => exact absurd rfl h0
        | cons a as => simp
      rw [hset]
      have hmin : min (t1.length + bf) (t1.map (T.link sha) ++ t0.map (T.link sha)).length =
          t1.length + bf := by simp; omega
      rw [hmin]
      have hlp : (t1.map (T.link sha) ++ t0.map (T.link sha)).length = (t1.length + bf) + 1 := by
        simp; omega
      rw [hlp]
      unfold levelLoop
      have hdrop2 : (t1.map (T.link sha) ++ (T.node (t0.take bf)).link sha ::
          (t0.map (T.link sha)).tail).drop (t1.length + bf) = (t0.drop bf).map (T.link sha) := by
        rw [List.drop_append]
        rw [List.drop_of_length_le (by simp)]
        simp only [List.length_map, Nat.add_sub_cancel_left, List.nil_append]
        obtain ⟨k, rfl⟩ : ∃ k, bf = k + 1 := ⟨bf - 1, by omega⟩
        rw [List.drop_succ_cons, List.drop_tail, List.map_drop]
      have hne : t0.drop bf ≠ [] := by
        intro h; have := congrArg List.length h; simp at this; omega
      simp only [hdrop2, findIdx_map_link sha _ hne, Nat.zero_add]
      have : (t0.drop bf).length ≤ bf := by simp; omega
      simp only [List.length_map, this, decide_true, Bool.not_false, Bool.and_self, if_true,
        Option.elim_some]
      have htake : (t1.map (T.link sha) ++ (T.node (t0.take bf)).link sha ::
          (t0.map (T.link sha)).tail).take (t1.length + 1) =
          (t1 ++ [T.node (t0.take bf)]).map (T.link sha) := by
        rw [List.take_append]
        rw [List.take_of_length_le (by simp)]
        simp
      rw [htake]
      simp

/-- Result of one push, in terms of the byte machine. -/
theorem Adder.push_spec (sha : Bytes → Bytes) {chunk bf : Nat} (hc : 0 < chunk) (hb : 0 < bf)
    {a : Adder} {st : Abs} (hr : Rep sha chunk bf a st) (hi : st.Inv chunk bf) (input : Bytes) :
    ∃ blocks a' new,
      a.push sha input = .ok (blocks, min input.length (chunk - st.buf.length), a') ∧
      Rep sha chunk bf a'
        ((input.take (min input.length (chunk - st.buf.length))).foldl (Abs.byte chunk bf) st) ∧
      ((input.take (min input.length (chunk - st.buf.length))).foldl (Abs.byte chunk bf) st).log =
        st.log ++ new ∧
      blocks = new.map (AnyT.block sha) ∧ blocks.length ≤ 2 := by
  obtain ⟨ac, abf, abuf, alinks⟩ := a
  obtain ⟨h1, h2, h3, h4⟩ := hr
  simp only at h1 h2 h3 h4
  subst h1 h2 h3 h4
  have hbuf := hi.buf
  unfold Adder.push
  have hacc : accept ac input st.buf = some (input.take (min input.length (ac - st.buf.length)),
      decide (st.buf.length + min input.length (ac - st.buf.length) ≥ ac)) := by
    unfold accept; rw [if_neg (by omega)]
  simp only [hacc]
  generalize hacc' : input.take (min input.length (ac - st.buf.length)) = acc
  have hlen : acc.length = min input.length (ac - st.buf.length) := by
    rw [← hacc']; simp
  rw [← hlen]
  -- flushing a completed leaf
  have key : ∀ (h : acc ≠ []), st.buf.length + acc.length = ac →
      ∃ leaf links, flushBufferedLeaf sha (st.buf ++ acc)
          (st.t1.map (T.link sha) ++ st.t0.map (T.link sha)) false = (some leaf, links) ∧
        ∃ links' blocks, flushLinks sha abf links false = .ok (links', blocks) ∧
        ∃ new, links' = (st.flush abf (st.buf ++ acc)).t1.map (T.link sha) ++
            (st.flush abf (st.buf ++ acc)).t0.map (T.link sha) ∧
          (st.flush abf (st.buf ++ acc)).buf = [] ∧
          (st.flush abf (st.buf ++ acc)).log = st.log ++ new ∧
          leaf :: blocks = new.map (AnyT.block sha) ∧ (leaf :: blocks).length ≤ 2 := by
    intro hne _
    have hle : (st.buf ++ acc).isEmpty = false := by
      cases hx : st.buf ++ acc with
      | nil => simp at hx; exact absurd hx.2 hne
      | cons => rfl
    refine ⟨(T.leaf (st.buf ++ acc)).block sha,
      st.t1.map (T.link sha) ++ (st.t0 ++ [T.leaf (st.buf ++ acc)]).map (T.link sha), ?_, ?_⟩
    · unfold flushBufferedLeaf
      simp only [hle, Bool.false_and, Bool.false_eq_true, if_false]
      rw [List.map_append, ← List.append_assoc]
      rfl
    · have hfl := flushLinks_push sha hb st.t1 (st.t0 ++ [T.leaf (st.buf ++ acc)]) (by simp)
        (by have := hi.t0; simp; omega)
      by_cases hcase : (st.t0 ++ [T.leaf (st.buf ++ acc)]).length ≤ abf
      · rw [if_pos hcase] at hfl
        refine ⟨_, _, hfl, [⟨0, T.leaf (st.buf ++ acc)⟩], ?_⟩
        unfold Abs.flush
        simp only [hcase, if_true]
        simp [AnyT.block]
      · rw [if_neg hcase] at hfl
        refine ⟨_, _, hfl, [⟨0, T.leaf (st.buf ++ acc)⟩,
          ⟨1, T.node ((st.t0 ++ [T.leaf (st.buf ++ acc)]).take abf)⟩], ?_⟩
        unfold Abs.flush
        simp only [hcase, if_false]
        simp [AnyT.block]
  by_cases hready : st.buf.length + acc.length ≥ ac
  · have heq : st.buf.length + acc.length = ac := by omega
    have hne : acc ≠ [] := by intro h; simp [h] at heq; omega
    obtain ⟨leaf, links, hl, links', blocks, hf, new, hn1, hn2, hn3, hn4, hn5⟩ := key hne heq
    rw [Abs.foldl_full acc st hne heq]
    by_cases hbe : st.buf.isEmpty
    · have hb0 : st.buf = [] := List.isEmpty_iff.mp hbe
      simp only [hbe, hready, decide_true, Bool.and_self, if_true]
      simp only [hb0, List.nil_append] at hl hn1 hn2 hn3 ⊢
      rw [hl]
      simp only [hf]
      exact ⟨_, _, new, rfl, ⟨rfl, rfl, hn2.symm, hn1⟩, hn3, hn4, hn5⟩
    · simp only [hbe, Bool.false_and, Bool.false_eq_true, if_false, hready, decide_true,
        Bool.not_true]
      rw [hl]
      simp only [hf]
      exact ⟨_, _, new, rfl, ⟨rfl, rfl, hn2.symm, hn1⟩, hn3, hn4, hn5⟩
  · rw [Abs.foldl_short acc st (by omega)]
    simp only [hready, decide_false, Bool.and_false, Bool.false_eq_true, if_false, Bool.not_false,
      if_true]
    exact ⟨_, _, [], rfl, ⟨rfl, rfl, rfl, rfl⟩, by simp, by simp, by simp⟩

/-- The push loop consumes everything and behaves as the byte machine. -/
theorem Adder.pushAll_spec (sha : Bytes → Bytes) {chunk bf : Nat} (hc : 0 < chunk) (hb : 0 < bf) :
    ∀ (fuel : Nat) (input : Bytes) {a : Adder} {st : Abs}, input.length ≤ fuel →
      Rep sha chunk bf a st → st.Inv chunk bf →
      ∃ blocks a' new, Adder.pushAll sha fuel a input = .ok (blocks, a') ∧
        Rep sha chunk bf a' (input.foldl (Abs.byte chunk bf) st) ∧
        (input.foldl (Abs.byte chunk bf) st).log = st.log ++ new ∧
        blocks = new.map (AnyT.block sha) := by
  intro fuel
  induction fuel with
  | zero =>
    intro input a st h hr hi
    have : input = [] := List.length_eq_zero_iff.mp (by omega)
    subst this
    exact ⟨[], a, [], by simp [Adder.pushAll], by simpa using hr, by simp, by simp⟩
  | succ fuel ih =>
    intro input a st h hr hi
    by_cases hin : input = []
    · subst hin
      exact ⟨[], a, [], by simp [Adder.pushAll], by simpa using hr, by simp, by simp⟩
    · have hne : input.isEmpty = false := by
        cases input with
        | nil => exact absurd rfl hin
        | cons => rfl
      have hil : 0 < input.length := List.length_pos_iff.mpr hin
      obtain ⟨b1, a1, n1, hp, hr1, hl1, hb1, _⟩ := Adder.push_spec sha hc hb hr hi input
      generalize hn : min input.length (chunk - st.buf.length) = n at hp hr1 hl1
      have hnpos : 0 < n := by have := hi.buf; omega
      have hi1 := Abs.foldl_inv hc hb (input.take n) hi
      obtain ⟨b2, a2, n2, hp2, hr2, hl2, hb2⟩ := ih (input.drop n) (by simp; omega) hr1 hi1
      refine ⟨b1 ++ b2, a2, n1 ++ n2, ?_, ?_, ?_, ?_⟩
      · unfold Adder.pushAll
        simp only [hne, hp, hp2, Bool.false_eq_true, if_false]
      · rw [← List.foldl_append, List.take_append_drop] at hr2; exact hr2
      · rw [← List.foldl_append, List.take_append_drop] at hl2
        rw [hl2, hl1, List.append_assoc]
      · rw [hb1, hb2, List.map_append]

theorem Adder.pushSlices_spec (sha : Bytes → Bytes) {chunk bf : Nat} (hc : 0 < chunk) (hb : 0 < bf)
    (slices : List Bytes) : ∀ {a : Adder} {st : Abs}, Rep sha chunk bf a st → st.Inv chunk bf →
      ∃ blocks a' new, Adder.pushSlices sha a slices = .ok (blocks, a') ∧
        Rep sha chunk bf a' (slices.flatten.foldl (Abs.byte chunk bf) st) ∧
        (slices.flatten.foldl (Abs.byte chunk bf) st).log = st.log ++ new ∧
        blocks = new.map (AnyT.block sha) := by
  induction slices with
  | nil =>
    intro a st hr _
    exact ⟨[], a, [], rfl, by simpa using hr, by simp, by simp⟩
  | cons s ss ih =>
    intro a st hr hi
    obtain ⟨b1, a1, n1, hp, hr1, hl1, hb1⟩ := Adder.pushAll_spec sha hc hb s.length s (Nat.le_refl _) hr hi
    obtain ⟨b2, a2, n2, hp2, hr2, hl2, hb2⟩ := ih hr1 (Abs.foldl_inv hc hb s hi)
    refine ⟨b1 ++ b2, a2, n1 ++ n2, ?_, ?_, ?_, ?_⟩
    · unfold Adder.pushSlices; simp only [hp, hp2]
    · simpa [List.foldl_append] using hr2
    · simp only [List.flatten_cons, List.foldl_append]
      rw [hl2, hl1, List.append_assoc]
    · rw [hb1, hb2, List.map_append]

theorem Abs.run_buf_length {chunk : Nat} (hc : 0 < chunk) (bf : Nat) (content : Bytes) :
    (Abs.run chunk bf content).buf.length = content.length % chunk := by
  have key : ∀ (content : Bytes) (st : Abs) (n : Nat), st.buf.length = n % chunk →
      (content.foldl (Abs.byte chunk bf) st).buf.length = (n + content.length) % chunk := by
    intro content
    induction content with
    | nil => intro st n h; simpa using h
    | cons b bs ih =>
      intro st n h
      rw [List.foldl_cons, List.length_cons, show n + (bs.length + 1) = (n + 1) + bs.length by omega]
      apply ih
      have hlt := Nat.mod_lt n hc
      unfold Abs.byte
      split
      · rename_i hl
        have : (n + 1) % chunk = n % chunk + 1 := by
          rw [← Nat.mod_add_mod, Nat.mod_eq_of_lt]; omega
        simp [this, h]
      · rename_i hl
        have : (n + 1) % chunk = 0 := by
          rw [← Nat.mod_add_mod, show n % chunk + 1 = chunk by omega, Nat.mod_self]
        rw [this]
        unfold Abs.flush
        simp only []
        split <;> rfl
  have := key content {} 0 (by simp)
  simpa [Abs.run] using this

end Verif.Unixfs
