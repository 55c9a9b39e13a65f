import Verif.Base.Chunks
import Verif.Spec.FileTree
import Verif.Unixfs.Adder

/-!
# The adder as a machine on uniform-depth trees
-/

namespace Verif.Unixfs

open Verif

/-- The link the adder keeps for a finished tree. -/
def T.link (sha : Bytes → Bytes) : {d : Nat} → T d → Link
  | 0, (b : Bytes) =>
    let blk := renderAndHash sha (leafFlat b)
    { depth := 0, target := blk.1, totalSize := blk.2.length, fileSize := b.length }
  | d + 1, t =>
    let p := (t.kids.map (T.link sha)).foldl partitionLink {}
    let blk := renderAndHash sha p.flat
    { depth := d + 1, target := blk.1, totalSize := p.nestedTotal + blk.2.length,
      fileSize := p.nestedSize }

/-- The block of a tree's top node. -/
def T.block (sha : Bytes → Bytes) : {d : Nat} → T d → Block
  | 0, (b : Bytes) => renderAndHash sha (leafFlat b)
  | _ + 1, t => renderAndHash sha ((t.kids.map (T.link sha)).foldl partitionLink {}).flat

theorem T.link_depth (sha : Bytes → Bytes) {d : Nat} (t : T d) : (t.link sha).depth = d := by
  cases d <;> rfl

theorem T.link_target (sha : Bytes → Bytes) {d : Nat} (t : T d) :
    (t.link sha).target = (t.block sha).1 := by
  cases d <;> rfl

theorem T.link_node (sha : Bytes → Bytes) {d : Nat} (ts : List (T d)) :
    (T.node ts).link sha =
      { depth := d + 1
        target := (renderAndHash sha ((ts.map (T.link sha)).foldl partitionLink {}).flat).1
        totalSize := ((ts.map (T.link sha)).foldl partitionLink {}).nestedTotal +
          (renderAndHash sha ((ts.map (T.link sha)).foldl partitionLink {}).flat).2.length
        fileSize := ((ts.map (T.link sha)).foldl partitionLink {}).nestedSize } := by
  simp [T.link]

theorem T.block_node (sha : Bytes → Bytes) {d : Nat} (ts : List (T d)) :
    (T.node ts).block sha = renderAndHash sha ((ts.map (T.link sha)).foldl partitionLink {}).flat := by
  simp [T.block]

/-- A tree of any depth. -/
abbrev AnyT := Σ d, T d

/-- The block of a tree of any depth. -/
def AnyT.block (sha : Bytes → Bytes) (t : AnyT) : Block := t.2.block sha

theorem findIdx_map_link (sha : Bytes → Bytes) {level : Nat} (r : List (T level)) (hr : r ≠ []) :
    (r.map (T.link sha)).findIdx? (fun l => l.depth == level) = some 0 := by
  cases r with
  | nil => exact absurd rfl hr
  | cons a as => simp [List.findIdx?_cons, T.link_depth]

theorem any_map_link_ne (sha : Bytes → Bytes) {level : Nat} (r : List (T level)) :
    (r.map (T.link sha)).any (fun l => l.depth != level) = false := by
  simp [T.link_depth]

theorem any_map_link_eq (sha : Bytes → Bytes) {level k : Nat} (hk : k ≠ level) (r : List (T k)) :
    (r.map (T.link sha)).any (fun l => l.depth == level) = false := by
  simp [T.link_depth, hk]

/-- The loop for one level when finishing: everything at this level is replaced by
groups of `bf`. -/
theorem levelLoop_finish (sha : Bytes → Bytes) {bf level : Nat} (hbf : 0 < bf)
    (P : List Link) (hP : P.any (fun l => l.depth == level) = false) :
    ∀ (fuel : Nat) (D : List (T (level + 1))) (J : List Link) (R : List (T level))
      (ret : List Block),
      (D = [] → J = []) → R.length < fuel →
      levelLoop sha bf level true fuel (P ++ (D.map (T.link sha) ++ (J ++ R.map (T.link sha)))) ret
        (P.length + D.length + J.length)
        (if D = [] then none else some (P.length + D.length - 1)) =
      .ok (P ++ (D ++ (chunksOf bf R).map T.node).map (T.link sha),
        ret ++ ((chunksOf bf R).map T.node).map (T.block sha), false) := by
  intro fuel
  induction fuel with
  | zero => intro D J R ret _ h; omega
  | succ fuel ih =>
    intro D J R ret hDJ hlen
    have hdrop : (P ++ (D.map (T.link sha) ++ (J ++ R.map (T.link sha)))).drop
        (P.length + D.length + J.length) = R.map (T.link sha) := by
      rw [← List.append_assoc, ← List.append_assoc]
      rw [List.drop_append_of_le_length (by simp; omega)]
      rw [List.drop_of_length_le (by simp; omega)]
      simp
    unfold levelLoop
    rw [hdrop]
    by_cases hR : R = []
    · subst hR
      simp only [List.map_nil, List.findIdx?_nil, List.append_nil, chunksOf_nil]
      by_cases hD : D = []
      · subst hD
        simp [hDJ rfl, hP]
      · have hlen : 0 < D.length := List.length_pos_iff.mpr hD
        simp only [hD, if_false]
        have htake : (P ++ (D.map (T.link sha) ++ J)).take (P.length + D.length - 1 + 1) =
            P ++ D.map (T.link sha) := by
          rw [← List.append_assoc, show P.length + D.length - 1 + 1 = (P ++ D.map (T.link sha)).length by
            simp; omega]
          rw [List.take_left]
        simp only [Option.elim_some, htake, List.any_append, hP,
          any_map_link_eq sha (show level + 1 ≠ level by omega) D]
        simp
    · rw [findIdx_map_link sha R hR]
      simp only [Bool.not_true, Bool.false_and, Bool.false_eq_true, if_false, Nat.zero_add]
      rw [hdrop]
      have hRl : 0 < R.length := List.length_pos_iff.mpr hR
      have hgroup : (R.map (T.link sha)).take
          (min (P.length + D.length + J.length + bf)
            (P ++ (D.map (T.link sha) ++ (J ++ R.map (T.link sha)))).length -
            (P.length + D.length + J.length)) = (R.take bf).map (T.link sha) := by
        rw [List.map_take]
        simp only [List.length_append, List.length_map]
        by_cases h : bf ≤ R.length
        · congr 1; omega
        · rw [List.take_of_length_le (by simp; omega), List.take_of_length_le (by simp; omega)]
      rw [hgroup, any_map_link_ne]
      simp only [Bool.false_eq_true, if_false]
      have hidx : (Option.map (· + 1) (if D = [] then none else some (P.length + D.length - 1))).getD
          (P.length + D.length + J.length) = P.length + D.length := by
        by_cases hD : D = []
        · simp [hD, hDJ hD]
        · have : 0 < D.length := List.length_pos_iff.mpr hD
          simp only [hD, if_false, Option.map_some, Option.getD_some]; omega
      rw [hidx]
      rw [← T.link_node, ← T.block_node]
      have hset : ∀ x : Link, (P ++ (D.map (T.link sha) ++ (J ++ R.map (T.link sha)))).set
          (P.length + D.length) x =
          P ++ (D.map (T.link sha) ++ (x :: (J ++ R.map (T.link sha)).tail)) := by
        intro x
        rw [← List.append_assoc, List.set_append_right _ _ (by simp)]
        have : P.length + D.length - (P ++ D.map (T.link sha)).length = 0 := by simp
        rw [this]
        cases hJ : J ++ R.map (T.link sha) with
        | nil => simp at hJ; exact absurd hJ.2 hR
        | cons a as => simp
      rw [hset]
      have htail : (J ++ R.map (T.link sha)).tail =
          (J ++ (R.take bf).map (T.link sha)).tail ++ (R.drop bf).map (T.link sha) := by
        rw [← List.tail_append_of_ne_nil]
        · rw [List.append_assoc, ← List.map_append, List.take_append_drop]
        · simp; intro _; exact ⟨by omega, hR⟩
      rw [htail]
      have hnew := ih (D ++ [T.node (R.take bf)]) (J ++ (R.take bf).map (T.link sha)).tail
        (R.drop bf) (ret ++ [(T.node (R.take bf)).block sha]) (by simp)
        (by simp; omega)
      have hsp : min (P.length + D.length + J.length + bf)
          (P ++ (D.map (T.link sha) ++ (J ++ R.map (T.link sha)))).length =
          P.length + (D ++ [T.node (R.take bf)]).length +
            (J ++ (R.take bf).map (T.link sha)).tail.length := by
        simp; omega
      rw [hsp]
      simp only [List.map_append, List.map_cons, List.map_nil, List.append_assoc,
        List.cons_append, List.nil_append] at hnew
      have hlo : (if D ++ [T.node (R.take bf)] = [] then none
          else some (P.length + (D ++ [T.node (R.take bf)]).length - 1)) =
          some (P.length + D.length) := by
        simp
      rw [hlo] at hnew
      rw [hnew]
      rw [chunksOf_cons hbf hR]
      simp

end Verif.Unixfs
