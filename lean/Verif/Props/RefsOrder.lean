import Verif.Props.Refs

/-! # C38: the links of a block in order, and blocks without -/

namespace Verif.Props

open Verif Verif.Ipld Verif.Ipfs.Refs

/-! ### Specification -/

mutual
/-- All links inside of a document, from front to back. -/
def linksIn : Ipld → List Cid
  | .link c => [c]
  | .list l => linksInList l
  | .map m => linksInMap m
  | _ => []

def linksInList : List Ipld → List Cid
  | [] => []
  | d :: l => linksIn d ++ linksInList l

def linksInMap : List (Bytes × Ipld) → List Cid
  | [] => []
  | (_, d) :: m => linksIn d ++ linksInMap m
end

/-- The links of a document with their names: only dag-pb has names. -/
def BlockLinks (e : Env) (size : Nat) (c : Cid) (data : Bytes) (ls : List (Option Bytes × Cid)) : Prop :=
  if c.codec = codecDagPb then
    ∃ n, DagPbNode.ofBytes data = some n ∧ ls = n.links.map (fun l => (some l.name, l.cid))
  else ∃ doc, decodeIpld e size c data = .ok doc ∧ ls = (linksIn doc).map (fun d => (none, d))

/-! ### Helpers -/

/-- The link a value is. -/
def valueLink : Ipld → Option (Option Bytes × Cid)
  | .link c => some (none, c)
  | _ => none

theorem linksInList_values (m : List (Bytes × Ipld)) : linksInList (values m) = linksInMap m := by
  induction m with
  | nil => rfl
  | cons x m ih => obtain ⟨k, d⟩ := x; simp only [values, List.map_cons, linksInList, linksInMap] at ih ⊢; rw [ih]

theorem iterGo_links (st : List (List Ipld)) :
    (iterGo st).filterMap valueLink = (st.flatMap linksInList).map (fun d => (none, d)) := by
  induction st using iterGo.induct with
  | case1 => simp [iterGo]
  | case2 st ih => rw [iterGo, ih]; simp [linksInList]
  | case3 xs st l ih => rw [iterGo, List.filterMap_cons]; simp [valueLink, ih, linksInList, linksIn]
  | case4 xs st m ih => rw [iterGo, List.filterMap_cons]; simp [valueLink, ih, linksInList, linksIn, linksInList_values]
  | case5 xs st x0 h1 h2 ih =>
    have e : iterGo ((x0 :: xs) :: st) = x0 :: iterGo (xs :: st) := by
      rw [iterGo.eq_def]
      cases x0 with
      | list l => exact absurd rfl (h1 l)
      | map m => exact absurd rfl (h2 m)
      | _ => rfl
    rw [e, List.filterMap_cons, ih]
    cases x0 with
    | list l => exact absurd rfl (h1 l)
    | map m => exact absurd rfl (h2 m)
    | _ => simp [valueLink, linksInList, linksIn]

theorem dagPbLinkList_eq (ls : List DagPbLink) :
    dagPbLinkList (ls.map DagPbLink.toIpld) =
      if ∃ l ∈ ls, l.name = [0x2F] then none else some (ls.map (fun l => (some l.name, l.cid))) := by
  induction ls with
  | nil => simp [dagPbLinkList]
  | cons l ls ih =>
    simp only [List.map_cons, dagPbLinkList, dagPbLink_toIpld, ih]
    by_cases h : l.name = [0x2F]
    · simp [h]
    · by_cases h' : ∃ l ∈ ls, l.name = [0x2F]
      · have : ∃ l' ∈ l :: ls, l'.name = [0x2F] := by
          obtain ⟨l', h1, h2⟩ := h'
          exact ⟨l', by simp [h1], h2⟩
        rw [if_neg h, if_pos h', if_pos this]; rfl
      · have : ¬ ∃ l' ∈ l :: ls, l'.name = [0x2F] := by
          rintro ⟨l', h1, h2⟩
          rcases List.mem_cons.mp h1 with rfl | h1
          · exact h h2
          · exact h' ⟨l', h1, h2⟩
        rw [if_neg h, if_neg h', if_neg this]; rfl

theorem dagPbLinks_eq (n : DagPbNode) :
    dagPbLinks n.toIpld =
      if ∃ l ∈ n.links, l.name = [0x2F] then none else some (n.links.map (fun l => (some l.name, l.cid))) := by
  have h1 : AMap.get (BMap.insert (BMap.insert [] kLinks (Ipld.list (n.links.map DagPbLink.toIpld))) kData
      (Ipld.bytes n.data)) kLinks = some (.list (n.links.map DagPbLink.toIpld)) := rfl
  simp only [dagPbLinks, DagPbNode.toIpld, h1]
  exact dagPbLinkList_eq _

theorem ipldLinks_other {c : Cid} (hc : c.codec ≠ codecDagPb) (d : Ipld) :
    ipldLinks c d = some ((linksIn d).map (fun x => (none, x))) := by
  unfold ipldLinks
  rw [if_neg hc]
  have := iterGo_links [[d]]
  simp only [List.flatMap_cons, List.flatMap_nil, linksInList, List.append_nil] at this
  rw [← this]
  rfl

theorem decode_dagPb {e : Env} {size : Nat} {c : Cid} (hc : c.codec = codecDagPb) (data : Bytes) :
    decodeIpld e size c data = match DagPbNode.ofBytes data with
      | some n => .ok n.toIpld
      | none => .error .codec := by
  have hne : ¬ (c.codec = codecDagCbor) := by rw [hc]; decide
  unfold decodeIpld
  rw [if_neg hne, if_pos hc]
  cases DagPbNode.ofBytes data <;> rfl

/-- What comes of a block that can be decoded. -/
theorem ipldLinks_decoded {e : Env} {size : Nat} {c : Cid} {data : Bytes} {doc : Ipld}
    (h : decodeIpld e size c data = .ok doc) :
    (∀ ls, ipldLinks c doc = some ls ↔ BlockLinks e size c data ls ∧ (c.codec = codecDagPb → ∀ l ∈ ls, l.1 ≠ some [0x2F])) ∧
    (ipldLinks c doc = none ↔ c.codec = codecDagPb ∧ ∃ n, DagPbNode.ofBytes data = some n ∧ ∃ l ∈ n.links, l.name = [0x2F]) := by
  by_cases hc : c.codec = codecDagPb
  · rw [decode_dagPb hc] at h
    cases hn : DagPbNode.ofBytes data with
    | none => rw [hn] at h; cases h
    | some n =>
      rw [hn] at h
      cases h
      unfold BlockLinks ipldLinks
      simp only [hn, hc, if_true, dagPbLinks_eq, Option.some.injEq, exists_eq_left', true_and, forall_const]
      by_cases hs : ∃ l ∈ n.links, l.name = [0x2F]
      · rw [if_pos hs]
        refine ⟨fun ls => ?_, by simp only [true_iff]; exact hs⟩
        simp only [reduceCtorEq, false_iff, not_and]
        rintro rfl hx
        obtain ⟨l, h1, h2⟩ := hs
        exact hx (some l.name, l.cid) (List.mem_map.mpr ⟨l, h1, rfl⟩) (by rw [h2])
      · rw [if_neg hs]
        refine ⟨fun ls => ?_, by simp only [reduceCtorEq, false_iff]; exact hs⟩
        constructor
        · intro he
          cases he
          refine ⟨rfl, fun x hx => ?_⟩
          obtain ⟨l, h1, rfl⟩ := List.mem_map.mp hx
          exact fun hh => hs ⟨l, h1, Option.some.inj hh⟩
        · rintro ⟨rfl, -⟩; rfl
  · rw [ipldLinks_other hc]
    unfold BlockLinks
    simp only [hc, if_false, h, Except.ok.injEq, exists_eq_left', false_implies, and_true, false_and, Option.some.injEq,
      reduceCtorEq]
    simp [eq_comm]

/-! ### C38 -/

/-- **C38**: the links listed for a block are all those of its document, in order; a dag-pb block with a link called "/" has
no such list. -/
theorem C38_order (e : Env) (size : Nat) (fetch : Cid → Option Bytes) (c : Cid) (ls : List (Option Bytes × Cid)) :
    look e size fetch c = .links ls ↔ ∃ data, fetch c = some data ∧ BlockLinks e size c data ls ∧
      (c.codec = codecDagPb → ∀ l ∈ ls, l.1 ≠ some "/".toUTF8.toList) := by
  rw [show "/".toUTF8.toList = [0x2F] by decide +kernel]
  unfold look
  cases hf : fetch c with
  | none => simp
  | some data =>
    simp only [Option.some.injEq, exists_eq_left']
    cases hd : decodeIpld e size c data with
    | error x =>
      simp only [reduceCtorEq, false_iff, not_and]
      intro hb
      unfold BlockLinks at hb
      split at hb
      · rename_i hc
        obtain ⟨n, hn, -⟩ := hb
        rw [decode_dagPb hc, hn] at hd
        cases hd
      · obtain ⟨doc, h1, -⟩ := hb
        rw [hd] at h1; cases h1
    | ok doc =>
      rw [← (ipldLinks_decoded hd).1 ls]
      simp only []
      cases ipldLinks c doc <;> simp

/-- **C38**: what comes of other blocks. -/
theorem C38_others (e : Env) (size : Nat) (fetch : Cid → Option Bytes) (c : Cid) :
    (look e size fetch c = .missing ↔ fetch c = none) ∧
    (∀ x, look e size fetch c = .broken x ↔ ∃ data, fetch c = some data ∧ decodeIpld e size c data = .error x) ∧
    (look e size fetch c = .panic ↔ ∃ data n, fetch c = some data ∧ c.codec = codecDagPb ∧ DagPbNode.ofBytes data = some n ∧
      ∃ l ∈ n.links, l.name = "/".toUTF8.toList) := by
  rw [show "/".toUTF8.toList = [0x2F] by decide +kernel]
  unfold look
  cases hf : fetch c with
  | none => simp
  | some data =>
    simp only [Option.some.injEq, exists_and_left, exists_eq_left', reduceCtorEq, iff_false]
    cases hd : decodeIpld e size c data with
    | error x =>
      simp only [reduceCtorEq, not_false_eq_true, Look.broken.injEq, Except.error.injEq, implies_true, false_iff, not_and, true_and]
      rintro hc ⟨n, hn, -⟩
      rw [decode_dagPb hc, hn] at hd
      cases hd
    | ok doc =>
      rw [← (ipldLinks_decoded hd).2]
      simp only []
      cases ipldLinks c doc <;> simp

/-- `{"a": [link 1, {"b": link 2}], "c": link 1}`: in order, with repetition. -/
example : linksIn (.map [([97], .list [.link (exRefCid 1), .map [([98], .link (exRefCid 2))]]), ([99], .link (exRefCid 1))]) =
    [exRefCid 1, exRefCid 2, exRefCid 1] := by decide +kernel

end Verif.Props
