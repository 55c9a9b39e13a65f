import Verif.Props.Refs

/-! # C38: the exact stream with `unique` -/

namespace Verif.Props

open Verif Verif.Ipld Verif.Ipfs.Refs

/-! ### Specification -/

/-- The first edge to every destination, leaving out those seen before. -/
def firstTo : List Cid → List Edge → List Edge
  | _, [] => []
  | seen, e :: l => if e.destination ∈ seen then firstTo seen l else e :: firstTo (e.destination :: seen) l

/-- All edges less than `n` links away from the roots, level by level. -/
def edgesBelow (look : Cid → Look) (roots : List (Cid × List (Option Bytes × Cid))) (n : Nat) : List Edge :=
  (List.range n).flatMap (edgeLevel look roots)

/-! ### Helpers -/

/-- What was seen afterwards. -/
def seenTo : List Cid → List Edge → List Cid
  | seen, [] => seen
  | seen, e :: l => if e.destination ∈ seen then seenTo seen l else seenTo (e.destination :: seen) l

theorem firstTo_append (vis : List Cid) (a b : List Edge) :
    firstTo vis (a ++ b) = firstTo vis a ++ firstTo (seenTo vis a) b ∧ seenTo vis (a ++ b) = seenTo (seenTo vis a) b := by
  induction a generalizing vis with
  | nil => exact ⟨rfl, rfl⟩
  | cons e a ih =>
    simp only [List.cons_append, firstTo, seenTo]
    by_cases h : e.destination ∈ vis
    · simp only [if_pos h]; exact ih vis
    · simp only [if_neg h, List.cons_append]
      exact ⟨by rw [(ih _).1], (ih _).2⟩

theorem mem_seenTo (vis : List Cid) (l : List Edge) (c : Cid) :
    c ∈ seenTo vis l ↔ c ∈ vis ∨ ∃ e ∈ l, e.destination = c := by
  induction l generalizing vis with
  | nil => simp [seenTo]
  | cons e l ih =>
    simp only [seenTo]
    by_cases h : e.destination ∈ vis
    · rw [if_pos h, ih]
      simp only [List.mem_cons, exists_eq_or_imp]
      constructor
      · rintro (h1 | h1)
        · exact Or.inl h1
        · exact Or.inr (Or.inr h1)
      · rintro (h1 | rfl | h1)
        · exact Or.inl h1
        · exact Or.inl h
        · exact Or.inr h1
    · rw [if_neg h, ih]
      simp only [List.mem_cons, exists_eq_or_imp]
      constructor
      · rintro ((rfl | h1) | h1)
        · exact Or.inr (Or.inl rfl)
        · exact Or.inl h1
        · exact Or.inr (Or.inr h1)
      · rintro (h1 | rfl | h1)
        · exact Or.inl (Or.inr h1)
        · exact Or.inl (Or.inl rfl)
        · exact Or.inr h1

theorem firstTo_seen {vis : List Cid} {l : List Edge} (h : ∀ e ∈ l, e.destination ∈ vis) :
    firstTo vis l = [] ∧ seenTo vis l = vis := by
  induction l with
  | nil => exact ⟨rfl, rfl⟩
  | cons e l ih =>
    simp only [firstTo, seenTo, if_pos (h e (by simp))]
    exact ih (fun x hx => h x (by simp [hx]))

theorem firstTo_sub {vis : List Cid} {l : List Edge} : ∀ e ∈ firstTo vis l, e ∈ l := by
  induction l generalizing vis with
  | nil => simp [firstTo]
  | cons e l ih =>
    intro x hx
    simp only [firstTo] at hx
    split at hx
    · simp [ih x hx]
    · rcases List.mem_cons.mp hx with rfl | hx
      · simp
      · simp [ih x hx]

theorem enqueue_first (depth : Nat) (source : Cid) (ls : List (Option Bytes × Cid)) (vis : List Cid) :
    enqueue true depth source ls vis =
      (works depth (firstTo vis (ls.map (fun l => ⟨source, l.2, l.1⟩))), seenTo vis (ls.map (fun l => ⟨source, l.2, l.1⟩))) := by
  induction ls generalizing vis with
  | nil => rfl
  | cons l ls ih =>
    obtain ⟨name, c⟩ := l
    by_cases hc : c ∈ vis
    · simp [enqueue, ih, firstTo, seenTo, hc]
    · simp [enqueue, ih, firstTo, seenTo, hc, works]

theorem enqueueRoots_first (look : Cid → Look) (roots : List (Cid × List (Option Bytes × Cid))) (vis : List Cid) :
    enqueueRoots true roots vis = (works 0 (firstTo vis (edgeLevel look roots 0)), seenTo vis (edgeLevel look roots 0)) := by
  induction roots generalizing vis with
  | nil => rfl
  | cons r roots ih =>
    obtain ⟨c, ls⟩ := r
    simp only [enqueueRoots, enqueue_first, ih]
    have : edgeLevel look ((c, ls) :: roots) 0 = ls.map (fun l => ⟨c, l.2, l.1⟩) ++ edgeLevel look roots 0 := by simp [edgeLevel]
    rw [this, (firstTo_append _ _ _).1, (firstTo_append _ _ _).2, works_append]

/-- Going through a level. -/
theorem loop_level_first {o : Opts} {look : Cid → Look} (hu : o.unique = true) (hd : o.download = true) {n : Nat}
    (ht : traverse o.debug o.maxDepth n = .go) (L : List Edge) (hp : ∀ e ∈ L, look e.destination ≠ .panic) :
    ∀ (M : List Edge) (fuel : Nat) (vis : List Cid),
    loop o look (fuel + L.length) (works n L ++ works (n + 1) M) vis =
      (loop o look fuel (works (n + 1) (M ++ firstTo vis (L.flatMap (edgeKids look)))) (seenTo vis (L.flatMap (edgeKids look)))).map
        (fun r => (L.flatMap (shownEdge look) ++ r.1, r.2)) := by
  induction L with
  | nil =>
    intro M fuel vis
    simp only [List.length_nil, Nat.add_zero, works, List.map_nil, List.nil_append, List.flatMap_nil, List.append_nil, firstTo,
      seenTo]
    cases loop o look fuel (List.map (fun e => ⟨n + 1, e⟩) M) vis with
    | none => rfl
    | some r => rfl
  | cons e L ih =>
    intro M fuel vis
    have hpe := hp e (by simp)
    have ih' := ih (fun x hx => hp x (by simp [hx]))
    have hw : works n (e :: L) ++ works (n + 1) M = ⟨n, e⟩ :: (works n L ++ works (n + 1) M) := rfl
    rw [hw, show fuel + (e :: L).length = (fuel + L.length) + 1 from rfl, loop, ht]
    simp only
    cases hl : look e.destination with
    | missing =>
      simp only [hd, if_true]
      rw [ih']
      simp [edgeKids, shownEdge, hl]
    | broken x =>
      simp only
      rw [ih']
      simp only [List.flatMap_cons, edgeKids, shownEdge, hl, List.nil_append, Option.map_map]
      rfl
    | panic => exact absurd hl hpe
    | links ls =>
      simp only [reduceCtorEq, if_false, hu, enqueue_first]
      rw [List.append_assoc, ← works_append, ih']
      simp only [List.flatMap_cons, Option.map_map]
      have : edgeKids look e = ls.map (fun l => ⟨e.destination, l.2, l.1⟩) := by simp [edgeKids, hl]
      rw [this, (firstTo_append _ _ _).1, (firstTo_append _ _ _).2, List.append_assoc]
      simp only [shownEdge, hl]
      rfl

/-- Links of what was seen before add nothing. -/
theorem firstTo_flatMap (look : Cid → Look) (L : List Edge) : ∀ (V vis : List Cid),
    (∀ e, e.destination ∈ V → ∀ k ∈ edgeKids look e, k.destination ∈ vis) →
    firstTo vis (L.flatMap (edgeKids look)) = firstTo vis ((firstTo V L).flatMap (edgeKids look)) ∧
    seenTo vis (L.flatMap (edgeKids look)) = seenTo vis ((firstTo V L).flatMap (edgeKids look)) := by
  induction L with
  | nil => intro V vis _; exact ⟨rfl, rfl⟩
  | cons e L ih =>
    intro V vis h
    simp only [List.flatMap_cons, firstTo, (firstTo_append _ _ _).1, (firstTo_append _ _ _).2]
    by_cases hv : e.destination ∈ V
    · rw [if_pos hv]
      obtain ⟨h1, h2⟩ := firstTo_seen (h e hv)
      rw [h1, h2]
      exact ih V vis h
    · rw [if_neg hv]
      simp only [List.flatMap_cons, (firstTo_append _ _ _).1, (firstTo_append _ _ _).2]
      have := ih (e.destination :: V) (seenTo vis (edgeKids look e)) (by
        intro e' he' k hk
        rw [mem_seenTo]
        rcases List.mem_cons.mp he' with he' | he'
        · right
          refine ⟨k, ?_, rfl⟩
          unfold edgeKids at hk ⊢
          rw [← he']; exact hk
        · exact Or.inl (h e' he' k hk))
      exact ⟨by rw [this.1], this.2⟩

theorem edgesBelow_succ (look : Cid → Look) (roots) (n : Nat) :
    edgesBelow look roots (n + 1) = edgesBelow look roots n ++ edgeLevel look roots n := by
  simp [edgesBelow, List.range_succ]

/-- What is new in a level. -/
def newEdges (look : Cid → Look) (roots : List (Cid × List (Option Bytes × Cid))) (n : Nat) : List Edge :=
  firstTo (seenTo [] (edgesBelow look roots n)) (edgeLevel look roots n)

theorem mem_edgesBelow {look : Cid → Look} {roots} {n : Nat} {e : Edge} :
    e ∈ edgesBelow look roots n ↔ ∃ m, m < n ∧ e ∈ edgeLevel look roots m := by
  simp [edgesBelow]

theorem newEdges_succ (look : Cid → Look) (roots) (n : Nat) :
    firstTo (seenTo [] (edgesBelow look roots (n + 1))) ((newEdges look roots n).flatMap (edgeKids look)) =
      newEdges look roots (n + 1) ∧
    seenTo (seenTo [] (edgesBelow look roots (n + 1))) ((newEdges look roots n).flatMap (edgeKids look)) =
      seenTo [] (edgesBelow look roots (n + 2)) := by
  have h := firstTo_flatMap look (edgeLevel look roots n) (seenTo [] (edgesBelow look roots n))
    (seenTo [] (edgesBelow look roots (n + 1))) (by
      intro e he k hk
      rw [mem_seenTo] at he ⊢
      rcases he with he | ⟨e', he', hd⟩
      · cases he
      · obtain ⟨m, hm, hl⟩ := mem_edgesBelow.mp he'
        right
        refine ⟨k, mem_edgesBelow.mpr ⟨m + 1, by omega, ?_⟩, rfl⟩
        rw [edgeLevel_succ, List.mem_flatMap]
        refine ⟨e', hl, ?_⟩
        unfold edgeKids at hk ⊢
        rw [hd]; exact hk)
  unfold newEdges
  rw [← h.1, ← h.2, edgesBelow_succ look roots (n + 1), (firstTo_append _ _ _).2, edgeLevel_succ]
  exact ⟨rfl, rfl⟩

theorem firstTo_below (look : Cid → Look) (roots) (n : Nat) :
    firstTo [] (edgesBelow look roots n) = (List.range n).flatMap (newEdges look roots) := by
  induction n with
  | zero => rfl
  | succ n ih =>
    rw [edgesBelow_succ, (firstTo_append _ _ _).1, ih]
    simp [List.range_succ, newEdges]

theorem calm_new {look : Cid → Look} {roots} (h : RefsCalm look roots) (n : Nat) :
    ∀ e ∈ newEdges look roots n, look e.destination ≠ .panic :=
  fun e he => calm_level h n e (firstTo_sub e he)

/-- One level. -/
theorem loop_new {o : Opts} {look : Cid → Look} {roots} (hu : o.unique = true) (hd : o.download = true)
    (hc : RefsCalm look roots) {n fuel : Nat} {r : List Item × Ending} (ht : traverse o.debug o.maxDepth n = .go)
    (h : loop o look fuel (works n (newEdges look roots n)) (seenTo [] (edgesBelow look roots (n + 1))) = some r) :
    ∃ f r', fuel = f + (newEdges look roots n).length ∧
      loop o look f (works (n + 1) (newEdges look roots (n + 1))) (seenTo [] (edgesBelow look roots (n + 2))) = some r' ∧
      r = ((newEdges look roots n).flatMap (shownEdge look) ++ r'.1, r'.2) := by
  by_cases hle : fuel ≤ (newEdges look roots n).length
  · have := loop_short hd ht _ (calm_new hc n) [] fuel (seenTo [] (edgesBelow look roots (n + 1))) hle
    rw [List.append_nil] at this
    rw [this] at h; cases h
  · obtain ⟨f, rfl⟩ : ∃ f, fuel = f + (newEdges look roots n).length := ⟨fuel - (newEdges look roots n).length, by omega⟩
    have := loop_level_first hu hd ht _ (calm_new hc n) [] f (seenTo [] (edgesBelow look roots (n + 1)))
    rw [(newEdges_succ look roots n).1, (newEdges_succ look roots n).2] at this
    simp only [works, List.map_nil, List.append_nil, List.nil_append] at this
    simp only [works] at h
    rw [this] at h
    obtain ⟨r', h1, h2⟩ := Option.map_eq_some_iff.mp h
    exact ⟨f, r', rfl, h1, h2.symm⟩

theorem range_items (look : Cid → Look) (roots) (n k : Nat) (i : List Item)
    (h : i = (List.range k).flatMap (fun i => (newEdges look roots (n + 1 + i)).flatMap (shownEdge look))) :
    (newEdges look roots n).flatMap (shownEdge look) ++ i =
      (List.range (k + 1)).flatMap (fun i => (newEdges look roots (n + i)).flatMap (shownEdge look)) := by
  rw [h, flatMap_range_succ]
  simp only [Nat.add_zero, List.append_cancel_left_eq]
  congr 1
  funext i
  rw [show n + 1 + i = n + (i + 1) by omega]

theorem loop_new_limited {o : Opts} {look : Cid → Look} {roots} {d : Nat} (hu : o.unique = true) (hd : o.download = true)
    (hm : o.maxDepth = some d) (hlt : d + 1 < 2 ^ 64) (hc : RefsCalm look roots) (k : Nat) :
    ∀ n fuel, n + k = d → ∀ r,
      loop o look fuel (works n (newEdges look roots n)) (seenTo [] (edgesBelow look roots (n + 1))) = some r →
      r = ((List.range k).flatMap (fun i => (newEdges look roots (n + i)).flatMap (shownEdge look)), .done) := by
  induction k with
  | zero =>
    intro n fuel hn r h
    rw [loop_skip] at h
    · split at h
      · simp only [Option.some.injEq] at h; simp [← h]
      · cases h
    · intro w hw
      obtain ⟨e, _, rfl⟩ := List.mem_map.mp hw
      rw [hm]; exact traverse_ge (show d ≤ n by omega)
  | succ k ih =>
    intro n fuel hn r h
    have ht : traverse o.debug o.maxDepth n = .go := by rw [hm]; exact traverse_lt (by omega) hlt
    obtain ⟨f, r', -, h1, rfl⟩ := loop_new hu hd hc ht h
    rw [ih (n + 1) f (by omega) r' h1]
    simp only [Prod.mk.injEq, and_true]
    exact range_items look roots n k _ rfl

theorem loop_new_unlimited {o : Opts} {look : Cid → Look} {roots} (hu : o.unique = true) (hd : o.download = true)
    (hm : o.maxDepth = none) (hc : RefsCalm look roots) : ∀ (N n fuel : Nat), fuel ≤ N → ∀ r,
      loop o look fuel (works n (newEdges look roots n)) (seenTo [] (edgesBelow look roots (n + 1))) = some r →
      ∃ k, newEdges look roots (n + k) = [] ∧
        r = ((List.range k).flatMap (fun i => (newEdges look roots (n + i)).flatMap (shownEdge look)), .done) := by
  intro N
  induction N with
  | zero =>
    intro n fuel hN r h
    have : fuel = 0 := by omega
    subst this; cases h
  | succ N ih =>
    intro n fuel hN r h
    have ht : traverse o.debug o.maxDepth n = .go := by rw [hm]; rfl
    by_cases he : newEdges look roots n = []
    · refine ⟨0, he, ?_⟩
      rw [he] at h
      cases fuel with
      | zero => cases h
      | succ f => simp only [works, List.map_nil, loop, Option.some.injEq] at h; simp [← h]
    · have hpos : 0 < (newEdges look roots n).length := List.length_pos_iff.mpr he
      obtain ⟨f, r', hf, h1, rfl⟩ := loop_new hu hd hc ht h
      obtain ⟨k, hk, hr⟩ := ih (n + 1) f (by omega) r' h1
      refine ⟨k + 1, by rw [show n + (k + 1) = n + 1 + k by omega]; exact hk, ?_⟩
      rw [hr]
      simp only [Prod.mk.injEq, and_true]
      exact range_items look roots n k _ rfl

theorem newEdges_nil {look : Cid → Look} {roots} {N : Nat} (h : newEdges look roots N = []) (k : Nat) :
    newEdges look roots (N + k) = [] := by
  induction k with
  | zero => exact h
  | succ k ih => rw [← Nat.add_assoc, ← (newEdges_succ look roots (N + k)).1, ih]; rfl

theorem new_run {o : Opts} {look : Cid → Look} {roots} (hu : o.unique = true) (hd : o.download = true)
    (hc : RefsCalm look roots) (k : Nat) : ∀ n, (∀ i, i < k → traverse o.debug o.maxDepth (n + i) = .go) →
    traverse o.debug o.maxDepth (n + k) = .skip →
    ∃ fuel, (loop o look fuel (works n (newEdges look roots n)) (seenTo [] (edgesBelow look roots (n + 1)))).isSome := by
  induction k with
  | zero =>
    intro n _ h
    refine ⟨(works n (newEdges look roots n)).length + 1, ?_⟩
    rw [loop_skip]
    · simp
    · intro w hw
      obtain ⟨e, _, rfl⟩ := List.mem_map.mp hw
      exact h
  | succ k ih =>
    intro n hgo hend
    obtain ⟨f, hf⟩ := ih (n + 1) (fun i hi => by
      have := hgo (i + 1) (by omega)
      rwa [show n + (i + 1) = n + 1 + i by omega] at this) (by
      rwa [show n + (k + 1) = n + 1 + k by omega] at hend)
    refine ⟨f + (newEdges look roots n).length, ?_⟩
    have := loop_level_first hu hd (hgo 0 (by omega)) _ (calm_new hc n) [] f (seenTo [] (edgesBelow look roots (n + 1)))
    rw [(newEdges_succ look roots n).1, (newEdges_succ look roots n).2] at this
    simp only [works, List.map_nil, List.append_nil, List.nil_append, Nat.add_zero] at this ⊢
    rw [this]
    simpa [works] using hf

/-! ### C38 -/

/-- **C38**, **C39**: with a limit it ends, whatever the graph, also with `unique`. -/
theorem C39_unique_terminates (o : Opts) (look : Cid → Look) (roots : List (Cid × List (Option Bytes × Cid))) (d : Nat)
    (hu : o.unique = true) (hd : o.download = true) (hm : o.maxDepth = some d) (hlt : d + 1 < 2 ^ 64)
    (hc : RefsCalm look roots) : ∃ fuel, (refs o look fuel roots).isSome := by
  by_cases h0 : o.maxDepth = some 0
  · exact ⟨0, by simp [refs, h0]⟩
  · obtain ⟨f, hf⟩ := new_run (look := look) (roots := roots) hu hd hc d 0
      (fun i hi => by rw [hm, Nat.zero_add]; exact traverse_lt hi hlt)
      (by rw [hm, Nat.zero_add]; exact traverse_ge (Nat.le_refl _))
    refine ⟨f, ?_⟩
    unfold refs
    rw [if_neg h0, hu, enqueueRoots_first look]
    simpa [newEdges, edgesBelow, seenTo] using hf

/-- **C38**, **C39**: with `unique` the stream is the one without, level by level, of which the first link to every
destination is kept; with a limit, up to that limit, and else until nothing new is found. -/
theorem C38_unique_order (o : Opts) (look : Cid → Look) (roots : List (Cid × List (Option Bytes × Cid))) (fuel : Nat)
    (hu : o.unique = true) (hd : o.download = true) (hm : ∀ d, o.maxDepth = some d → d + 1 < 2 ^ 64)
    (hc : RefsCalm look roots) (items : List Item) (ending : Ending)
    (h : refs o look fuel roots = some (items, ending)) :
    ending = .done ∧
    (∀ d, o.maxDepth = some d → items = (firstTo [] (edgesBelow look roots d)).flatMap (shownEdge look)) ∧
    (o.maxDepth = none → ∃ N, ∀ n, N ≤ n → items = (firstTo [] (edgesBelow look roots n)).flatMap (shownEdge look)) := by
  have hq : enqueueRoots o.unique roots [] = (works 0 (newEdges look roots 0), seenTo [] (edgesBelow look roots 1)) := by
    rw [hu, enqueueRoots_first look]
    simp [newEdges, edgesBelow, seenTo]
  cases hmd : o.maxDepth with
  | some d =>
    have : (items, ending) = ((List.range d).flatMap (fun i => (newEdges look roots i).flatMap (shownEdge look)), .done) := by
      unfold refs at h
      split at h
      · rename_i h0
        rw [hmd] at h0
        cases h0
        cases h
        rfl
      · rw [hq] at h
        have := loop_new_limited hu hd hmd (hm d hmd) hc d 0 fuel (by omega) _ h
        simpa using this
    cases this
    refine ⟨rfl, ?_, by simp⟩
    intro d' hd'
    cases hd'
    rw [firstTo_below, List.flatMap_assoc]
  | none =>
    unfold refs at h
    rw [if_neg (by rw [hmd]; simp), hq] at h
    obtain ⟨k, hk, hr⟩ := loop_new_unlimited hu hd hmd hc fuel 0 fuel (Nat.le_refl _) _ h
    simp only [Nat.zero_add] at hk hr
    cases hr
    refine ⟨rfl, by simp, fun _ => ⟨k, fun n hn => ?_⟩⟩
    obtain ⟨j, rfl⟩ : ∃ j, n = k + j := ⟨n - k, by omega⟩
    clear hn
    induction j with
    | zero => rw [Nat.add_zero, firstTo_below, List.flatMap_assoc]
    | succ j ih =>
      rw [ih, firstTo_below, firstTo_below, ← Nat.add_assoc, List.range_succ, List.flatMap_append]
      simp [newEdges_nil hk j]

/-- Two links to the same block: the first is kept, whatever follows it. -/
example : firstTo [] [⟨exRefCid 0, exRefCid 1, none⟩, ⟨exRefCid 0, exRefCid 2, none⟩, ⟨exRefCid 2, exRefCid 1, none⟩] =
    [⟨exRefCid 0, exRefCid 1, none⟩, ⟨exRefCid 0, exRefCid 2, none⟩] := by decide +kernel

end Verif.Props
