import Verif.Ipfs.Refs

/-!
# C38, C39: listing references

A graph is a function telling what comes of a block; `C38_links` says what the links of a block are. The
other theorems hold for every such function, so for every store.
-/

namespace Verif.Props

open Verif Verif.Ipld Verif.Ipfs.Refs

/-! ### Specification -/

/-- `x` occurs in the document. -/
inductive Within (x : Ipld) : Ipld → Prop
  | here : Within x x
  | list {l : List Ipld} {y : Ipld} : y ∈ l → Within x y → Within x (.list l)
  | map {m : List (Bytes × Ipld)} {k : Bytes} {y : Ipld} : (k, y) ∈ m → Within x y → Within x (.map m)

/-- The block `data` of `c` has a link to `d` of that name: one of the links of a dag-pb node, or any link
inside another kind of document. -/
def DocLink (e : Env) (size : Nat) (c : Cid) (data : Bytes) (name : Option Bytes) (d : Cid) : Prop :=
  if c.codec = codecDagPb then
    ∃ n, DagPbNode.ofBytes data = some n ∧ ∃ l ∈ n.links, l.cid = d ∧ name = some l.name
  else ∃ doc, decodeIpld e size c data = .ok doc ∧ name = none ∧ Within (.link d) doc

/-- The edge was found in a node `n` links away from a root. -/
inductive FoundAt (look : Cid → Look) (roots : List (Cid × List (Option Bytes × Cid))) : Nat → Edge → Prop
  | root {c ls name d} : (c, ls) ∈ roots → (name, d) ∈ ls → FoundAt look roots 0 ⟨c, d, name⟩
  | step {n e ls name d} : FoundAt look roots n e → look e.destination = .links ls → (name, d) ∈ ls →
      FoundAt look roots (n + 1) ⟨e.destination, d, name⟩

/-- The block it leads to is there and can be read. -/
def Readable (look : Cid → Look) (c : Cid) : Prop := ∃ ls, look c = .links ls

/-- Edges listed level by level: in every level, the links of the destinations of the level before. -/
def edgeLevel (look : Cid → Look) (roots : List (Cid × List (Option Bytes × Cid))) : Nat → List Edge
  | 0 => roots.flatMap (fun r => r.2.map (fun l => ⟨r.1, l.2, l.1⟩))
  | n + 1 => (edgeLevel look roots n).flatMap (fun e => match look e.destination with
    | .links ls => ls.map (fun l => ⟨e.destination, l.2, l.1⟩)
    | _ => [])

/-- What the stream tells about an edge: itself, or an error if the block cannot be decoded. -/
def shownEdge (look : Cid → Look) (e : Edge) : List Item :=
  match look e.destination with
  | .links _ => [.edge e]
  | .broken x => [.blockErr x]
  | _ => []

/-- No block is reached on which the listing panics. -/
def RefsCalm (look : Cid → Look) (roots : List (Cid × List (Option Bytes × Cid))) : Prop :=
  ∀ n e, FoundAt look roots n e → look e.destination ≠ .panic

/-- The edges reported. -/
def edgesOf (items : List Item) : List Edge := items.filterMap (fun i => match i with
  | .edge e => some e
  | _ => none)

/-! ### Helpers: the links of a document -/

theorem mem_iterGo (st : List (List Ipld)) (y : Ipld) :
    y ∈ iterGo st ↔ ∃ l ∈ st, ∃ x ∈ l, Within y x := by
  induction st using iterGo.induct with
  | case1 => simp [iterGo]
  | case2 st ih => rw [iterGo, ih]; simp
  | case3 xs st l ih =>
    rw [iterGo]
    simp only [List.mem_cons, ih]
    constructor
    · rintro (rfl | ⟨a, (rfl | rfl | ha), x, hx, hw⟩)
      · exact ⟨_, Or.inl rfl, _, List.mem_cons_self, .here⟩
      · exact ⟨_, Or.inl rfl, _, List.mem_cons_self, .list hx hw⟩
      · exact ⟨_, Or.inl rfl, x, List.mem_cons_of_mem _ hx, hw⟩
      · exact ⟨a, Or.inr ha, x, hx, hw⟩
    · rintro ⟨a, (rfl | ha), x, hx, hw⟩
      · rcases List.mem_cons.mp hx with rfl | hx
        · cases hw with
          | here => exact Or.inl rfl
          | list h1 h2 => exact Or.inr ⟨_, Or.inl rfl, _, h1, h2⟩
        · exact Or.inr ⟨xs, Or.inr (Or.inl rfl), x, hx, hw⟩
      · exact Or.inr ⟨a, Or.inr (Or.inr ha), x, hx, hw⟩
  | case4 xs st m ih =>
    rw [iterGo]
    simp only [List.mem_cons, ih]
    constructor
    · rintro (rfl | ⟨a, (rfl | rfl | ha), x, hx, hw⟩)
      · exact ⟨_, Or.inl rfl, _, List.mem_cons_self, .here⟩
      · obtain ⟨⟨k, x'⟩, hk, rfl⟩ := List.mem_map.mp hx
        exact ⟨_, Or.inl rfl, _, List.mem_cons_self, .map hk hw⟩
      · exact ⟨_, Or.inl rfl, x, List.mem_cons_of_mem _ hx, hw⟩
      · exact ⟨a, Or.inr ha, x, hx, hw⟩
    · rintro ⟨a, (rfl | ha), x, hx, hw⟩
      · rcases List.mem_cons.mp hx with rfl | hx
        · cases hw with
          | here => exact Or.inl rfl
          | map h1 h2 => exact Or.inr ⟨_, Or.inl rfl, _, List.mem_map.mpr ⟨_, h1, rfl⟩, h2⟩
        · exact Or.inr ⟨xs, Or.inr (Or.inl rfl), x, hx, hw⟩
      · exact Or.inr ⟨a, Or.inr (Or.inr ha), x, hx, hw⟩
  | case5 xs st x0 h1 h2 ih =>
    rw [iterGo.eq_def]
    have hw0 : Within y x0 → y = x0 := by
      intro h
      cases h with
      | here => rfl
      | list a b => exact absurd rfl (h1 _)
      | map a b => exact absurd rfl (h2 _)
    have key : (y ∈ x0 :: iterGo (xs :: st)) ↔ ∃ l ∈ ((x0 :: xs) :: st), ∃ x ∈ l, Within y x := by
      simp only [List.mem_cons, ih]
      constructor
      · rintro (rfl | ⟨a, (rfl | ha), x, hx, hw⟩)
        · exact ⟨_, Or.inl rfl, _, List.mem_cons_self, .here⟩
        · exact ⟨_, Or.inl rfl, x, List.mem_cons_of_mem _ hx, hw⟩
        · exact ⟨a, Or.inr ha, x, hx, hw⟩
      · rintro ⟨a, (rfl | ha), x, hx, hw⟩
        · rcases List.mem_cons.mp hx with rfl | hx
          · exact Or.inl (hw0 hw)
          · exact Or.inr ⟨xs, Or.inl rfl, x, hx, hw⟩
        · exact Or.inr ⟨a, Or.inr ha, x, hx, hw⟩
    cases x0 <;> first | exact key | exact absurd rfl (h1 _) | exact absurd rfl (h2 _)

theorem mem_iter (d y : Ipld) : y ∈ iter d ↔ Within y d := by simp [iter, mem_iterGo]

theorem dagPbLink_toIpld (l : DagPbLink) :
    dagPbLink l.toIpld = if l.name = [0x2F] then none else some (some (some l.name, l.cid)) := by
  have h1 : AMap.get (BMap.insert (BMap.insert (BMap.insert [] kHash (Ipld.link l.cid)) kName (Ipld.str l.name)) kTsize
      (Ipld.int l.size)) kHash = some (.link l.cid) := rfl
  have h2 : AMap.get (BMap.insert (BMap.insert (BMap.insert [] kHash (Ipld.link l.cid)) kName (Ipld.str l.name)) kTsize
      (Ipld.int l.size)) kName = some (.str l.name) := rfl
  simp only [dagPbLink, DagPbLink.toIpld, h1, h2]

theorem dagPbLinkList_toIpld (ls : List DagPbLink) (r : List (Option Bytes × Cid))
    (h : dagPbLinkList (ls.map DagPbLink.toIpld) = some r) : r = ls.map (fun l => (some l.name, l.cid)) := by
  induction ls generalizing r with
  | nil => simpa [dagPbLinkList] using h
  | cons l ls ih =>
    simp only [List.map_cons, dagPbLinkList, dagPbLink_toIpld] at h
    split at h
    · cases h
    · rename_i x hx
      split at hx
      · cases hx
      · simp only [Option.some.injEq] at hx
        subst hx
        simp only [Option.map_eq_some_iff] at h
        obtain ⟨r', hr', rfl⟩ := h
        simp [ih r' hr']

theorem dagPbLinks_toIpld (n : DagPbNode) (r : List (Option Bytes × Cid))
    (h : dagPbLinks n.toIpld = some r) : r = n.links.map (fun l => (some l.name, l.cid)) := by
  have h1 : AMap.get (BMap.insert (BMap.insert [] kLinks (Ipld.list (n.links.map DagPbLink.toIpld))) kData
      (Ipld.bytes n.data)) kLinks = some (.list (n.links.map DagPbLink.toIpld)) := rfl
  simp only [dagPbLinks, DagPbNode.toIpld, h1] at h
  exact dagPbLinkList_toIpld _ _ h

/-! ### C38: the links of a block -/

/-- **C38**: the links listed for a block are exactly those of its document, names included. -/
theorem C38_links (e : Env) (size : Nat) (fetch : Cid → Option Bytes) (c : Cid) (ls : List (Option Bytes × Cid))
    (h : look e size fetch c = .links ls) :
    ∃ data, fetch c = some data ∧ ∀ name d, (name, d) ∈ ls ↔ DocLink e size c data name d := by
  unfold look at h
  split at h
  · cases h
  · rename_i data hf
    refine ⟨data, hf, ?_⟩
    split at h
    · cases h
    · rename_i doc hd
      split at h
      · cases h
      · rename_i ls' hl
        simp only [Look.links.injEq] at h
        subst h
        intro name d
        unfold ipldLinks at hl
        unfold DocLink
        split at hl
        · rename_i hc
          rw [if_pos hc]
          have hne : ¬ (c.codec = codecDagCbor) := by rw [hc]; decide
          unfold decodeIpld at hd
          rw [if_neg hne, if_pos hc] at hd
          split at hd
          · rename_i n hn
            simp only [Except.ok.injEq] at hd
            subst hd
            rw [dagPbLinks_toIpld n _ hl]
            simp only [List.mem_map, Prod.mk.injEq, hn, Option.some.injEq, exists_eq_left']
            constructor
            · rintro ⟨l, hl, rfl, rfl⟩; exact ⟨l, hl, rfl, rfl⟩
            · rintro ⟨l, hl, rfl, rfl⟩; exact ⟨l, hl, rfl, rfl⟩
          · cases hd
        · rename_i hc
          rw [if_neg hc]
          simp only [Option.some.injEq] at hl
          subst hl
          simp only [List.mem_filterMap, hd, Except.ok.injEq, exists_eq_left']
          constructor
          · rintro ⟨x, hx, hm⟩
            cases x with
            | link c' =>
              simp only [Option.some.injEq, Prod.mk.injEq] at hm
              obtain ⟨rfl, rfl⟩ := hm
              exact ⟨rfl, (mem_iter _ _).mp hx⟩
            | _ => simp at hm
          · rintro ⟨rfl, hw⟩
            exact ⟨.link d, (mem_iter _ _).mpr hw, rfl⟩

/-! ### Helpers: without `unique` -/

/-- Entries of one depth. -/
def works (n : Nat) (es : List Edge) : List Work := es.map (fun e => ⟨n, e⟩)

/-- The links of the destination. -/
def edgeKids (look : Cid → Look) (e : Edge) : List Edge :=
  match look e.destination with
  | .links ls => ls.map (fun l => ⟨e.destination, l.2, l.1⟩)
  | _ => []

theorem edgeLevel_succ (look : Cid → Look) (roots) (n : Nat) :
    edgeLevel look roots (n + 1) = (edgeLevel look roots n).flatMap (edgeKids look) := rfl

theorem mem_edgeKids {look : Cid → Look} {e e' : Edge} :
    e' ∈ edgeKids look e ↔ ∃ ls name d, look e.destination = .links ls ∧ (name, d) ∈ ls ∧ e' = ⟨e.destination, d, name⟩ := by
  unfold edgeKids
  split
  · rename_i ls hl
    simp only [List.mem_map]
    constructor
    · rintro ⟨⟨name, d⟩, hm, rfl⟩; exact ⟨ls, name, d, hl, hm, rfl⟩
    · rintro ⟨ls', name, d, hl', hm, rfl⟩
      rw [hl] at hl'
      simp only [Look.links.injEq] at hl'
      subst hl'
      exact ⟨(name, d), hm, rfl⟩
  · rename_i hn
    simp only [List.not_mem_nil, false_iff]
    rintro ⟨ls, name, d, hl, -⟩
    exact hn ls hl

/-- **C38**: the levels are the edges found at each distance. -/
theorem mem_edgeLevel (look : Cid → Look) (roots : List (Cid × List (Option Bytes × Cid))) (n : Nat) (e : Edge) :
    e ∈ edgeLevel look roots n ↔ FoundAt look roots n e := by
  induction n generalizing e with
  | zero =>
    simp only [edgeLevel, List.mem_flatMap, List.mem_map]
    constructor
    · rintro ⟨⟨c, ls⟩, hr, ⟨name, d⟩, hl, rfl⟩; exact .root hr hl
    · intro h
      cases h with
      | root hr hl => exact ⟨_, hr, _, hl, rfl⟩
  | succ n ih =>
    rw [edgeLevel_succ, List.mem_flatMap]
    constructor
    · rintro ⟨p, hp, hk⟩
      obtain ⟨ls, name, d, hl, hm, rfl⟩ := mem_edgeKids.mp hk
      exact .step ((ih p).mp hp) hl hm
    · intro h
      cases h with
      | step hp hl hm => exact ⟨_, (ih _).mpr hp, mem_edgeKids.mpr ⟨_, _, _, hl, hm, rfl⟩⟩

theorem enqueue_all (depth : Nat) (source : Cid) (ls : List (Option Bytes × Cid)) (vis : List Cid) :
    enqueue false depth source ls vis = (works depth (ls.map (fun l => ⟨source, l.2, l.1⟩)), vis) := by
  induction ls generalizing vis with
  | nil => rfl
  | cons l ls ih => obtain ⟨name, c⟩ := l; simp [enqueue, ih, works]

theorem enqueueRoots_all (look : Cid → Look) (roots : List (Cid × List (Option Bytes × Cid))) (vis : List Cid) :
    enqueueRoots false roots vis = (works 0 (edgeLevel look roots 0), vis) := by
  induction roots generalizing vis with
  | nil => rfl
  | cons r roots ih =>
    obtain ⟨c, ls⟩ := r
    simp only [enqueueRoots, enqueue_all, ih]
    simp [edgeLevel, works]

theorem works_append (n : Nat) (a b : List Edge) : works n (a ++ b) = works n a ++ works n b := by simp [works]

/-- Going through a level. -/
theorem loop_level {o : Opts} {look : Cid → Look} (hu : o.unique = false) (hd : o.download = true) {n : Nat}
    (ht : traverse o.debug o.maxDepth n = .go) (L : List Edge) (hp : ∀ e ∈ L, look e.destination ≠ .panic) :
    ∀ (M : List Edge) (fuel : Nat) (vis : List Cid),
    loop o look (fuel + L.length) (works n L ++ works (n + 1) M) vis =
      (loop o look fuel (works (n + 1) (M ++ L.flatMap (edgeKids look))) vis).map
        (fun r => (L.flatMap (shownEdge look) ++ r.1, r.2)) := by
  induction L with
  | nil =>
    intro M fuel vis
    simp only [List.length_nil, Nat.add_zero, works, List.map_nil, List.nil_append, List.flatMap_nil, List.append_nil]
    cases loop o look fuel (List.map (fun e => ⟨n + 1, e⟩) M) vis with
    | none => rfl
    | some r => rfl
  | cons e L ih =>
    intro M fuel vis
    have hpe := hp e (by simp)
    have ih' := ih (fun x hx => hp x (by simp [hx]))
    have hw : works n (e :: L) ++ works (n + 1) M = ⟨n, e⟩ :: (works n L ++ works (n + 1) M) := rfl
    rw [hw, show fuel + (e :: L).length = (fuel + L.length) + 1 from rfl, loop, ht]
    simp only
    cases hl : look e.destination with
    | missing =>
      simp only [hd, if_true]
      rw [ih']
      simp [edgeKids, shownEdge, hl]
    | broken x =>
      simp only
      rw [ih']
      simp only [List.flatMap_cons, edgeKids, shownEdge, hl, List.nil_append, Option.map_map]
      rfl
    | panic => exact absurd hl hpe
    | links ls =>
      simp only [reduceCtorEq, if_false, hu, enqueue_all]
      rw [List.append_assoc, ← works_append, ih']
      simp only [List.flatMap_cons, Option.map_map]
      have : edgeKids look e = ls.map (fun l => ⟨e.destination, l.2, l.1⟩) := by simp [edgeKids, hl]
      rw [this, List.append_assoc]
      simp only [shownEdge, hl]
      rfl

theorem loop_short {o : Opts} {look : Cid → Look} (hd : o.download = true) {n : Nat}
    (ht : traverse o.debug o.maxDepth n = .go) (L : List Edge) (hp : ∀ e ∈ L, look e.destination ≠ .panic) :
    ∀ (W : List Work) (fuel : Nat) (vis : List Cid), fuel ≤ L.length →
    loop o look fuel (works n L ++ W) vis = none := by
  induction L with
  | nil => intro W fuel vis h; have : fuel = 0 := by simpa using h
           subst this; rfl
  | cons e L ih =>
    intro W fuel vis h
    have hpe := hp e (by simp)
    have ih' := ih (fun x hx => hp x (by simp [hx]))
    cases fuel with
    | zero => rfl
    | succ fuel =>
      have hf : fuel ≤ L.length := by simpa using h
      have hw : works n (e :: L) ++ W = ⟨n, e⟩ :: (works n L ++ W) := rfl
      rw [hw, loop, ht]
      simp only
      cases hl : look e.destination with
      | missing => simp only [hd, if_true]; exact ih' _ _ _ hf
      | broken x => simp only; rw [ih' _ _ _ hf]; rfl
      | panic => exact absurd hl hpe
      | links ls => simp only [reduceCtorEq, if_false]; rw [List.append_assoc, ih' _ _ _ hf]; rfl

theorem loop_skip {o : Opts} {look : Cid → Look} (W : List Work)
    (h : ∀ w ∈ W, traverse o.debug o.maxDepth w.depth = .skip) : ∀ (fuel : Nat) (vis : List Cid),
    loop o look fuel W vis = if W.length < fuel then some ([], .done) else none := by
  induction W with
  | nil => intro fuel vis; cases fuel with
    | zero => rfl
    | succ f => simp [loop]
  | cons w W ih =>
    intro fuel vis
    cases fuel with
    | zero => rfl
    | succ f =>
      rw [loop, h w (by simp)]
      simp only
      rw [ih (fun x hx => h x (by simp [hx]))]
      simp

theorem flatMap_range_succ {α : Type} (f : Nat → List α) (k : Nat) :
    (List.range (k + 1)).flatMap f = f 0 ++ (List.range k).flatMap (fun i => f (i + 1)) := by
  rw [List.range_succ_eq_map, List.flatMap_cons, List.flatMap_map]

/-- What a level shows. -/
def levelItems (look : Cid → Look) (roots : List (Cid × List (Option Bytes × Cid))) (n : Nat) : List Item :=
  (edgeLevel look roots n).flatMap (shownEdge look)

theorem traverse_lt {debug : Bool} {d n : Nat} (h : n < d) (hd : d + 1 < 2 ^ 64) : traverse debug (some d) n = .go := by
  unfold traverse
  simp only
  rw [if_neg (by omega), if_neg (by omega), if_neg (by omega)]

theorem traverse_ge {debug : Bool} {d n : Nat} (h : d ≤ n) : traverse debug (some d) n = .skip := by
  simp [traverse, h]

theorem calm_level {look : Cid → Look} {roots} (h : RefsCalm look roots) (n : Nat) :
    ∀ e ∈ edgeLevel look roots n, look e.destination ≠ .panic :=
  fun e he => h n e ((mem_edgeLevel look roots n e).mp he)

theorem loop_limited {o : Opts} {look : Cid → Look} {roots} {d : Nat} (hu : o.unique = false) (hd : o.download = true)
    (hm : o.maxDepth = some d) (hlt : d + 1 < 2 ^ 64) (hc : RefsCalm look roots) (k : Nat) :
    ∀ n fuel vis, n + k = d →
    (∀ r, loop o look fuel (works n (edgeLevel look roots n)) vis = some r →
      r = ((List.range k).flatMap (fun i => levelItems look roots (n + i)), .done)) := by
  induction k with
  | zero =>
    intro n fuel vis hn r h
    rw [loop_skip] at h
    · split at h
      · simp only [Option.some.injEq] at h; simp [← h]
      · cases h
    · intro w hw
      obtain ⟨e, _, rfl⟩ := List.mem_map.mp hw
      rw [hm]; exact traverse_ge (show d ≤ n by omega)
  | succ k ih =>
    intro n fuel vis hn r h
    have ht : traverse o.debug o.maxDepth n = .go := by rw [hm]; exact traverse_lt (by omega) hlt
    by_cases hle : fuel ≤ (edgeLevel look roots n).length
    · have := loop_short hd ht _ (calm_level hc n) [] fuel vis hle
      rw [List.append_nil] at this
      rw [this] at h; cases h
    · obtain ⟨f, rfl⟩ : ∃ f, fuel = f + (edgeLevel look roots n).length := ⟨fuel - (edgeLevel look roots n).length, by omega⟩
      have := loop_level hu hd ht _ (calm_level hc n) [] f vis
      simp only [works, List.map_nil, List.append_nil, List.nil_append] at this
      rw [← edgeLevel_succ] at this
      simp only [works] at h
      rw [this] at h
      cases hl : loop o look f ((edgeLevel look roots (n + 1)).map (fun e => ⟨n + 1, e⟩)) vis with
      | none => rw [hl] at h; cases h
      | some r' =>
        rw [hl] at h
        simp only [Option.map_some, Option.some.injEq] at h
        have hr := ih (n + 1) f vis (by omega) r' hl
        rw [← h, hr, flatMap_range_succ]
        simp only [Nat.add_zero, levelItems, Prod.mk.injEq, and_true, List.append_cancel_left_eq]
        congr 1
        funext i
        rw [show n + 1 + i = n + (i + 1) by omega]

theorem loop_unlimited {o : Opts} {look : Cid → Look} {roots} (hu : o.unique = false) (hd : o.download = true)
    (hm : o.maxDepth = none) (hc : RefsCalm look roots) :
    ∀ (N : Nat) n fuel vis, fuel ≤ N →
    (∀ r, loop o look fuel (works n (edgeLevel look roots n)) vis = some r →
      ∃ k, edgeLevel look roots (n + k) = [] ∧
        r = ((List.range k).flatMap (fun i => levelItems look roots (n + i)), .done)) := by
  intro N
  induction N with
  | zero =>
    intro n fuel vis hN r h
    have : fuel = 0 := by omega
    subst this; cases h
  | succ N ih =>
    intro n fuel vis hN r h
    have ht : traverse o.debug o.maxDepth n = .go := by rw [hm]; rfl
    by_cases he : edgeLevel look roots n = []
    · refine ⟨0, he, ?_⟩
      rw [he] at h
      cases fuel with
      | zero => cases h
      | succ f => simp only [works, List.map_nil, loop, Option.some.injEq] at h; simp [← h]
    · by_cases hle : fuel ≤ (edgeLevel look roots n).length
      · have := loop_short hd ht _ (calm_level hc n) [] fuel vis hle
        rw [List.append_nil] at this
        rw [this] at h; cases h
      · obtain ⟨f, rfl⟩ : ∃ f, fuel = f + (edgeLevel look roots n).length := ⟨fuel - (edgeLevel look roots n).length, by omega⟩
        have hpos : 0 < (edgeLevel look roots n).length := List.length_pos_iff.mpr he
        have := loop_level hu hd ht _ (calm_level hc n) [] f vis
        simp only [works, List.map_nil, List.append_nil, List.nil_append] at this
        rw [← edgeLevel_succ] at this
        simp only [works] at h
        rw [this] at h
        cases hl : loop o look f ((edgeLevel look roots (n + 1)).map (fun e => ⟨n + 1, e⟩)) vis with
        | none => rw [hl] at h; cases h
        | some r' =>
          rw [hl] at h
          simp only [Option.map_some, Option.some.injEq] at h
          obtain ⟨k, hk, hr⟩ := ih (n + 1) f vis (by omega) r' hl
          refine ⟨k + 1, by rw [← Nat.add_assoc, Nat.add_right_comm]; exact hk, ?_⟩
          rw [← h, hr, flatMap_range_succ]
          simp only [Nat.add_zero, levelItems, Prod.mk.injEq, and_true, List.append_cancel_left_eq]
          congr 1
          funext i
          rw [show n + 1 + i = n + (i + 1) by omega]

theorem edgesOf_levelItems {look : Cid → Look} {roots} {n : Nat} {e : Edge} :
    e ∈ edgesOf (levelItems look roots n) ↔ FoundAt look roots n e ∧ Readable look e.destination := by
  simp only [edgesOf, levelItems, List.mem_filterMap, List.mem_flatMap, mem_edgeLevel]
  constructor
  · rintro ⟨i, ⟨e', he', hi⟩, hie⟩
    unfold shownEdge at hi
    split at hi
    · rename_i ls hl
      simp only [List.mem_singleton] at hi
      subst hi
      simp only [Option.some.injEq] at hie
      subst hie
      exact ⟨he', ls, hl⟩
    · simp only [List.mem_singleton] at hi
      subst hi
      simp at hie
    · simp at hi
  · rintro ⟨h, ls, hl⟩
    exact ⟨.edge e, ⟨e, h, by simp [shownEdge, hl]⟩, rfl⟩

theorem mem_edgesOf_flatMap {look : Cid → Look} {roots} {k : Nat} {e : Edge} :
    e ∈ edgesOf ((List.range k).flatMap (fun i => levelItems look roots i)) ↔
      ∃ n, n < k ∧ FoundAt look roots n e ∧ Readable look e.destination := by
  have : edgesOf ((List.range k).flatMap (fun i => levelItems look roots i)) =
      (List.range k).flatMap (fun i => edgesOf (levelItems look roots i)) := by
    simp [edgesOf, List.filterMap_flatMap]
  rw [this, List.mem_flatMap]
  simp only [List.mem_range, edgesOf_levelItems]

theorem edgeLevel_nil {look : Cid → Look} {roots} {N : Nat} (h : edgeLevel look roots N = []) (n : Nat) (hn : N ≤ n) :
    edgeLevel look roots n = [] := by
  obtain ⟨k, rfl⟩ : ∃ k, n = N + k := ⟨n - N, by omega⟩
  clear hn
  induction k with
  | zero => exact h
  | succ k ih => rw [← Nat.add_assoc, edgeLevel_succ, ih]; rfl

/-! ### C38, C39 without `unique` -/

/-- **C38**: without limit the stream is, level by level and with all repetitions, every link found, as long
as it leads to a block that can be read, with an error in the place of every link to one that cannot be
decoded; and it ends ordinarily. -/
theorem C38_all (o : Opts) (look : Cid → Look) (roots : List (Cid × List (Option Bytes × Cid))) (fuel : Nat)
    (hu : o.unique = false) (hd : o.download = true) (hm : o.maxDepth = none) (hc : RefsCalm look roots)
    (items : List Item) (ending : Ending) (h : refs o look fuel roots = some (items, ending)) :
    ending = .done ∧ ∃ N, edgeLevel look roots N = [] ∧
      items = (List.range N).flatMap (fun n => (edgeLevel look roots n).flatMap (shownEdge look)) := by
  simp only [refs, hm, reduceCtorEq, if_false, hu] at h
  rw [enqueueRoots_all look] at h
  obtain ⟨k, hk, hr⟩ := loop_unlimited hu hd hm hc fuel 0 fuel _ (Nat.le_refl _) _ h
  simp only [Nat.zero_add, Prod.mk.injEq] at hk hr
  exact ⟨hr.2, k, hk, hr.1⟩

/-- **C38**: in terms of reachability. -/
theorem C38_edges (o : Opts) (look : Cid → Look) (roots : List (Cid × List (Option Bytes × Cid))) (fuel : Nat)
    (hu : o.unique = false) (hd : o.download = true) (hm : o.maxDepth = none) (hc : RefsCalm look roots)
    (items : List Item) (ending : Ending) (h : refs o look fuel roots = some (items, ending)) (e : Edge) :
    e ∈ edgesOf items ↔ (∃ n, FoundAt look roots n e) ∧ Readable look e.destination := by
  obtain ⟨-, N, hN, rfl⟩ := C38_all o look roots fuel hu hd hm hc items ending h
  have := mem_edgesOf_flatMap (look := look) (roots := roots) (k := N) (e := e)
  simp only [levelItems] at this
  rw [this]
  constructor
  · rintro ⟨n, -, h1, h2⟩; exact ⟨⟨n, h1⟩, h2⟩
  · rintro ⟨⟨n, h1⟩, h2⟩
    refine ⟨n, ?_, h1, h2⟩
    rcases Nat.lt_or_ge n N with h | h
    · exact h
    · have := edgeLevel_nil hN n h
      rw [← mem_edgeLevel, this] at h1; cases h1

/-- **C39**: with a limit the stream is the levels below it. -/
theorem C39_levels (o : Opts) (look : Cid → Look) (roots : List (Cid × List (Option Bytes × Cid))) (fuel d : Nat)
    (hu : o.unique = false) (hd : o.download = true) (hm : o.maxDepth = some d) (hlt : d + 1 < 2 ^ 64)
    (hc : RefsCalm look roots) (items : List Item) (ending : Ending)
    (h : refs o look fuel roots = some (items, ending)) :
    ending = .done ∧ items = (List.range d).flatMap (fun n => (edgeLevel look roots n).flatMap (shownEdge look)) := by
  simp only [refs, hm, Option.some.injEq, hu] at h
  split at h
  · rename_i h0
    subst h0
    simp only [Option.some.injEq, Prod.mk.injEq] at h
    obtain ⟨rfl, rfl⟩ := h
    exact ⟨rfl, rfl⟩
  · rw [enqueueRoots_all look] at h
    have hr := loop_limited hu hd hm hlt hc d 0 fuel _ (by omega) _ h
    simp only [Nat.zero_add, Prod.mk.injEq] at hr
    exact ⟨hr.2, hr.1⟩

/-- **C39**: it reports exactly the links found in nodes at a distance less than the limit. -/
theorem C39_edges (o : Opts) (look : Cid → Look) (roots : List (Cid × List (Option Bytes × Cid))) (fuel d : Nat)
    (hu : o.unique = false) (hd : o.download = true) (hm : o.maxDepth = some d) (hlt : d + 1 < 2 ^ 64)
    (hc : RefsCalm look roots) (items : List Item) (ending : Ending)
    (h : refs o look fuel roots = some (items, ending)) (e : Edge) :
    e ∈ edgesOf items ↔ ∃ n, n < d ∧ FoundAt look roots n e ∧ Readable look e.destination := by
  obtain ⟨-, rfl⟩ := C39_levels o look roots fuel d hu hd hm hlt hc items ending h
  exact mem_edgesOf_flatMap

/-! ### Helpers: with `unique` -/

theorem enqueue_unique (depth : Nat) (source : Cid) (ls : List (Option Bytes × Cid)) : ∀ (vis : List Cid),
    (∀ w ∈ (enqueue true depth source ls vis).1, w.depth = depth ∧ w.edge.destination ∉ vis ∧
      ∃ name, (name, w.edge.destination) ∈ ls ∧ w.edge = ⟨source, w.edge.destination, name⟩) ∧
    (((enqueue true depth source ls vis).1.map (fun w => w.edge.destination)).Nodup) ∧
    (∀ c, c ∈ (enqueue true depth source ls vis).2 ↔
      c ∈ vis ∨ ∃ w ∈ (enqueue true depth source ls vis).1, w.edge.destination = c) ∧
    (∀ l ∈ ls, l.2 ∈ (enqueue true depth source ls vis).2) := by
  induction ls with
  | nil => intro vis; simp [enqueue]
  | cons l ls ih =>
    obtain ⟨name, c⟩ := l
    intro vis
    by_cases hc : c ∈ vis
    · have hc' : vis.contains c = true := by simpa using hc
      simp only [enqueue, hc', Bool.and_self, if_true]
      obtain ⟨h1, h2, h3, h4⟩ := ih vis
      refine ⟨?_, h2, h3, ?_⟩
      · intro w hw
        obtain ⟨a, b, nm, hm, he⟩ := h1 w hw
        exact ⟨a, b, nm, by simp [hm], he⟩
      · intro l hl
        rcases List.mem_cons.mp hl with rfl | hl
        · exact (h3 _).mpr (Or.inl hc)
        · exact h4 l hl
    · have hc' : vis.contains c = false := by simpa using hc
      simp only [enqueue, hc', Bool.and_false, Bool.false_eq_true, if_false, if_true]
      obtain ⟨h1, h2, h3, h4⟩ := ih (c :: vis)
      refine ⟨?_, ?_, ?_, ?_⟩
      · intro w hw
        rcases List.mem_cons.mp hw with rfl | hw
        · exact ⟨rfl, hc, name, by simp, rfl⟩
        · obtain ⟨a, b, nm, hm, he⟩ := h1 w hw
          exact ⟨a, fun h => b (by simp [h]), nm, by simp [hm], he⟩
      · simp only [List.map_cons, List.nodup_cons]
        refine ⟨?_, h2⟩
        intro hm
        obtain ⟨w, hw, hwc⟩ := List.mem_map.mp hm
        exact (h1 w hw).2.1 (by simp [hwc])
      · intro x
        rw [h3]
        simp only [List.mem_cons, exists_eq_or_imp]
        constructor
        · rintro ((rfl | h) | h)
          · exact Or.inr (Or.inl rfl)
          · exact Or.inl h
          · exact Or.inr (Or.inr h)
        · rintro (h | rfl | h)
          · exact Or.inl (Or.inr h)
          · exact Or.inl (Or.inl rfl)
          · exact Or.inr h
      · intro l hl
        rcases List.mem_cons.mp hl with rfl | hl
        · exact (h3 _).mpr (Or.inl (by simp))
        · exact h4 l hl

/-- The state of the loop with `unique`: `T` is everything queued so far, of which `W` is left. -/
structure RefsInv (o : Opts) (look : Cid → Look) (roots : List (Cid × List (Option Bytes × Cid)))
    (D W : List Work) (vis : List Cid) : Prop where
  vis : ∀ c, c ∈ vis ↔ ∃ w ∈ D ++ W, w.edge.destination = c
  nodup : ((D ++ W).map (fun w => w.edge.destination)).Nodup
  found : ∀ w ∈ D ++ W, FoundAt look roots w.depth w.edge
  roots : ∀ e, FoundAt look roots 0 e → ∃ w ∈ D ++ W, w.depth = 0 ∧ w.edge.destination = e.destination
  closed : ∀ w ∈ D, traverse o.debug o.maxDepth w.depth = .go → ∀ e ∈ edgeKids look w.edge,
    ∃ w' ∈ D ++ W, w'.depth ≤ w.depth + 1 ∧ w'.edge.destination = e.destination
  order : ∃ n A B, W = A ++ B ∧ (∀ w ∈ D, w.depth ≤ n) ∧ (∀ w ∈ A, w.depth = n) ∧ (∀ w ∈ B, w.depth = n + 1)

/-- What the loop shows for an entry. -/
def shownWork (o : Opts) (look : Cid → Look) (w : Work) : List Item :=
  if traverse o.debug o.maxDepth w.depth = .skip then [] else shownEdge look w.edge

/-- The order when an entry is taken and others are added. -/
theorem refs_order {D work q : List Work} {w : Work}
    (h : ∃ n A B, w :: work = A ++ B ∧ (∀ x ∈ D, x.depth ≤ n) ∧ (∀ x ∈ A, x.depth = n) ∧ (∀ x ∈ B, x.depth = n + 1))
    (hq : ∀ x ∈ q, x.depth = w.depth + 1) :
    ((∀ x ∈ D ++ (w :: work), x.depth ≤ w.depth + 1) ∧
    ∃ n A B, work ++ q = A ++ B ∧ (∀ x ∈ D ++ [w], x.depth ≤ n) ∧ (∀ x ∈ A, x.depth = n) ∧ (∀ x ∈ B, x.depth = n + 1)) := by
  obtain ⟨n, A, B, hAB, hD, hA, hB⟩ := h
  cases A with
  | nil =>
    simp only [List.nil_append] at hAB
    subst hAB
    have hw := hB w (by simp)
    constructor
    · intro x hx
      rcases List.mem_append.mp hx with hx | hx
      · have := hD x hx; omega
      · have := hB x hx; omega
    · refine ⟨n + 1, work, q, rfl, ?_, fun x hx => hB x (by simp [hx]), fun x hx => by rw [hq x hx, hw]⟩
      intro x hx
      rcases List.mem_append.mp hx with hx | hx
      · have := hD x hx; omega
      · have : x = w := by simpa using hx
        subst this; omega
  | cons a A =>
    simp only [List.cons_append, List.cons.injEq] at hAB
    obtain ⟨rfl, rfl⟩ := hAB
    have hw := hA w (by simp)
    constructor
    · intro x hx
      rcases List.mem_append.mp hx with hx | hx
      · have := hD x hx; omega
      · simp only [List.mem_cons, List.mem_append] at hx
        rcases hx with rfl | hx | hx
        · omega
        · have := hA x (by simp [hx]); omega
        · have := hB x hx; omega
    · refine ⟨n, A, B ++ q, by simp, ?_, fun x hx => hA x (by simp [hx]), ?_⟩
      · intro x hx
        rcases List.mem_append.mp hx with hx | hx
        · exact hD x hx
        · have : x = w := by simpa using hx
          subst this; omega
      · intro x hx
        rcases List.mem_append.mp hx with hx | hx
        · exact hB x hx
        · rw [hq x hx, hw]

/-- Taking an entry that adds nothing. -/
theorem RefsInv.pop {o : Opts} {look : Cid → Look} {roots} {D work : List Work} {w : Work} {vis : List Cid}
    (h : RefsInv o look roots D (w :: work) vis)
    (hk : traverse o.debug o.maxDepth w.depth = .go → edgeKids look w.edge = []) :
    RefsInv o look roots (D ++ [w]) work vis := by
  have hT : D ++ [w] ++ work = D ++ w :: work := by simp
  obtain ⟨-, hord⟩ := refs_order (q := []) h.order (by simp)
  refine ⟨by rw [hT]; exact h.vis, by rw [hT]; exact h.nodup, by rw [hT]; exact h.found, by rw [hT]; exact h.roots,
    ?_, by simpa using hord⟩
  intro x hx hgo e he
  rw [hT]
  rcases List.mem_append.mp hx with hx | hx
  · exact h.closed x hx hgo e he
  · have : x = w := by simpa using hx
    subst this
    rw [hk hgo] at he; cases he

/-- Taking an entry and adding the links of its destination. -/
theorem RefsInv.push {o : Opts} {look : Cid → Look} {roots} {D work : List Work} {w : Work} {vis : List Cid}
    {ls : List (Option Bytes × Cid)} (h : RefsInv o look roots D (w :: work) vis)
    (hl : look w.edge.destination = .links ls) :
    RefsInv o look roots (D ++ [w]) (work ++ (enqueue true (w.depth + 1) w.edge.destination ls vis).1)
      (enqueue true (w.depth + 1) w.edge.destination ls vis).2 := by
  obtain ⟨h1, h2, h3, h4⟩ := enqueue_unique (w.depth + 1) w.edge.destination ls vis
  generalize enqueue true (w.depth + 1) w.edge.destination ls vis = q at h1 h2 h3 h4
  obtain ⟨q, vis'⟩ := q
  simp only at h1 h2 h3 h4 ⊢
  have hT : D ++ [w] ++ (work ++ q) = (D ++ w :: work) ++ q := by simp
  obtain ⟨hle, hord⟩ := refs_order (q := q) h.order (fun x hx => (h1 x hx).1)
  refine ⟨?_, ?_, ?_, ?_, ?_, hord⟩
  · intro c
    rw [hT, h3, h.vis]
    simp only [List.mem_append (s := D ++ w :: work), or_and_right, exists_or]
  · rw [hT, List.map_append, List.nodup_append]
    refine ⟨h.nodup, h2, ?_⟩
    rintro a ha b hb rfl
    obtain ⟨x, hx, rfl⟩ := List.mem_map.mp ha
    obtain ⟨y, hy, hxy⟩ := List.mem_map.mp hb
    exact (h1 y hy).2.1 ((h.vis _).mpr ⟨x, hx, hxy.symm⟩)
  · intro x hx
    rw [hT] at hx
    rcases List.mem_append.mp hx with hx | hx
    · exact h.found x hx
    · obtain ⟨hd, -, nm, hm, he⟩ := h1 x hx
      rw [hd, he]
      exact .step (h.found w (by simp)) hl hm
  · intro e he
    obtain ⟨x, hx, hh⟩ := h.roots e he
    exact ⟨x, by rw [hT]; exact List.mem_append.mpr (Or.inl hx), hh⟩
  · intro x hx hgo e he
    rw [hT]
    rcases List.mem_append.mp hx with hx | hx
    · obtain ⟨y, hy, hh⟩ := h.closed x hx hgo e he
      exact ⟨y, List.mem_append.mpr (Or.inl hy), hh⟩
    · have : x = w := by simpa using hx
      subst this
      obtain ⟨ls', nm, d, hl', hm, rfl⟩ := mem_edgeKids.mp he
      rw [hl] at hl'
      simp only [Look.links.injEq] at hl'
      subst hl'
      have hin := h4 _ hm
      rcases (h3 _).mp hin with hv | ⟨y, hy, hyd⟩
      · obtain ⟨y, hy, hyd⟩ := (h.vis _).mp hv
        exact ⟨y, List.mem_append.mpr (Or.inl hy), hle y hy, hyd⟩
      · exact ⟨y, List.mem_append.mpr (Or.inr hy), by rw [(h1 y hy).1]; exact Nat.le_refl _, hyd⟩

/-- No entry is special: overflow and the dead branch do not come up. -/
def PlainDepth (o : Opts) : Prop := ∀ n, traverse o.debug o.maxDepth n = .go ∨ traverse o.debug o.maxDepth n = .skip

theorem loop_unique {o : Opts} {look : Cid → Look} {roots} (hu : o.unique = true) (hd : o.download = true)
    (hpl : PlainDepth o) (hc : RefsCalm look roots) : ∀ (fuel : Nat) (D W : List Work) (vis : List Cid)
    (items : List Item) (ending : Ending), RefsInv o look roots D W vis →
    loop o look fuel W vis = some (items, ending) →
    ending = .done ∧ ∃ F, items = F.flatMap (shownWork o look) ∧ ∃ vis', RefsInv o look roots (D ++ F) [] vis' := by
  intro fuel
  induction fuel with
  | zero => intro D W vis items ending hi h; cases h
  | succ fuel ih =>
    intro D W vis items ending hi h
    cases W with
    | nil =>
      simp only [loop, Option.some.injEq, Prod.mk.injEq] at h
      obtain ⟨rfl, rfl⟩ := h
      exact ⟨rfl, [], rfl, vis, by simpa using hi⟩
    | cons w work =>
      rw [loop] at h
      have cont : ∀ (q : List Work) (vis' : List Cid) (pre items' : List Item),
          RefsInv o look roots (D ++ [w]) (work ++ q) vis' → shownWork o look w = pre →
          loop o look fuel (work ++ q) vis' = some (items', ending) → items = pre ++ items' →
          ending = .done ∧ ∃ F, items = F.flatMap (shownWork o look) ∧ ∃ vis'', RefsInv o look roots (D ++ F) [] vis'' := by
        intro q vis' pre items' hi' hpre hl hit
        obtain ⟨h1, F, hF, vis'', hinv⟩ := ih _ _ _ _ _ hi' hl
        refine ⟨h1, w :: F, ?_, vis'', by simpa using hinv⟩
        rw [hit, List.flatMap_cons, hpre, hF]
      rcases hpl w.depth with ht | ht
      · rw [ht] at h
        simp only at h
        have hsw : shownWork o look w = shownEdge look w.edge := by simp [shownWork, ht]
        cases hl : look w.edge.destination with
        | missing =>
          rw [hl] at h
          simp only [hd, if_true] at h
          refine cont [] vis [] items ?_ (by rw [hsw]; simp [shownEdge, hl]) (by simpa using h) rfl
          simpa using hi.pop (fun _ => by simp [edgeKids, hl])
        | broken x =>
          rw [hl] at h
          simp only [Option.map_eq_some_iff, Prod.mk.injEq, Prod.exists] at h
          obtain ⟨i', e', hlo, rfl, rfl⟩ := h
          refine cont [] vis [.blockErr x] i' ?_ (by rw [hsw]; simp [shownEdge, hl]) (by simpa using hlo) rfl
          simpa using hi.pop (fun _ => by simp [edgeKids, hl])
        | panic => exact absurd hl (hc _ _ (hi.found w (by simp)))
        | links ls =>
          rw [hl] at h
          simp only [reduceCtorEq, if_false, Option.map_eq_some_iff, Prod.mk.injEq, Prod.exists, hu] at h
          obtain ⟨i', e', hlo, rfl, rfl⟩ := h
          exact cont _ _ [.edge w.edge] i' (hi.push hl) (by rw [hsw]; simp [shownEdge, hl]) hlo rfl
      · rw [ht] at h
        simp only at h
        refine cont [] vis [] items ?_ (by simp [shownWork, ht]) (by simpa using h) rfl
        simpa using hi.pop (fun h => by rw [ht] at h; cases h)

theorem enqueueRoots_unique (look : Cid → Look) (roots all : List (Cid × List (Option Bytes × Cid)))
    (hsub : ∀ r ∈ roots, r ∈ all) : ∀ (vis : List Cid),
    (∀ w ∈ (enqueueRoots true roots vis).1, w.depth = 0 ∧ w.edge.destination ∉ vis ∧ FoundAt look all 0 w.edge) ∧
    (((enqueueRoots true roots vis).1.map (fun w => w.edge.destination)).Nodup) ∧
    (∀ c, c ∈ (enqueueRoots true roots vis).2 ↔
      c ∈ vis ∨ ∃ w ∈ (enqueueRoots true roots vis).1, w.edge.destination = c) ∧
    (∀ e, FoundAt look roots 0 e → e.destination ∈ (enqueueRoots true roots vis).2) := by
  induction roots with
  | nil => intro vis; refine ⟨by simp [enqueueRoots], by simp [enqueueRoots], by simp [enqueueRoots], ?_⟩
           intro e he; cases he with
           | root h _ => cases h
  | cons r roots ih =>
    obtain ⟨c, ls⟩ := r
    intro vis
    obtain ⟨a1, a2, a3, a4⟩ := enqueue_unique 0 c ls vis
    obtain ⟨b1, b2, b3, b4⟩ := ih (fun r hr => hsub r (by simp [hr])) (enqueue true 0 c ls vis).2
    simp only [enqueueRoots]
    refine ⟨?_, ?_, ?_, ?_⟩
    · intro w hw
      rcases List.mem_append.mp hw with hw | hw
      · obtain ⟨h1, h2, nm, h3, h4⟩ := a1 w hw
        refine ⟨h1, h2, ?_⟩
        rw [h4]
        exact .root (hsub _ (by simp)) h3
      · obtain ⟨h1, h2, h3⟩ := b1 w hw
        exact ⟨h1, fun h => h2 ((a3 _).mpr (Or.inl h)), h3⟩
    · rw [List.map_append, List.nodup_append]
      refine ⟨a2, b2, ?_⟩
      rintro x hx y hy rfl
      obtain ⟨w, hw, rfl⟩ := List.mem_map.mp hx
      obtain ⟨w', hw', he⟩ := List.mem_map.mp hy
      exact (b1 w' hw').2.1 ((a3 _).mpr (Or.inr ⟨w, hw, he.symm⟩))
    · intro x
      rw [b3, a3]
      simp only [List.mem_append, or_and_right, exists_or, or_assoc]
    · intro e he
      cases he with
      | root hr hl =>
        rcases List.mem_cons.mp hr with hr | hr
        · simp only [Prod.mk.injEq] at hr
          obtain ⟨rfl, rfl⟩ := hr
          exact (b3 _).mpr (Or.inl (a4 _ hl))
        · exact b4 _ (.root hr hl)

theorem refsInv_init (o : Opts) (look : Cid → Look) (roots : List (Cid × List (Option Bytes × Cid))) :
    RefsInv o look roots [] (enqueueRoots true roots []).1 (enqueueRoots true roots []).2 := by
  obtain ⟨h1, h2, h3, h4⟩ := enqueueRoots_unique look roots roots (fun _ h => h) []
  refine ⟨?_, by simpa using h2, ?_, ?_, by simp, ⟨0, _, [], by simp, by simp, fun w hw => (h1 w hw).1, by simp⟩⟩
  · intro c; rw [h3]; simp
  · intro w hw
    have := h1 w (by simpa using hw)
    rw [this.1]; exact this.2.2
  · intro e he
    obtain ⟨w, hw, hwd⟩ : ∃ w ∈ (enqueueRoots true roots []).1, w.edge.destination = e.destination := by
      simpa using (h3 _).mp (h4 e he)
    exact ⟨w, by simpa using hw, (h1 w hw).1, hwd⟩

/-- Everything within the limit is among the entries at the end. -/
theorem RefsInv.complete {o : Opts} {look : Cid → Look} {roots} {T : List Work} {vis : List Cid}
    (h : RefsInv o look roots T [] vis) {n : Nat} {e : Edge} (he : FoundAt look roots n e)
    (hgo : ∀ m, m < n → traverse o.debug o.maxDepth m = .go) :
    ∃ w ∈ T, w.depth ≤ n ∧ w.edge.destination = e.destination := by
  induction he with
  | root hr hl =>
    obtain ⟨w, hw, h1, h2⟩ := h.roots _ (.root hr hl)
    exact ⟨w, by simpa using hw, by omega, h2⟩
  | @step n p ls name d hp hl hm ih =>
    obtain ⟨w, hw, h1, h2⟩ := ih (fun m hm => hgo m (by omega))
    obtain ⟨w', hw', h3, h4⟩ := h.closed w hw (hgo _ (by omega)) ⟨p.destination, d, name⟩
      (mem_edgeKids.mpr ⟨ls, name, d, by rw [h2]; exact hl, hm, by rw [h2]⟩)
    exact ⟨w', by simpa using hw', by omega, h4⟩

theorem mem_edgesOf_shown {o : Opts} {look : Cid → Look} {F : List Work} {e : Edge} :
    e ∈ edgesOf (F.flatMap (shownWork o look)) ↔
      ∃ w ∈ F, w.edge = e ∧ traverse o.debug o.maxDepth w.depth ≠ .skip ∧ Readable look e.destination := by
  simp only [edgesOf, List.mem_filterMap, List.mem_flatMap]
  constructor
  · rintro ⟨i, ⟨w, hw, hi⟩, hie⟩
    unfold shownWork at hi
    split at hi
    · cases hi
    · rename_i hs
      unfold shownEdge at hi
      split at hi
      · rename_i ls hl
        simp only [List.mem_singleton] at hi
        subst hi
        simp only [Option.some.injEq] at hie
        subst hie
        exact ⟨w, hw, rfl, hs, ls, hl⟩
      · simp only [List.mem_singleton] at hi
        subst hi; simp at hie
      · cases hi
  · rintro ⟨w, hw, rfl, hs, ls, hl⟩
    exact ⟨.edge w.edge, ⟨w, hw, by simp [shownWork, hs, shownEdge, hl]⟩, rfl⟩

theorem edgesOf_append (a b : List Item) : edgesOf (a ++ b) = edgesOf a ++ edgesOf b := by simp [edgesOf]

theorem edgesOf_shown_nodup {o : Opts} {look : Cid → Look} {F : List Work}
    (h : (F.map (fun w => w.edge.destination)).Nodup) :
    ((edgesOf (F.flatMap (shownWork o look))).map Edge.destination).Nodup := by
  induction F with
  | nil => simp [edgesOf]
  | cons w F ih =>
    simp only [List.map_cons, List.nodup_cons] at h
    rw [List.flatMap_cons, edgesOf_append, List.map_append, List.nodup_append]
    have hw : ∀ e ∈ edgesOf (shownWork o look w), e = w.edge := by
      intro e he
      have := (mem_edgesOf_shown (o := o) (look := look) (F := [w]) (e := e)).mp (by simpa using he)
      obtain ⟨w', hw', rfl, -⟩ := this
      simp only [List.mem_singleton] at hw'
      rw [hw']
    refine ⟨?_, ih h.2, ?_⟩
    · unfold shownWork
      split
      · simp [edgesOf]
      · unfold shownEdge; split <;> simp [edgesOf]
    · rintro x hx y hy rfl
      obtain ⟨e, he, rfl⟩ := List.mem_map.mp hx
      obtain ⟨e', he', hee⟩ := List.mem_map.mp hy
      obtain ⟨w', hw', rfl, -⟩ := mem_edgesOf_shown.mp he'
      rw [hw e he] at hee
      exact h.1 (List.mem_map.mpr ⟨w', hw', hee⟩)

theorem plainDepth_of {o : Opts} (h : ∀ d, o.maxDepth = some d → d + 1 < 2 ^ 64) : PlainDepth o := by
  intro n
  cases hm : o.maxDepth with
  | none => left; rfl
  | some d =>
    rcases Nat.lt_or_ge n d with hn | hn
    · left; exact traverse_lt hn (h d hm)
    · right; exact traverse_ge hn

/-- `n` is within the limit. -/
def InDepth (limit : Option Nat) (n : Nat) : Prop := ∀ d, limit = some d → n < d

theorem traverse_go_iff {o : Opts} (h : ∀ d, o.maxDepth = some d → d + 1 < 2 ^ 64) (n : Nat) :
    traverse o.debug o.maxDepth n = .go ↔ InDepth o.maxDepth n := by
  constructor
  · intro ht d hd
    rcases Nat.lt_or_ge n d with hn | hn
    · exact hn
    · rw [hd, traverse_ge hn] at ht; cases ht
  · intro hi
    cases hm : o.maxDepth with
    | none => rfl
    | some d => exact traverse_lt (hi d hm) (h d hm)

/-! ### C38, C39 with `unique` -/

/-- **C38**, **C39**: with `unique` no destination is reported twice, every edge reported is a link found
within the limit, and every destination of such a link that can be read is reported. -/
theorem C38_unique (o : Opts) (look : Cid → Look) (roots : List (Cid × List (Option Bytes × Cid))) (fuel : Nat)
    (hu : o.unique = true) (hd : o.download = true) (hm : ∀ d, o.maxDepth = some d → d + 1 < 2 ^ 64)
    (hc : RefsCalm look roots) (items : List Item) (ending : Ending)
    (h : refs o look fuel roots = some (items, ending)) :
    ending = .done ∧ ((edgesOf items).map Edge.destination).Nodup ∧
    (∀ e ∈ edgesOf items, ∃ n, InDepth o.maxDepth n ∧ FoundAt look roots n e ∧ Readable look e.destination) ∧
    (∀ n e, InDepth o.maxDepth n → FoundAt look roots n e → Readable look e.destination →
      ∃ e' ∈ edgesOf items, e'.destination = e.destination) := by
  unfold refs at h
  split at h
  · rename_i h0
    simp only [Option.some.injEq, Prod.mk.injEq] at h
    obtain ⟨rfl, rfl⟩ := h
    refine ⟨rfl, by simp [edgesOf], by simp [edgesOf], ?_⟩
    intro n e hn
    have := hn 0 h0
    omega
  · simp only [hu] at h
    obtain ⟨rfl, F, rfl, vis', hinv⟩ := loop_unique hu hd (plainDepth_of hm) hc fuel [] _ _ _ _
      (refsInv_init o look roots) h
    simp only [List.nil_append] at hinv
    refine ⟨rfl, edgesOf_shown_nodup (by simpa using hinv.nodup), ?_, ?_⟩
    · intro e he
      obtain ⟨w, hw, rfl, hs, hr⟩ := mem_edgesOf_shown.mp he
      have hgo : traverse o.debug o.maxDepth w.depth = .go := (plainDepth_of hm w.depth).resolve_right hs
      exact ⟨w.depth, (traverse_go_iff hm _).mp hgo, hinv.found w (by simpa using hw), hr⟩
    · intro n e hn he hr
      obtain ⟨w, hw, h1, h2⟩ := hinv.complete he (fun m hmn => (traverse_go_iff hm _).mpr
        (fun d hd => by have := hn d hd; omega))
      refine ⟨w.edge, mem_edgesOf_shown.mpr ⟨w, hw, rfl, ?_, by rw [h2]; exact hr⟩, h2⟩
      rw [(traverse_go_iff hm w.depth).mpr (fun d hd => by have := hn d hd; omega)]
      simp

/-! ### C38: termination -/

theorem loop_more {o : Opts} {look : Cid → Look} : ∀ (fuel : Nat) (W : List Work) (vis : List Cid) (r : List Item × Ending),
    loop o look fuel W vis = some r → loop o look (fuel + 1) W vis = some r := by
  intro fuel
  induction fuel with
  | zero => intro W vis r h; cases h
  | succ fuel ih =>
    intro W vis r h
    cases W with
    | nil => rw [loop] at h ⊢; exact h
    | cons w work =>
      rw [loop] at h ⊢
      have lift : ∀ (W : List Work) (vis : List Cid) (f : List Item × Ending → List Item × Ending),
          (loop o look fuel W vis).map f = some r → (loop o look (fuel + 1) W vis).map f = some r := by
        intro W vis f hm
        cases hl : loop o look fuel W vis with
        | none => rw [hl] at hm; cases hm
        | some x => rw [hl] at hm; rw [ih W vis x hl]; exact hm
      cases ht : traverse o.debug o.maxDepth w.depth with
      | skip => rw [ht] at h; exact ih _ _ _ h
      | overflow => rw [ht] at h; exact h
      | leaf =>
        rw [ht] at h
        simp only at h ⊢
        cases hl : look w.edge.destination with
        | missing => rw [hl] at h; simp only at h ⊢; split at h
                     · rename_i hd; rw [if_pos hd]; exact ih _ _ _ h
                     · rename_i hd; rw [if_neg hd]; exact h
        | broken x => rw [hl] at h; exact lift _ _ _ h
        | panic => rw [hl] at h; simp only [if_true] at h ⊢; exact lift _ _ _ h
        | links ls => rw [hl] at h; simp only [if_true] at h ⊢; exact lift _ _ _ h
      | go =>
        rw [ht] at h
        simp only at h ⊢
        cases hl : look w.edge.destination with
        | missing => rw [hl] at h; simp only at h ⊢; split at h
                     · rename_i hd; rw [if_pos hd]; exact ih _ _ _ h
                     · rename_i hd; rw [if_neg hd]; exact h
        | broken x => rw [hl] at h; exact lift _ _ _ h
        | panic => rw [hl] at h; exact h
        | links ls => rw [hl] at h; simp only [reduceCtorEq, if_false] at h ⊢; exact lift _ _ _ h

/-- **C38**: the result does not depend on the bound that cut the loop short or not. -/
theorem C38_fuel (o : Opts) (look : Cid → Look) (roots : List (Cid × List (Option Bytes × Cid))) (a b : Nat)
    (ra rb : List Item × Ending) (ha : refs o look a roots = some ra) (hb : refs o look b roots = some rb) : ra = rb := by
  unfold refs at ha hb
  split at ha
  · rename_i h0
    rw [if_pos h0] at hb
    rw [← Option.some.injEq, ← ha, ← hb]
  · rename_i h0
    rw [if_neg h0] at hb
    have mono : ∀ k f r, loop o look f (enqueueRoots o.unique roots []).1 (enqueueRoots o.unique roots []).2 = some r →
        loop o look (f + k) (enqueueRoots o.unique roots []).1 (enqueueRoots o.unique roots []).2 = some r := by
      intro k
      induction k with
      | zero => intro f r h; exact h
      | succ k ih => intro f r h; rw [← Nat.add_assoc]; exact loop_more _ _ _ _ (ih f r h)
    have h1 := mono b a ra ha
    have h2 := mono a b rb hb
    rw [Nat.add_comm b a, h1] at h2
    exact Option.some.inj h2

theorem level_run {o : Opts} {look : Cid → Look} {roots} (hu : o.unique = false) (hd : o.download = true)
    (hc : RefsCalm look roots) (k : Nat) : ∀ n vis,
    (∀ i, i < k → traverse o.debug o.maxDepth (n + i) = .go) →
    (edgeLevel look roots (n + k) = [] ∨ traverse o.debug o.maxDepth (n + k) = .skip) →
    ∃ fuel, (loop o look fuel (works n (edgeLevel look roots n)) vis).isSome := by
  induction k with
  | zero =>
    intro n vis _ hend
    rcases hend with h | h
    · simp only [Nat.add_zero] at h
      exact ⟨1, by rw [h]; rfl⟩
    · refine ⟨(works n (edgeLevel look roots n)).length + 1, ?_⟩
      rw [loop_skip]
      · simp
      · intro w hw
        obtain ⟨e, _, rfl⟩ := List.mem_map.mp hw
        exact h
  | succ k ih =>
    intro n vis hgo hend
    obtain ⟨f, hf⟩ := ih (n + 1) vis (fun i hi => by
      have := hgo (i + 1) (by omega)
      rwa [show n + (i + 1) = n + 1 + i by omega] at this) (by
      rwa [show n + (k + 1) = n + 1 + k by omega] at hend)
    refine ⟨f + (edgeLevel look roots n).length, ?_⟩
    have := loop_level hu hd (hgo 0 (by omega)) _ (calm_level hc n) [] f vis
    simp only [works, List.map_nil, List.append_nil, List.nil_append] at this
    rw [← edgeLevel_succ] at this
    simp only [works, Nat.add_zero] at this ⊢
    rw [this]
    simpa [works] using hf

/-- **C38**, **C39**: with a limit it ends, whatever the graph. -/
theorem C39_terminates (o : Opts) (look : Cid → Look) (roots : List (Cid × List (Option Bytes × Cid))) (d : Nat)
    (hu : o.unique = false) (hd : o.download = true) (hm : o.maxDepth = some d) (hlt : d + 1 < 2 ^ 64)
    (hc : RefsCalm look roots) : ∃ fuel, (refs o look fuel roots).isSome := by
  by_cases h0 : o.maxDepth = some 0
  · exact ⟨0, by simp [refs, h0]⟩
  · obtain ⟨f, hf⟩ := level_run (look := look) (roots := roots) hu hd hc d 0 []
      (fun i hi => by rw [hm, Nat.zero_add]; exact traverse_lt hi hlt)
      (Or.inr (by rw [hm, Nat.zero_add]; exact traverse_ge (Nat.le_refl _)))
    refine ⟨f, ?_⟩
    unfold refs
    rw [if_neg h0]
    simp only [hu]
    rw [enqueueRoots_all look]
    exact hf

/-- **C38**: without limit it ends if the links of a block lead to smaller ones, as in every finite graph
without cycles. -/
theorem C38_terminates (o : Opts) (look : Cid → Look) (roots : List (Cid × List (Option Bytes × Cid)))
    (hu : o.unique = false) (hd : o.download = true) (hm : o.maxDepth = none) (hc : RefsCalm look roots)
    (rank : Cid → Nat) (hr : ∀ c ls name d, look c = .links ls → (name, d) ∈ ls → rank d < rank c) :
    ∃ fuel, (refs o look fuel roots).isSome := by
  have key : ∀ n e, FoundAt look roots n e → ∃ e0, FoundAt look roots 0 e0 ∧ rank e.destination + n ≤ rank e0.destination := by
    intro n e he
    induction he with
    | root h1 h2 => exact ⟨_, .root h1 h2, by simp⟩
    | step hp hl hmm ih =>
      obtain ⟨e0, h0, hle⟩ := ih
      have := hr _ _ _ _ hl hmm
      exact ⟨e0, h0, by simp only; omega⟩
  obtain ⟨N, hN⟩ : ∃ N, ∀ e, FoundAt look roots 0 e → rank e.destination < N := by
    have : ∀ l : List Edge, ∃ N, ∀ e ∈ l, rank e.destination < N := by
      intro l
      induction l with
      | nil => exact ⟨0, by simp⟩
      | cons a l ih =>
        obtain ⟨N, hN⟩ := ih
        refine ⟨max N (rank a.destination + 1), ?_⟩
        intro e he
        rcases List.mem_cons.mp he with rfl | he
        · omega
        · have := hN e he; omega
    obtain ⟨N, hN⟩ := this (edgeLevel look roots 0)
    exact ⟨N, fun e he => hN e ((mem_edgeLevel look roots 0 e).mpr he)⟩
  have hnil : edgeLevel look roots N = [] := by
    cases hl : edgeLevel look roots N with
    | nil => rfl
    | cons e l =>
      have he : e ∈ edgeLevel look roots N := by rw [hl]; simp
      obtain ⟨e0, h0, hle⟩ := key N e ((mem_edgeLevel _ _ _ _).mp he)
      have := hN e0 h0
      omega
  obtain ⟨f, hf⟩ := level_run (look := look) (roots := roots) hu hd hc N 0 [] (fun i _ => by rw [hm]; rfl)
    (Or.inl (by rw [Nat.zero_add]; exact hnil))
  refine ⟨f, ?_⟩
  simp only [refs, hm, reduceCtorEq, if_false, hu]
  rw [enqueueRoots_all look]
  exact hf

/-- The number of those in `U` that are not in `vis`. -/
def unseen (U vis : List Cid) : Nat := (U.filter (fun c => !vis.contains c)).length

theorem unseen_cons_le (U vis : List Cid) (c : Cid) : unseen U (c :: vis) ≤ unseen U vis := by
  unfold unseen
  induction U with
  | nil => simp
  | cons u U ih =>
    by_cases h : u ∈ vis
    · simpa [List.filter_cons, h] using ih
    · by_cases h' : u = c
      · have hl : (!vis.contains u) = true := by simpa using h
        have hr : (!(c :: vis).contains u) = false := by simp [h']
        simp only [List.filter_cons, hl, hr, if_true, Bool.false_eq_true, if_false, List.length_cons]
        omega
      · simp [h, h'] at ih ⊢; exact ih

theorem unseen_cons_lt (U vis : List Cid) (c : Cid) (hU : c ∈ U) (hv : c ∉ vis) : unseen U (c :: vis) < unseen U vis := by
  induction U with
  | nil => cases hU
  | cons u U ih =>
    by_cases h' : u = c
    · subst h'
      have := unseen_cons_le U vis u
      simp only [unseen, List.filter_cons] at this ⊢
      simp [hv] at this ⊢
      omega
    · have hU' : c ∈ U := by
        rcases List.mem_cons.mp hU with h | h
        · exact absurd h.symm h'
        · exact h
      have := ih hU'
      simp only [unseen, List.filter_cons] at this ⊢
      by_cases h : u ∈ vis
      · simpa [h] using this
      · simp [h, h'] at this ⊢; omega

theorem enqueue_unseen (U : List Cid) (depth : Nat) (source : Cid) (ls : List (Option Bytes × Cid))
    (hU : ∀ l ∈ ls, l.2 ∈ U) : ∀ vis, (enqueue true depth source ls vis).1.length +
      unseen U (enqueue true depth source ls vis).2 ≤ unseen U vis := by
  induction ls with
  | nil => intro vis; simp [enqueue]
  | cons l ls ih =>
    obtain ⟨name, c⟩ := l
    intro vis
    have ih' := ih (fun l hl => hU l (by simp [hl]))
    by_cases hc : c ∈ vis
    · have hc' : vis.contains c = true := by simpa using hc
      simp only [enqueue, hc', Bool.and_self, if_true]
      exact ih' vis
    · have hc' : vis.contains c = false := by simpa using hc
      simp only [enqueue, hc', Bool.and_false, Bool.false_eq_true, if_false, if_true, List.length_cons]
      have h1 := ih' (c :: vis)
      have h2 := unseen_cons_lt U vis c (hU (name, c) (by simp)) hc
      omega

theorem loop_ends_unique {o : Opts} {look : Cid → Look} (hu : o.unique = true) (U : List Cid)
    (hcl : ∀ c ∈ U, ∀ ls, look c = .links ls → ∀ l ∈ ls, l.2 ∈ U) : ∀ (fuel : Nat) (W : List Work) (vis : List Cid),
    (∀ w ∈ W, w.edge.destination ∈ U) → W.length + unseen U vis < fuel → (loop o look fuel W vis).isSome := by
  intro fuel
  induction fuel with
  | zero => intro W vis _ h; omega
  | succ fuel ih =>
    intro W vis hW hlt
    cases W with
    | nil => simp [loop]
    | cons w work =>
      simp only [List.length_cons] at hlt
      have hstep : (loop o look fuel work vis).isSome := ih work vis (fun x hx => hW x (by simp [hx])) (by omega)
      have hq : ∀ ls, look w.edge.destination = .links ls →
          (loop o look fuel (work ++ (enqueue o.unique (w.depth + 1) w.edge.destination ls vis).1)
            (enqueue o.unique (w.depth + 1) w.edge.destination ls vis).2).isSome := by
        intro ls hl
        rw [hu]
        have hin := hcl _ (hW w (by simp)) ls hl
        have h1 := enqueue_unseen U (w.depth + 1) w.edge.destination ls hin vis
        refine ih _ _ ?_ (by rw [List.length_append]; omega)
        intro x hx
        rcases List.mem_append.mp hx with hx | hx
        · exact hW x (by simp [hx])
        · obtain ⟨-, -, nm, hm, -⟩ := (enqueue_unique (w.depth + 1) w.edge.destination ls vis).1 x hx
          exact hin _ hm
      rw [loop]
      cases traverse o.debug o.maxDepth w.depth <;> simp only
      · exact hstep
      · cases hl : look w.edge.destination <;> simp only [if_true]
        · split
          · exact hstep
          · rfl
        all_goals (rw [Option.isSome_map]; exact hstep)
      · cases hl : look w.edge.destination <;> simp only [reduceCtorEq, if_false]
        · split
          · exact hstep
          · rfl
        · rw [Option.isSome_map]; exact hstep
        · rw [Option.isSome_map]; exact hq _ hl
        · rfl
      · rfl

/-- **C38**: with `unique` it ends on every finite set of blocks, cycles or not. -/
theorem C38_unique_terminates (o : Opts) (look : Cid → Look) (roots : List (Cid × List (Option Bytes × Cid)))
    (hu : o.unique = true) (U : List Cid) (hroots : ∀ r ∈ roots, ∀ l ∈ r.2, l.2 ∈ U)
    (hcl : ∀ c ∈ U, ∀ ls, look c = .links ls → ∀ l ∈ ls, l.2 ∈ U) : ∃ fuel, (refs o look fuel roots).isSome := by
  by_cases h0 : o.maxDepth = some 0
  · exact ⟨0, by simp [refs, h0]⟩
  · refine ⟨(enqueueRoots o.unique roots []).1.length + unseen U (enqueueRoots o.unique roots []).2 + 1, ?_⟩
    unfold refs
    rw [if_neg h0]
    refine loop_ends_unique hu U hcl _ _ _ ?_ (Nat.lt_succ_self _)
    rw [hu]
    intro w hw
    have := ((enqueueRoots_unique look roots roots (fun _ h => h) []).1 w hw).2.2
    cases hw' : w.edge with
    | mk s d n =>
      rw [hw'] at this
      cases this with
      | root h1 h2 => exact hroots _ h1 _ h2

/-! ### Examples and witnesses -/

def exRefCid (n : Nat) : Cid := ⟨.v1, codecDagCbor, mhSha256, [UInt8.ofNat n]⟩

/-- A diamond, with a missing and a broken block below. -/
def exRefLook (c : Cid) : Look :=
  if c = exRefCid 1 then .links [(none, exRefCid 3)]
  else if c = exRefCid 2 then .links [(none, exRefCid 3), (none, exRefCid 4)]
  else if c = exRefCid 3 then .links [(none, exRefCid 5)]
  else if c = exRefCid 4 then .broken .codec
  else .missing

def exRefRoots : List (Cid × List (Option Bytes × Cid)) := [(exRefCid 0, [(none, exRefCid 1), (none, exRefCid 2)])]

example : refs {} exRefLook 20 exRefRoots = some ([.edge ⟨exRefCid 0, exRefCid 1, none⟩, .edge ⟨exRefCid 0, exRefCid 2, none⟩,
    .edge ⟨exRefCid 1, exRefCid 3, none⟩, .edge ⟨exRefCid 2, exRefCid 3, none⟩, .blockErr .codec], .done) := by decide

example : refs { unique := true } exRefLook 20 exRefRoots = some ([.edge ⟨exRefCid 0, exRefCid 1, none⟩,
    .edge ⟨exRefCid 0, exRefCid 2, none⟩, .edge ⟨exRefCid 1, exRefCid 3, none⟩, .blockErr .codec], .done) := by decide

example : refs { maxDepth := some 1 } exRefLook 20 exRefRoots = some ([.edge ⟨exRefCid 0, exRefCid 1, none⟩,
    .edge ⟨exRefCid 0, exRefCid 2, none⟩], .done) := by decide

theorem exRef_calm : RefsCalm exRefLook exRefRoots := by
  intro n e _
  unfold exRefLook
  repeat' split
  all_goals simp

/-- The largest limit: with overflow checks it panics, without them only the links of the roots are
reported. -/
theorem C39_max_limit : refs { maxDepth := some (2 ^ 64 - 1) } exRefLook 20 exRefRoots = some ([], .panic) ∧
    refs { maxDepth := some (2 ^ 64 - 1), debug := false } exRefLook 20 exRefRoots =
      some ([.edge ⟨exRefCid 0, exRefCid 1, none⟩, .edge ⟨exRefCid 0, exRefCid 2, none⟩], .done) := by decide

/-- A dag-pb link named "/" is a panic (`unimplemented!`). -/
theorem C38_slash : dagPbLinks (DagPbNode.toIpld ⟨[⟨exRefCid 1, [0x2F], 0⟩], []⟩) = none := by decide

end Verif.Props
