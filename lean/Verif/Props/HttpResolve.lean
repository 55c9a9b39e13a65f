import Verif.Http.Refs
import Verif.Props.Block
import Verif.Props.DagResolve
import Verif.Props.Ipns

/-! # C71: resolving a path over HTTP -/

namespace Verif.Props

open Verif Verif.Ipfs Verif.Ipld Verif.Unixfs Verif.Http

/-! ### Specification -/

/-- What a query to `dag/resolve` asks for. -/
def ResolveAsked (q : QueryEnv) (query : Option Bytes) (arg : Bytes) (timeout : Option Nat) (loc : Bool) : Prop :=
  ∃ ps x, Decoded q (query.getD []) ps ∧ Given some "arg".toUTF8.toList ps (some arg) ∧
    Given q.duration "timeout".toUTF8.toList ps timeout ∧ Given readBool "local-resolve".toUTF8.toList ps x ∧
    loc = x.getD false

/-- The blocks of a node. -/
def servedGraph (s : Served) : Graph := ⟨s.env, s.size, s.fetch⟩

/-- The cid and the path in an answer of `dag/resolve`. -/
def readResolved (body : Bytes) : Option (Bytes × Bytes) :=
  match readJson body with
  | some (.obj [(k1, .obj [(k2, .str cid)]), (k3, .str rem)], []) =>
    if k1 = "Cid".toUTF8.toList ∧ k2 = "/".toUTF8.toList ∧ k3 = "RemPath".toUTF8.toList then some (cid, rem) else none
  | _ => none

/-- Segments with a slash between any two. -/
def withSlashes (segs : List Bytes) : Bytes := [47].intercalate segs

/-- The path an answer of `dag/resolve` stands for. -/
def answeredPath (cid rem : Bytes) : Bytes := "/ipfs/".toUTF8.toList ++ cid ++ (if rem = [] then [] else 47 :: rem)

/-! ### Helpers -/

theorem resolveQuery_iff (q : QueryEnv) (query : Option Bytes) (o : ResolveQuery) :
    resolveQuery q (query.getD []) = .ok o ↔ ResolveAsked q query o.arg o.timeout o.localResolve := by
  unfold ResolveAsked
  rw [show "local-resolve".toUTF8.toList = kLocalResolve from rfl]
  simp only [decoded_iff, ← queryField_iff, ← kArg_eq, ← kTimeout_eq]
  unfold resolveQuery
  rw [parseBool_eq]
  simp only []
  obtain ⟨a, t, l⟩ := o
  constructor
  · intro h
    split at h
    · rename_i h1 h2 h3
      cases h
      exact ⟨_, _, rfl, h1, h2, h3, rfl⟩
    · cases h
  · rintro ⟨_, x, rfl, h1, h2, h3, h4⟩
    simp only [] at h1 h2 h3 h4
    rw [h1, h2, h3, h4]

theorem resolveRequest_eq {q : QueryEnv} {query : Option Bytes} {arg : Bytes} {timeout : Option Nat} {loc : Bool}
    (h : ResolveAsked q query arg timeout loc) (s : Served) :
    resolveRequest q s query = resolveInner q.mb s ⟨arg, timeout, loc⟩ := by
  unfold resolveRequest
  rw [(resolveQuery_iff q query ⟨arg, timeout, loc⟩).mpr h]

theorem joinSlash_eq (l : List Bytes) : joinSlash l = withSlashes l := by
  unfold withSlashes
  induction l with
  | nil => rfl
  | cons x l ih =>
    cases l with
    | nil => simp [joinSlash]
    | cons y l => rw [joinSlash, ih]; simp [List.intercalate]

theorem utf8Ok_withSlashes {l : List Bytes} (h : ∀ x ∈ l, utf8Ok x = true) : utf8Ok (withSlashes l) = true := by
  rw [← joinSlash_eq, ← slashedText_eq]
  cases l with
  | nil => rfl
  | cons x l =>
    simp only [slashedText]
    rw [utf8Ok_append (h x (by simp))]
    have h' : ∀ y ∈ l, utf8Ok y = true := fun y hy => h y (by simp [hy])
    clear h
    induction l with
    | nil => rfl
    | cons y l ih =>
      rw [List.flatMap_cons]
      have e : utf8Ok (47 :: y) = true := by
        rw [show (47 : UInt8) :: y = [47] ++ y from rfl, utf8Ok_append (by decide +kernel)]
        exact h' y (by simp)
      rw [utf8Ok_append e]
      exact ih (fun z hz => h' z (by simp [hz]))

/-- The segments of a path are parts of its text. -/
theorem parse_parts {mb : UInt8 → Bytes → Option Bytes} {s : Bytes} {p : IpfsPath} (h : IpfsPath.parse mb s = some p) :
    ∀ x ∈ p.path, x ∈ splitSlash s := by
  unfold IpfsPath.parse at h
  cases hr : parseRoot mb (splitSlash s) with
  | none => rw [hr] at h; cases h
  | some q =>
    obtain ⟨root, rest⟩ := q
    simp only [hr] at h
    have hsub : ∀ x ∈ rest, x ∈ splitSlash s := by
      generalize splitSlash s = l at hr
      unfold parseRoot at hr
      split at hr
      · cases hr
      · split at hr
        · obtain ⟨c, _, hc⟩ := Option.map_eq_some_iff.mp hr
          cases hc
          intro x hx; simp [hx]
        · split at hr
          · split at hr
            · obtain ⟨c, _, hc⟩ := Option.map_eq_some_iff.mp hr
              cases hc
              intro x hx; simp [hx]
            · split at hr
              · split at hr <;> (cases hr; intro x hx; simp [hx])
              · cases hr
          · cases hr
    cases hp : pushSplit [] rest with
    | mk path ok =>
      rw [hp] at h
      cases ok with
      | false => cases h
      | true =>
        simp only [Option.some.injEq] at h
        subst h
        obtain ⟨segs, h1, h2, h3⟩ := pushSplit_ok hp
        simp only [List.nil_append] at h1
        subst h1
        intro x hx
        refine hsub x ?_
        rcases h3 with rfl | rfl <;> simp [hx]

theorem asked_utf8 {q : QueryEnv} (hl : ∀ x, utf8Ok (q.lossy x) = true) {query : Option Bytes} {arg : Bytes} {timeout : Option Nat}
    {loc : Bool} (h : ResolveAsked q query arg timeout loc) : utf8Ok arg = true := by
  obtain ⟨ps, x, h1, h2, -⟩ := h
  rw [decoded_iff] at h1
  obtain ⟨value, ⟨a, b, h3, -⟩, h4⟩ := h2
  cases h4
  have : ("arg".toUTF8.toList, arg) ∈ formPairs q.lossy (query.getD []) := by rw [h1, h3]; simp
  unfold formPairs at this
  obtain ⟨p, -, hp⟩ := List.mem_map.mp this
  rw [Prod.mk.injEq] at hp
  rw [← hp.2]
  exact hl _

theorem readResolved_write (c : Cid) {rem : List Bytes} (h : ∀ x ∈ rem, utf8Ok x = true) :
    readResolved (resolvedObject c rem).write = some (c.toText, withSlashes rem) := by
  have : readJson (resolvedObject c rem).write = some (resolvedObject c rem, []) := by
    refine readJson_write _ ?_ (by simp [resolvedObject, nesting, nestingMap]) (by simp [resolvedObject])
    refine ⟨by decide +kernel, ⟨by decide +kernel, utf8Ok_toText c, trivial⟩, by decide +kernel, ?_, trivial⟩
    show utf8Ok (slashedText rem) = true
    rw [slashedText_eq, joinSlash_eq]
    exact utf8Ok_withSlashes h
  unfold readResolved
  rw [this]
  unfold resolvedObject
  dsimp only
  rw [if_pos ⟨rfl, rfl, rfl⟩, slashedText_eq, joinSlash_eq]

/-- Which cid has the place a path ends at. -/
theorem Ends.source {G : Graph} {pos : Pos} {last : List Bytes} {node : Node} (h : Ends G pos last node) :
    nodeSource node = pos.cid := by
  cases h <;> rfl

theorem resolveNode_ipld (mb : UInt8 → Bytes → Option Bytes) (s : Served) (follow : Bool) (c : Cid) (segs : List Bytes)
    (hf : 2 ≤ s.fuel) :
    resolveNode mb s follow ⟨.ipld c, segs⟩ =
      match dagResolve s.env s.size s.fetch follow s.fuel c segs with
      | none => none
      | some (.error e) => some (.error (.dag e))
      | some (.ok r) => some (.ok r) := by
  unfold resolveNode
  obtain ⟨k, hk⟩ : ∃ k, s.fuel = k + 2 := ⟨s.fuel - 2, by omega⟩
  have h2 := C55_ipld mb s.txt k c segs true
  rw [← hk] at h2
  rw [h2]
  dsimp only
  cases dagResolve s.env s.size s.fetch follow s.fuel c segs with
  | none => rfl
  | some r => cases r <;> rfl

/-- An answer is one of resolving the path. -/
theorem resolveInner_ok {mb : UInt8 → Bytes → Option Bytes} {s : Served} {o : ResolveQuery} {body : Bytes} :
    resolveInner mb s o = .ok body ↔ ∃ path node rem, IpfsPath.parse mb o.arg = some path ∧ s.timedOut o.timeout = false ∧
      resolveNode mb s (!o.localResolve) path = some (.ok (node, rem)) ∧ body = (resolvedObject (nodeSource node) rem).write := by
  unfold resolveInner
  cases hp : IpfsPath.parse mb o.arg with
  | none => simp
  | some path =>
    simp only []
    by_cases ht : s.timedOut o.timeout = true
    · simp [ht]
    · simp only [if_neg ht]
      have ht' : s.timedOut o.timeout = false := by simpa using ht
      constructor
      · intro h
        split at h <;> cases h
        rename_i hr
        exact ⟨path, _, _, rfl, ht', hr, rfl⟩
      · rintro ⟨path', node, rem, h1, -, h2, rfl⟩
        cases h1
        rw [h2]

theorem resolveNode_ok {mb : UInt8 → Bytes → Option Bytes} {s : Served} {follow : Bool} {path : IpfsPath} {node : Node}
    {rem : List Bytes} (h : resolveNode mb s follow path = some (.ok (node, rem))) :
    ∃ c segs, Leads mb s.txt path ⟨.ipld c, segs⟩ ∧ dagResolve s.env s.size s.fetch follow s.fuel c segs = some (.ok (node, rem)) := by
  unfold resolveNode at h
  split at h
  · cases h
  · cases h
  · rename_i resolved hr
    have hl := (C55_ok mb s.txt s.fuel path resolved hr).1
    obtain ⟨root, segs⟩ := resolved
    cases root with
    | ipld c =>
      simp only [] at h
      cases hd : dagResolve s.env s.size s.fetch follow s.fuel c segs with
      | none => rw [hd] at h; cases h
      | some r =>
        rw [hd] at h
        cases r with
        | error e => cases h
        | ok r => cases h; exact ⟨c, segs, hl, hd⟩
    | ipns _ => cases h
    | dns _ => cases h

theorem leads_ipld {mb : UInt8 → Bytes → Option Bytes} {txt : Txt} {c : Cid} {segs : List Bytes} {p : IpfsPath}
    (h : Leads mb txt ⟨.ipld c, segs⟩ p) : p = ⟨.ipld c, segs⟩ := by
  generalize hx : (⟨.ipld c, segs⟩ : IpfsPath) = x at h
  induction h with
  | refl => rfl
  | step _ hn ih =>
    subst ih
    subst hx
    cases hn
    rfl

theorem dagResolve_rem {e : Env} {size : Nat} {fetch : Cid → Option Bytes} {follow : Bool} {fuel : Nat} {c : Cid}
    {segs rem : List Bytes} {node : Node} (h : dagResolve e size fetch follow fuel c segs = some (.ok (node, rem))) :
    ∃ n, resolve0 e size fetch follow fuel c segs 0 = some (.ok (node, n)) ∧ rem = segs.drop n ∧ n ≤ segs.length := by
  unfold dagResolve at h
  simp only [] at h
  cases hr : resolve0 e size fetch follow fuel c segs 0 with
  | none => rw [hr] at h; cases h
  | some r =>
    rw [hr] at h
    cases r with
    | error x => cases h
    | ok r =>
      obtain ⟨node', n⟩ := r
      simp only [IpfsPath.shifted] at h
      split at h
      · rename_i rest hs
        cases h
        split at hs
        · cases hs; exact ⟨n, rfl, rfl, by assumption⟩
        · cases hs
      · cases h

/-! ### C71 -/

/-- **C71**: which queries `dag/resolve` accepts. -/
theorem C71_resolve_query (q : QueryEnv) (s : Served) (query : Option Bytes) :
    resolveRequest q s query = .failed .badQuery ↔ ¬ ∃ arg timeout loc, ResolveAsked q query arg timeout loc := by
  constructor
  · rintro h ⟨arg, timeout, loc, ha⟩
    rw [resolveRequest_eq ha] at h
    unfold resolveInner at h
    split at h
    · cases h
    · split at h
      · cases h
      · split at h <;> cases h
  · intro hn
    unfold resolveRequest
    cases hr : resolveQuery q (query.getD []) with
    | error _ => rfl
    | ok o => exact absurd ⟨_, _, _, (resolveQuery_iff q query o).mp hr⟩ hn

/-- **C71**: the answer names the document in which the path ends, and the part of the path inside of it (that part only if
no sharded directory of several buckets was passed). -/
theorem C71_resolve (q : QueryEnv) (hl : ∀ x, utf8Ok (q.lossy x) = true) (s : Served) (query : Option Bytes) (arg : Bytes)
    (timeout : Option Nat) (c : Cid) (segs : List Bytes) (body : Bytes) (hq : ResolveAsked q query arg timeout false)
    (hp : IpfsPath.parse q.mb arg = some ⟨.ipld c, segs⟩) (h : resolveRequest q s query = .ok body) :
    ∃ mid pos last node rem, Steps (Taking (servedGraph s) (Named s.fetch)) (.doc c) segs (.doc pos.cid) mid ∧
      Steps (Inside (servedGraph s)) (.doc pos.cid) mid pos last ∧ Ends (servedGraph s) pos last node ∧
      readResolved body = some (pos.cid.toText, withSlashes rem) ∧ (NoShards (servedGraph s) → rem = mid) := by
  rw [resolveRequest_eq hq] at h
  obtain ⟨path, node, rem, h1, -, h2, rfl⟩ := resolveInner_ok.mp h
  rw [hp] at h1
  cases h1
  obtain ⟨c', segs', h3, h4⟩ := resolveNode_ok h2
  cases leads_ipld h3
  have hseg := C19_parsed q.mb arg _ hp
  have hu := asked_utf8 hl hq
  obtain ⟨c1, mid, pos, last, g1, g2, g3, g4, g5⟩ :=
    C20_follow (servedGraph s) s.fuel c segs rem node (fun x hx => (hseg x hx).1) h4
  subst g3
  refine ⟨mid, pos, last, node, rem, g1, g2, g4, ?_, g5⟩
  rw [readResolved_write, g4.source]
  obtain ⟨n, -, rfl, -⟩ := dagResolve_rem h4
  intro x hx
  exact utf8Ok_split hu x (parse_parts hp x (List.mem_of_mem_drop hx))

/-- **C71**: a place that is reached by taking the segments of the path is answered with its document. -/
theorem C71_resolve_reached (q : QueryEnv) (hl : ∀ x, utf8Ok (q.lossy x) = true) (s : Served) (query : Option Bytes)
    (arg : Bytes) (timeout : Option Nat) (c : Cid) (segs last : List Bytes) (pos : Pos) (node : Node)
    (hq : ResolveAsked q query arg timeout false) (hp : IpfsPath.parse q.mb arg = some ⟨.ipld c, segs⟩)
    (ht : s.elapses = true → timeout = none)
    (hs : Steps (Taking (servedGraph s) (NamedOp s.fetch)) (.doc c) segs pos last) (he : Ends (servedGraph s) pos last node) :
    ∃ fuel0, ∀ fuel, fuel0 ≤ fuel → ∃ body rem, resolveRequest q { s with fuel := fuel } query = .ok body ∧
      readResolved body = some (pos.cid.toText, rem) := by
  have hseg := C19_parsed q.mb arg _ hp
  have hu := asked_utf8 hl hq
  obtain ⟨f0, hf0⟩ := C20_reached (servedGraph s) c segs last pos node (fun x hx => (hseg x hx).1) hs he
  refine ⟨f0 + 2, fun fuel hf => ?_⟩
  obtain ⟨rem, hrem⟩ := hf0 fuel (by omega)
  obtain ⟨n, -, hn, -⟩ := dagResolve_rem hrem
  have hr : resolveNode q.mb { s with fuel := fuel } true ⟨.ipld c, segs⟩ = some (.ok (node, rem)) := by
    rw [resolveNode_ipld _ _ _ _ _ (by simp only []; omega)]
    have hrem' : dagResolve s.env s.size s.fetch true fuel c segs = some (.ok (node, rem)) := hrem
    simp only [hrem']
  refine ⟨(resolvedObject (nodeSource node) rem).write, withSlashes rem, ?_, ?_⟩
  · rw [resolveRequest_eq hq]
    refine resolveInner_ok.mpr ⟨_, node, rem, hp, ?_, hr, rfl⟩
    unfold Served.timedOut
    cases ha : s.elapses with
    | false => simp
    | true => simp [ht ha]
  · rw [readResolved_write, he.source]
    intro x hx
    rw [hn] at hx
    exact utf8Ok_split hu x (parse_parts hp x (List.mem_of_mem_drop hx))

theorem resolve0_again (G : Graph) : ∀ (fuel : Nat) (c : Cid) (segs : List Bytes) (total : Nat) (node : Node) (n : Nat),
    resolve0 G.env G.size G.fetch true fuel c segs total = some (.ok (node, n)) →
    ∃ mid, (∀ k, resolve0 G.env G.size G.fetch true (k + 1) (nodeSource node) mid 0 = some (.ok (node, 0))) ∧
      (NoShards G → n + mid.length = total + segs.length ∧ ∃ pre, segs = pre ++ mid) := by
  intro fuel
  induction fuel with
  | zero => intro c segs total node n h; cases h
  | succ fuel ih =>
    intro c segs total node n h
    have hlast : ∀ data nd m rest, G.fetch c = some data → resolveLocal G.env G.size c data segs = .ok (.complete nd, m, rest) →
        (∀ a b, nd ≠ .link a b) → nodeSource nd = c →
        ∀ k, resolve0 G.env G.size G.fetch true (k + 1) (nodeSource nd) segs 0 = some (.ok (nd, 0)) := by
      intro data nd m rest h1 h2 h3 h4 k
      rw [h4]
      simp only [resolve0, h1, h2]
      try (cases nd with
        | link a b => exact absurd rfl (h3 a b)
        | _ => rfl)
    simp only [resolve0] at h
    cases hf : G.fetch c with
    | none => rw [hf] at h; cases h
    | some data =>
      rw [hf] at h
      simp only [] at h
      cases hr : resolveLocal G.env G.size c data segs with
      | error x => rw [hr] at h; cases h
      | ok r =>
        obtain ⟨r, m, rest⟩ := r
        rw [hr] at h
        rcases resolveLocal_ok G hf hr with ⟨dest, pos, mid, rfl, h1, h2, h3, h4⟩ | ⟨nd, pos, mid, rfl, h1, h2, h3, h4⟩ | hinc
        · simp only [if_true] at h
          obtain ⟨mid', g1, g2⟩ := ih _ _ _ _ _ h
          refine ⟨mid', g1, fun hn => ?_⟩
          obtain ⟨g3, pre, g4⟩ := g2 hn
          obtain ⟨pre1, hp1⟩ := h1.suffix (fun _ _ _ _ => Inside.suffix)
          obtain ⟨pre2, hp2⟩ := h3.suffix
          refine ⟨by omega, pre1 ++ pre2 ++ pre, ?_⟩
          rw [hp1, hp2, g4]; simp
        · have hnd : nodeSource nd = c := by rw [h4.source, h3]
          have : some (Except.ok (nd, total)) = (some (Except.ok (node, n)) : Option (Except RawErr _)) := by
            cases nd with
            | link a b => exact absurd rfl (h1 a b)
            | _ => exact h
          cases this
          exact ⟨segs, hlast data _ _ _ hf hr h1 hnd, fun _ => ⟨rfl, [], rfl⟩⟩
        · obtain ⟨needle, queue, rfl, -, -, -, hd⟩ := hinc
          simp only [if_true] at h
          split at h
          · obtain ⟨mid', g1, -⟩ := ih _ _ _ _ _ h
            exact ⟨mid', g1, fun hn => absurd hd (hn c data _ _ hf)⟩
          · cases h
          · cases h
          · cases h

/-- **C71**: the answer taken as a path is answered by itself: nothing of the path is left out and nothing is left to follow
(unless sharded directories of several buckets are passed). -/
theorem C71_again (q : QueryEnv) (s : Served) (hf : 2 ≤ s.fuel) (hv : ∀ c data, s.fetch c = some data → c.Valid)
    (hn : NoShards (servedGraph s)) (query query' : Option Bytes) (arg : Bytes) (timeout timeout' : Option Nat) (c : Cid)
    (segs : List Bytes) (body cid rem : Bytes) (hl : ∀ x, utf8Ok (q.lossy x) = true)
    (hq : ResolveAsked q query arg timeout false) (hp : IpfsPath.parse q.mb arg = some ⟨.ipld c, segs⟩)
    (h : resolveRequest q s query = .ok body) (hb : readResolved body = some (cid, rem))
    (hq' : ResolveAsked q query' (answeredPath cid rem) timeout' false) (ht : s.elapses = true → timeout' = none) :
    resolveRequest q s query' = .ok body := by
  rw [resolveRequest_eq hq] at h
  rw [resolveRequest_eq hq']
  obtain ⟨path, node, rem0, h1, -, h2, rfl⟩ := resolveInner_ok.mp h
  simp only [hp, Option.some.injEq] at h1
  subst h1
  obtain ⟨c', segs', h3, h4⟩ := resolveNode_ok h2
  cases leads_ipld h3
  have hseg := C19_parsed q.mb arg _ hp
  have hu := asked_utf8 hl hq
  obtain ⟨n, h5, h6, h7⟩ := dagResolve_rem h4
  obtain ⟨mid, g1, g2⟩ := resolve0_again (servedGraph s) _ _ _ _ _ _ h5
  obtain ⟨g3, pre, g4⟩ := g2 hn
  have hrem : rem0 = mid := by
    rw [h6, g4]
    have : pre.length = n := by rw [g4] at g3; simp at g3; omega
    rw [← this]; simp
  subst hrem
  have hsub : ∀ x ∈ rem0, x ∈ segs := by intro x hx; rw [g4]; simp [hx]
  rw [readResolved_write _ (fun x hx => utf8Ok_split hu x (parse_parts hp x (hsub x hx)))] at hb
  cases hb
  have hval : (nodeSource node).Valid := by
    have := g1 0
    simp only [resolve0] at this
    cases hx : (servedGraph s).fetch (nodeSource node) with
    | none => rw [hx] at this; cases this
    | some data => exact hv _ _ hx
  have htext : answeredPath (nodeSource node).toText (withSlashes rem0) = IpfsPath.text ⟨.ipld (nodeSource node), rem0⟩ := by
    have hne : withSlashes rem0 = [] ↔ rem0 = [] := by
      constructor
      · intro hw
        cases rem0 with
        | nil => rfl
        | cons x l =>
          rw [← joinSlash_eq, ← slashedText_eq] at hw
          simp only [slashedText, List.append_eq_nil_iff] at hw
          exact absurd hw.1 (hseg x (hsub x (by simp))).1
      · rintro rfl; rfl
    unfold answeredPath IpfsPath.text
    simp only [hne, slashedText_eq, joinSlash_eq]
    have e : "/ipfs/".toUTF8.toList = 47 :: sIpfs ++ [47] := by decide +kernel
    rw [e]
    simp [PathRoot.text]
  refine resolveInner_ok.mpr ⟨⟨.ipld (nodeSource node), rem0⟩, node, rem0, ?_, ?_, ?_, rfl⟩
  · rw [htext]
    exact parse_text hval (fun x hx => hseg x (hsub x hx))
  · unfold Served.timedOut
    cases ha : s.elapses with
    | false => simp
    | true => simp [ht ha]
  · rw [resolveNode_ipld _ _ _ _ _ hf]
    obtain ⟨k, hk⟩ : ∃ k, s.fuel = k + 1 := ⟨s.fuel - 1, by omega⟩
    have g := g1 k
    rw [← hk] at g
    have g' : resolve0 s.env s.size s.fetch true s.fuel (nodeSource node) rem0 0 = some (.ok (node, 0)) := g
    have : dagResolve s.env s.size s.fetch true s.fuel (nodeSource node) rem0 = some (.ok (node, rem0)) := by
      unfold dagResolve
      simp only [g', IpfsPath.shifted, Nat.zero_le, if_true, List.drop_zero]
    simp only [Bool.not_false, this]

/-- **C71**: with `local-resolve` the answer names the root of the path. The path beside it is what is left after the first
link — of which nothing is said — or all of it if there was no link. -/
theorem C71_resolve_local (q : QueryEnv) (hl : ∀ x, utf8Ok (q.lossy x) = true) (s : Served) (query : Option Bytes) (arg : Bytes)
    (timeout : Option Nat) (c : Cid) (segs : List Bytes) (body : Bytes) (hq : ResolveAsked q query arg timeout true)
    (hp : IpfsPath.parse q.mb arg = some ⟨.ipld c, segs⟩) (h : resolveRequest q s query = .ok body) :
    ∃ rem, readResolved body = some (c.toText, withSlashes rem) ∧
      ((∃ pos mid dest rest, Steps (Inside (servedGraph s)) (.doc c) segs pos mid ∧ pos.cid = c ∧
          Cross (servedGraph s) (Named s.fetch) pos mid (.doc dest) rest ∧ (NoShards (servedGraph s) → rem = rest)) ∨
       (∃ pos last node, Steps (Inside (servedGraph s)) (.doc c) segs pos last ∧ pos.cid = c ∧
          Ends (servedGraph s) pos last node ∧ rem = segs)) := by
  rw [resolveRequest_eq hq] at h
  obtain ⟨path, node, rem, h1, -, h2, rfl⟩ := resolveInner_ok.mp h
  simp only [hp, Option.some.injEq] at h1
  subst h1
  obtain ⟨c', segs', h3, h4⟩ := resolveNode_ok h2
  cases leads_ipld h3
  simp only [Bool.not_true] at h4
  have hseg := C19_parsed q.mb arg _ hp
  have hu := asked_utf8 hl hq
  obtain ⟨n, h5, h6, h7⟩ := dagResolve_rem h4
  have hw : readResolved (resolvedObject (nodeSource node) rem).write = some ((nodeSource node).toText, withSlashes rem) := by
    refine readResolved_write _ ?_
    rw [h6]
    exact fun x hx => utf8Ok_split hu x (parse_parts hp x (List.mem_of_mem_drop hx))
  refine ⟨rem, ?_⟩
  rw [hw]
  by_cases hlink : ∃ a b, node = .link a b
  · obtain ⟨a, b, rfl⟩ := hlink
    obtain ⟨rfl, pos, mid, rest, g1, g2, g3, g4⟩ :=
      C20_stop_partial (servedGraph s) s.fuel c segs rem a b (fun x hx => (hseg x hx).1) h4
    exact ⟨rfl, Or.inl ⟨pos, mid, b, rest, g1, g2, g3, g4⟩⟩
  · have hnl : ∀ a b, node ≠ .link a b := fun a b hab => hlink ⟨a, b, hab⟩
    cases hfu : s.fuel with
    | zero => rw [hfu] at h5; cases h5
    | succ fuel =>
      rw [hfu] at h5
      simp only [resolve0] at h5
      cases hfe : s.fetch c with
      | none => rw [hfe] at h5; cases h5
      | some data =>
        rw [hfe] at h5
        simp only [] at h5
        cases hr : resolveLocal s.env s.size c data segs with
        | error x => rw [hr] at h5; cases h5
        | ok r =>
          obtain ⟨r, m, rest⟩ := r
          rw [hr] at h5
          rcases resolveLocal_ok (servedGraph s) hfe hr with ⟨dest, pos, mid, rfl, -⟩ | ⟨nd, pos, mid, rfl, g1, g2, g3, g4⟩ | hinc
          · simp only [Bool.false_eq_true, if_false] at h5
            cases h5
            exact absurd rfl (hnl _ _)
          · have : some (Except.ok (nd, 0)) = (some (Except.ok (node, n)) : Option (Except RawErr _)) := by
              cases nd with
              | link a b => exact absurd rfl (g1 a b)
              | _ => exact h5
            cases this
            refine ⟨by rw [g4.source, g3], Or.inr ⟨pos, mid, _, g2, g3, g4, ?_⟩⟩
            rw [h6]; rfl
          · obtain ⟨needle, queue, rfl, -⟩ := hinc
            simp only [Bool.false_eq_true, if_false] at h5
            split at h5 <;> cases h5
            exact absurd rfl (hnl _ _)

/-- **C71**: a name is answered as the path with a cid is that it leads to. -/
theorem C71_resolve_name (q : QueryEnv) (s : Served) (sets : List (List Bytes)) (hfin : FinitelyMany s.txt sets)
    (hf : sets.length + 3 ≤ s.fuel) (query query' : Option Bytes) (arg arg' : Bytes) (timeout : Option Nat) (loc : Bool)
    (path : IpfsPath) (c : Cid) (segs : List Bytes) (hq : ResolveAsked q query arg timeout loc)
    (hq' : ResolveAsked q query' arg' timeout loc) (hp : IpfsPath.parse q.mb arg = some path)
    (hp' : IpfsPath.parse q.mb arg' = some ⟨.ipld c, segs⟩) (hl : Leads q.mb s.txt path ⟨.ipld c, segs⟩) :
    resolveRequest q s query = resolveRequest q s query' := by
  rw [resolveRequest_eq hq, resolveRequest_eq hq']
  have : resolveNode q.mb s (!loc) path = resolveNode q.mb s (!loc) ⟨.ipld c, segs⟩ := by
    obtain ⟨r, hr⟩ := C55_terminates q.mb s.txt sets hfin path s.fuel hf
    obtain ⟨r', hr'⟩ := C55_terminates q.mb s.txt sets hfin ⟨.ipld c, segs⟩ s.fuel hf
    have e := C55_cid q.mb s.txt s.fuel path c segs r hr hl
    have e' := C55_cid q.mb s.txt s.fuel _ c segs r' hr' .refl
    subst e e'
    unfold resolveNode
    rw [hr, hr']
  unfold resolveInner
  simp only [hp, hp', this]

/-- **C71**: when `dag/resolve` fails, and how. -/
theorem C71_resolve_fails (q : QueryEnv) (s : Served) (query : Option Bytes) (arg : Bytes) (timeout : Option Nat) (loc : Bool)
    (hq : ResolveAsked q query arg timeout loc) :
    (IpfsPath.parse q.mb arg = none → resolveRequest q s query = .failed (.path arg)) ∧
    ∀ path, IpfsPath.parse q.mb arg = some path →
      (s.elapses = true → timeout ≠ none → resolveRequest q s query = .failed .elapsed) ∧
      ((s.elapses = true → timeout = none) →
        (∀ x, resolveIpns q.mb s.txt s.fuel path true = some (.error x) →
          resolveRequest q s query = .failed (.resolving (.ipnsResolutionFailed path))) ∧
        (∀ c segs, path = ⟨.ipld c, segs⟩ → 2 ≤ s.fuel →
          (∀ e, e ≠ .panic → dagResolve s.env s.size s.fetch (!loc) s.fuel c segs = some (.error e) →
            resolveRequest q s query = .failed (.resolving (.dag e))) ∧
          (dagResolve s.env s.size s.fetch (!loc) s.fuel c segs = some (.error .panic) →
            resolveRequest q s query = .panic))) := by
  rw [resolveRequest_eq hq]
  unfold resolveInner
  refine ⟨fun h => by rw [h], fun path hp => ?_⟩
  rw [hp]
  dsimp only
  refine ⟨fun h1 h2 => ?_, fun ht => ?_⟩
  · have h3 : s.timedOut timeout = true := by
      cases timeout with
      | none => exact absurd rfl h2
      | some _ => simp [Served.timedOut, h1]
    rw [if_pos h3]
  · have hn : ¬ (s.timedOut timeout = true) := by
      unfold Served.timedOut
      cases ha : s.elapses with
      | false => simp
      | true => simp [ht ha]
    rw [if_neg hn]
    refine ⟨fun x hx => ?_, ?_⟩
    · unfold resolveNode
      rw [hx]
    · rintro c segs rfl hf
      rw [resolveNode_ipld _ _ _ _ _ hf]
      refine ⟨fun e he h => ?_, fun h => by rw [h]⟩
      rw [h]
      cases e with
      | panic => exact absurd rfl he
      | _ => rfl

/-! ### Examples, and a finding -/

/-- `{"a": link to B, "c": link to C}`, `{"b": 2}` and `{"b": 3}`. -/
def exResolveServed : Served where
  txt := fun _ => none
  env := exGraph.env
  size := 4096
  fetch := fun c =>
    if c = exCidA then enc (.map [([97], .link exCidB), ([99], .link exCidC)])
    else if c = exCidB then enc (.map [([98], .int 2)])
    else if c = exCidC then enc (.map [([98], .int 3)])
    else none
  debug := true
  elapses := false
  fuel := 4
where
  exCidC : Cid := ⟨.v1, codecDagCbor, mhSha256, List.replicate 32 9⟩

def exResolveEnv : QueryEnv := ⟨fun x => if utf8Ok x then x else [], fun _ => none, fun _ _ => none⟩

def exResolveQuery (path more : String) : Option Bytes :=
  some ("arg=".toUTF8.toList ++ exCidA.toText ++ path.toUTF8.toList ++ more.toUTF8.toList)

/-- `C71_resolve`, `C71_again`: links are followed. -/
example : (match resolveRequest exResolveEnv exResolveServed (exResolveQuery "/a/b" "") with
    | .ok body => readResolved body
    | _ => none) = some (exCidB.toText, [98]) := by decide +kernel

/-- **C71** (a finding): with `local-resolve` two paths through different links have the same answer, and that answer is a
path which does not exist. -/
theorem C71_local_lost :
    (match resolveRequest exResolveEnv exResolveServed (exResolveQuery "/a/b" "&local-resolve=true") with
      | .ok body => readResolved body
      | _ => none) = some (exCidA.toText, [98]) ∧
    resolveRequest exResolveEnv exResolveServed (exResolveQuery "/a/b" "&local-resolve=true") =
      resolveRequest exResolveEnv exResolveServed (exResolveQuery "/c/b" "&local-resolve=true") ∧
    resolveRequest exResolveEnv exResolveServed (exResolveQuery "/b" "") =
      .failed (.resolving (.dag (.notFound exCidA [[98]]))) := by decide +kernel

/-- Queries that are not accepted. -/
example : resolveRequest exResolveEnv exResolveServed none = .failed .badQuery ∧
    resolveRequest exResolveEnv exResolveServed (exResolveQuery "" "&local-resolve=1") = .failed .badQuery ∧
    resolveRequest exResolveEnv exResolveServed (exResolveQuery "" "&arg=x") = .failed .badQuery ∧
    resolveRequest exResolveEnv exResolveServed (some "arg=x".toUTF8.toList) = .failed (.path [120]) := by decide +kernel

example : exCidA.Valid ∧ exCidB.Valid := by decide +kernel

end Verif.Props
