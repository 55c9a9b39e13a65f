import Verif.Props.HttpResolve
import Verif.Props.RefsOrder
import Verif.Props.RefsUnique
import Verif.Props.RefsOptions
import Verif.Props.RefsFormat
import Verif.Props.MemBlocks
import Verif.Props.FsPaths

/-! # C71: listing references over HTTP -/

namespace Verif.Props

open Verif Verif.Ipfs Verif.Ipld Verif.Unixfs Verif.Http Verif.Repo Verif.Repo.FsPaths

/-! ### Specification -/

/-- What a query to `refs` asks for. -/
structure RefsWish where
  args : List Bytes
  format : Option Bytes
  timeout : Option Nat
  depth : Option Nat
  edges : Bool
  unique : Bool

/-- How deep: just the links of the documents named, unless it is to be recursive. A negative limit is none. -/
def askedDepth : Option Bool → Option Int → Option Nat
  | some true, some (.ofNat n) => some n
  | some true, _ => none
  | _, _ => some 1

def RefsAsked (q : QueryEnv) (query : Bytes) (w : RefsWish) : Prop :=
  ∃ ps e u r m, Decoded q query ps ∧ w.args = given "arg" ps ∧ w.args ≠ [] ∧ Once some (given "format" ps) w.format ∧
    Once q.duration (given "timeout" ps) w.timeout ∧ Once RefsOptions.parseI64 (given "max-depth" ps) m ∧
    Once readBool (given "edges" ps) e ∧ w.edges = e.getD false ∧ Once readBool (given "unique" ps) u ∧
    w.unique = u.getD false ∧ Once readBool (given "recursive" ps) r ∧ w.depth = askedDepth r m

/-- The links of what a path ends at; the data of a dag-pb node has none. -/
inductive NodeLinks (s : Served) : Node → Option (Cid × List (Option Bytes × Cid)) → Prop
  | data {c d} : NodeLinks s (.dagPbData c d) none
  | block {c data ls} : BlockLinks s.env s.size c data ls → NodeLinks s (.block c data) (some (c, ls))
  | value {c v} : c.codec ≠ codecDagPb → NodeLinks s (.projection c v) (some (c, (linksIn v).map (fun d => (none, d))))

/-- The documents that paths lead to, with their links. -/
inductive ListedRoots (N : Bytes → Bytes → Cid → Prop) (mb : UInt8 → Bytes → Option Bytes) (s : Served) :
    List Bytes → List (Cid × List (Option Bytes × Cid)) → Prop
  | nil : ListedRoots N mb s [] []
  | cons {t ts path c segs pos last node x roots} : IpfsPath.parse mb t = some path →
      Leads mb s.txt path ⟨.ipld c, segs⟩ → Steps (Taking (servedGraph s) N) (.doc c) segs pos last →
      Ends (servedGraph s) pos last node → NodeLinks s node x → ListedRoots N mb s ts roots →
      ListedRoots N mb s (t :: ts) (x.toList ++ roots)

/-- How a link is written. -/
def WrittenEdge (edges : Bool) (format : Option Bytes) (e : Refs.Edge) (text : Bytes) : Prop :=
  match edges, format with
  | false, none => text = e.destination.toText
  | true, none => text = e.source.toText ++ " -> ".toUTF8.toList ++ e.destination.toText
  | false, some f => ∃ ts, IsFmt f ts ∧ text = ts.flatMap (FmtTok.value e.source e.destination e.name)
  | true, some _ => False

/-- A line of the answer: the reference and the error. -/
def readEdge (line : Bytes) : Option (Bytes × Bytes) :=
  match readJson line with
  | some (.obj [(k1, .str ref), (k2, .str err)], [10]) =>
    if k1 = "Ref".toUTF8.toList ∧ k2 = "Err".toUTF8.toList then some (ref, err) else none
  | _ => none

/-- What a line says. -/
def LineSays (blockText : BlockErr → Bytes) (w : RefsWish) : Refs.Item → Bytes → Prop
  | .edge e, line => ∃ text, WrittenEdge w.edges w.format e text ∧ readEdge line = some (text, [])
  | .blockErr x, line => readEdge line = some ([], blockText x)
  | .notFound _, _ => False

/-- A line for each. -/
def LinesSay (blockText : BlockErr → Bytes) (w : RefsWish) : List Refs.Item → List Bytes → Prop
  | [], [] => True
  | i :: is, l :: ls => LineSays blockText w i l ∧ LinesSay blockText w is ls
  | _, _ => False

/-- All edges, or the first to every destination. -/
def keptEdges (unique : Bool) (l : List Refs.Edge) : List Refs.Edge := if unique then firstTo [] l else l

/-- What is to be listed: up to the depth, or until there is nothing more. -/
def ToList (look : Cid → Refs.Look) (roots : List (Cid × List (Option Bytes × Cid))) (w : RefsWish) (items : List Refs.Item) : Prop :=
  match w.depth with
  | some d => items = (keptEdges w.unique (edgesBelow look roots d)).flatMap (shownEdge look)
  | none => ∃ N, ∀ n, N ≤ n → items = (keptEdges w.unique (edgesBelow look roots n)).flatMap (shownEdge look)

/-- The blocks of a node as `refs` sees them (`C38_order`, `C38_others`). -/
def servedLook (s : Served) : Cid → Refs.Look := Refs.look s.env s.size s.fetch

/-- No dag-pb block has a link called "/". -/
def SlashFree (s : Served) : Prop :=
  ∀ c data n, c.codec = codecDagPb → s.fetch c = some data → DagPbNode.ofBytes data = some n →
    ∀ l ∈ n.links, l.name ≠ "/".toUTF8.toList

/-- The format is one. -/
def FormatOk (w : RefsWish) : Prop := (w.edges = true → w.format = none) ∧ ∀ f, w.format = some f → ∃ ts, IsFmt f ts

/-! ### Helpers: the query -/

theorem askedDepth_eq {D : Type} (o : RefsOptions.RefsOptions D) (r : Option Bool) (h : o.recursive = r.getD false) :
    o.depth = askedDepth r o.maxDepth := by
  unfold RefsOptions.RefsOptions.depth askedDepth
  rw [h]
  cases r with
  | none => rfl
  | some b =>
    cases b with
    | false => rfl
    | true =>
      simp only [Option.getD_some, if_true]
      cases o.maxDepth with
      | none => rfl
      | some x => cases x <;> simp

theorem refsAsked_iff (q : QueryEnv) (query : Bytes) (w : RefsWish) :
    RefsAsked q query w ↔ ∃ o, RefsOptions.parse q.duration (formPairs q.lossy query) = .ok o ∧ o.arg = w.args ∧
      o.format = w.format ∧ o.timeout = w.timeout ∧ o.depth = w.depth ∧ o.edges = w.edges ∧ o.unique = w.unique := by
  constructor
  · rintro ⟨ps, e, u, r, m, h1, h2, h3, h4, h5, h6, h7, h8, h9, h10, h11, h12⟩
    rw [decoded_iff] at h1
    refine ⟨⟨w.args, w.format, w.edges, w.unique, r.getD false, m, w.timeout⟩, ?_, rfl, rfl, rfl, ?_, rfl, rfl⟩
    · rw [C52_parse, h1]
      exact ⟨h2 ▸ h3, h2, h4, h5, h6, ⟨e, h7, h8⟩, ⟨u, h9, h10⟩, ⟨r, h11, rfl⟩⟩
    · rw [h12]; exact askedDepth_eq _ r rfl
  · rintro ⟨o, h, h1, h2, h3, h4, h5, h6⟩
    obtain ⟨g1, g2, g3, g4, g5, ⟨e, g6, g7⟩, ⟨u, g8, g9⟩, ⟨r, g10, g11⟩⟩ := (C52_parse _ _ _).mp h
    refine ⟨_, e, u, r, o.maxDepth, (decoded_iff _ _ _).mpr rfl, ?_, ?_, ?_, ?_, g5, g6, ?_, g8, ?_, g10, ?_⟩
    · rw [← h1, g2]
    · rw [← h1, g2]; exact g1
    · rw [← h2]; exact g3
    · rw [← h3]; exact g4
    · rw [← h5, g7]
    · rw [← h6, g9]
    · rw [← h4]; exact askedDepth_eq o r g11

/-- The request in terms of what is asked for. -/
def refsWish (blockText : BlockErr → Bytes) (mb : UInt8 → Bytes → Option Bytes) (s : Served) (w : RefsWish) : RefsReply :=
  match RefsFormat.fromOptions w.edges w.format with
  | .error e => .failed (.format e)
  | .ok f =>
    match parsePaths mb w.args with
    | .error t => .failed (.path t)
    | .ok paths =>
      if s.timedOut w.timeout then .failed .elapsed
      else
        match refsRoots mb s paths with
        | .failed e => .failed e
        | .panic => .panic
        | .running => .running
        | .ok docs => refsStream blockText s f w.depth w.unique docs

theorem refsRequest_eq {q : QueryEnv} {query : Bytes} {w : RefsWish} (h : RefsAsked q query w) (blockText : BlockErr → Bytes)
    (s : Served) : refsRequest q blockText s (some query) = refsWish blockText q.mb s w := by
  obtain ⟨o, h0, h1, h2, h3, h4, h5, h6⟩ := (refsAsked_iff q query w).mp h
  unfold refsRequest
  simp only [h0]
  unfold refsInner refsWish
  simp only [← h1, ← h2, ← h3, ← h4, ← h5, ← h6]
  cases RefsFormat.fromOptions o.edges o.format with
  | error _ => rfl
  | ok f =>
    dsimp only
    cases parsePaths q.mb o.arg with
    | error _ => rfl
    | ok ps =>
      dsimp only
      by_cases ht : s.timedOut o.timeout = true
      · rw [if_pos ht, if_pos ht]
      · rw [if_neg ht, if_neg ht]
        cases refsRoots q.mb s ps <;> rfl

theorem asked_depth {q : QueryEnv} {query : Bytes} {w : RefsWish} (h : RefsAsked q query w) :
    ∀ d, w.depth = some d → d + 1 < 2 ^ 64 := by
  obtain ⟨o, h0, h1, h2, h3, h4, h5, h6⟩ := (refsAsked_iff q query w).mp h
  intro d hd
  exact (C52_depth _ _ o h0).2.2.2 d (h4 ▸ hd)

theorem asked_format {q : QueryEnv} (hl : ∀ x, utf8Ok (q.lossy x) = true) {query : Bytes} {w : RefsWish}
    (h : RefsAsked q query w) : ∀ f, w.format = some f → utf8Ok f = true := by
  obtain ⟨ps, e, u, r, m, h1, h2, h3, h4, -⟩ := h
  intro f hf
  rw [decoded_iff] at h1
  rcases h4 with ⟨-, h4⟩ | ⟨v, a, h4, h5, h6⟩
  · rw [hf] at h4; cases h4
  · cases h5
    rw [hf] at h6
    cases h6
    have : f ∈ given "format" ps := by rw [h4]; simp
    unfold given at this
    obtain ⟨x, hx, hy⟩ := List.mem_filterMap.mp this
    split at hy
    · cases hy
      rw [← h1] at hx
      unfold formPairs at hx
      obtain ⟨p, -, rfl⟩ := List.mem_map.mp hx
      exact hl _
    · cases hy

/-! ### Helpers: texts -/

theorem msg_inv {σ : Type} (step : σ → Nat → WireVal → Option σ) (P : σ → Prop)
    (h : ∀ s n v s', P s → step s n v = some s' → P s') : ∀ (bs : Bytes) (s s' : σ), P s → Prost.msg step s bs = some s' → P s' := by
  intro bs s
  fun_induction Prost.msg step s bs with
  | case1 s => intro s' hp hm; cases hm; exact hp
  | case2 => intro s' hp hm; cases hm
  | case3 => intro s' hp hm; cases hm
  | case4 s bs hb n v r hr s1 hs ih => intro s' hp hm; exact ih s' (h _ _ _ _ hp hs) hm

theorem linkNames_utf8 {data : Bytes} {n : DagPbNode} (h : DagPbNode.ofBytes data = some n) : ∀ l ∈ n.links, utf8Ok l.name = true := by
  unfold DagPbNode.ofBytes at h
  obtain ⟨m, h1, h2⟩ := Option.bind_eq_some_iff.mp h
  obtain ⟨links, h3, rfl⟩ := Option.map_eq_some_iff.mp h2
  have hm : ∀ l ∈ m.links, utf8Ok l.name = true := by
    refine msg_inv PbNodeMsg.step (fun m => ∀ l ∈ m.links, utf8Ok l.name = true) ?_ data {} m (by simp) h1
    intro a k v a' ha hs
    unfold PbNodeMsg.step at hs
    split at hs
    · cases hs; exact ha
    · obtain ⟨l, hl, rfl⟩ := Option.map_eq_some_iff.mp hs
      intro x hx
      rcases List.mem_append.mp hx with hx | hx
      · exact ha x hx
      · simp only [List.mem_singleton] at hx
        subst hx
        refine msg_inv PbLinkMsg.step (fun l => utf8Ok l.name = true) ?_ _ _ _ (by decide +kernel) hl
        intro b k v b' hb hs
        unfold PbLinkMsg.step at hs
        split at hs
        all_goals first
          | cases hs; exact hb
          | (split at hs
             · rename_i hu; cases hs; exact hu
             · cases hs)
          | cases hs
    all_goals first
      | cases hs; exact ha
      | cases hs
  clear h h1 h2
  obtain ⟨ml, d⟩ := m
  simp only [] at h3 hm ⊢
  clear d
  induction ml generalizing links with
  | nil => simp only [List.mapM_nil] at h3; cases h3; simp
  | cons a ml ih =>
    simp only [List.mapM_cons, Option.bind_eq_bind, Option.pure_def] at h3
    obtain ⟨x, hx, h4⟩ := Option.bind_eq_some_iff.mp h3
    obtain ⟨xs, hxs, h5⟩ := Option.bind_eq_some_iff.mp h4
    cases h5
    unfold DagPbLink.ofMsg at hx
    obtain ⟨c, -, rfl⟩ := Option.map_eq_some_iff.mp hx
    intro l hl
    rcases List.mem_cons.mp hl with rfl | hl
    · exact hm a (by simp)
    · exact ih xs hxs (fun y hy => hm y (by simp [hy])) l hl

theorem utf8Ok_nil : utf8Ok [] = true := by decide +kernel

theorem blockLinks_utf8 {e : Env} {size : Nat} {c : Cid} {data : Bytes} {ls : List (Option Bytes × Cid)}
    (h : BlockLinks e size c data ls) : ∀ l ∈ ls, utf8Ok (l.1.getD []) = true := by
  unfold BlockLinks at h
  split at h
  · obtain ⟨n, h1, rfl⟩ := h
    intro l hl
    obtain ⟨x, hx, rfl⟩ := List.mem_map.mp hl
    exact linkNames_utf8 h1 x hx
  · obtain ⟨doc, -, rfl⟩ := h
    intro l hl
    obtain ⟨x, hx, rfl⟩ := List.mem_map.mp hl
    exact utf8Ok_nil

theorem nodeLinks_utf8 {s : Served} {node : Node} {x : Cid × List (Option Bytes × Cid)} (h : NodeLinks s node (some x)) :
    ∀ l ∈ x.2, utf8Ok (l.1.getD []) = true := by
  cases h with
  | block hb => exact blockLinks_utf8 hb
  | value _ =>
    intro l hl
    obtain ⟨y, hy, rfl⟩ := List.mem_map.mp hl
    exact utf8Ok_nil

theorem listed_utf8 {N : Bytes → Bytes → Cid → Prop} {mb : UInt8 → Bytes → Option Bytes} {s : Served} {ts : List Bytes}
    {roots : List (Cid × List (Option Bytes × Cid))} (h : ListedRoots N mb s ts roots) :
    ∀ r ∈ roots, ∀ l ∈ r.2, utf8Ok (l.1.getD []) = true := by
  induction h with
  | nil => simp
  | @cons t ts path c segs pos last node x roots h1 h2 h3 h4 hx _ ih =>
    intro r hr
    rcases List.mem_append.mp hr with hr | hr
    · cases x with
      | none => simp at hr
      | some y =>
        simp only [Option.toList_some, List.mem_singleton] at hr
        subst hr
        exact nodeLinks_utf8 hx
    · exact ih r hr

theorem found_utf8 {s : Served} {roots : List (Cid × List (Option Bytes × Cid))}
    (hr : ∀ r ∈ roots, ∀ l ∈ r.2, utf8Ok (l.1.getD []) = true) {n : Nat} {e : Refs.Edge}
    (h : FoundAt (servedLook s) roots n e) : utf8Ok (e.name.getD []) = true := by
  cases h with
  | root h1 h2 => exact hr _ h1 _ h2
  | step h1 h2 h3 =>
    obtain ⟨data, -, hb, -⟩ := (C38_order _ _ _ _ _).mp h2
    exact blockLinks_utf8 hb _ h3

theorem parseGo_utf8 {s : Bytes} {index : Nat} {buffer : Bytes} {ps : List RefsFormat.Part}
    (h : RefsFormat.parseGo s index buffer = .ok ps) (hu : utf8Ok (buffer ++ s) = true) :
    ∀ b, RefsFormat.Part.static b ∈ ps → utf8Ok b = true := by
  have hflush : ∀ buf b, RefsFormat.Part.static b ∈ RefsFormat.flush buf → b = buf := by
    intro buf b hb
    unfold RefsFormat.flush at hb
    split at hb
    · cases hb
    · simpa using hb
  fun_induction RefsFormat.parseGo s index buffer generalizing ps with
  | case1 index buffer =>
    cases h
    intro b hb
    rw [hflush _ _ hb]
    simpa using hu
  | case2 => cases h
  | case3 => cases h
  | case4 => cases h
  | case5 index buffer s inside rest hcut p hp ps' hps ih =>
    cases h
    obtain ⟨h1, h2⟩ := cutTag_some hcut
    obtain ⟨u1, u2⟩ := utf8Ok_cut (by decide) hu
    rw [h1] at u2
    obtain ⟨-, u3⟩ := utf8Ok_cut (by decide) u2
    intro b hb
    rcases List.mem_append.mp hb with hb | hb
    · rw [hflush _ _ hb]; exact u1
    · rcases List.mem_cons.mp hb with hb | hb
      · subst hb
        unfold RefsFormat.tagPart at hp
        split at hp
        · cases hp
        · split at hp
          · cases hp
          · split at hp <;> cases hp
      · exact ih hps (by simpa using u3) b hb
  | case6 index buffer b s hb ih =>
    exact ih h (by simpa using hu)

theorem utf8Ok_flatMap {α : Type} (f : α → Bytes) (l : List α) (h : ∀ x ∈ l, utf8Ok (f x) = true) : utf8Ok (l.flatMap f) = true := by
  induction l with
  | nil => exact utf8Ok_nil
  | cons a l ih =>
    rw [List.flatMap_cons, utf8Ok_append (h a (by simp))]
    exact ih (fun x hx => h x (by simp [hx]))

/-- What the formatter of the code writes is as specified, and text. -/
theorem render_written {w : RefsWish} {f : RefsFormat.Formatter} (hf : RefsFormat.fromOptions w.edges w.format = .ok f)
    (hu : ∀ x, w.format = some x → utf8Ok x = true) (e : Refs.Edge) (hn : utf8Ok (e.name.getD []) = true) :
    WrittenEdge w.edges w.format e (f.render e.source e.destination e.name) ∧
      utf8Ok (f.render e.source e.destination e.name) = true := by
  unfold WrittenEdge
  cases hfmt : w.format with
  | none =>
    rw [(C51_options w.edges w.format).2.1 hfmt] at hf
    cases he : w.edges with
    | false =>
      rw [he] at hf; cases hf
      exact ⟨rfl, utf8Ok_toText _⟩
    | true =>
      rw [he] at hf; cases hf
      have : " -> ".toUTF8.toList = [0x20, 0x2D, 0x3E, 0x20] := by decide +kernel
      refine ⟨by simp only [this]; rfl, ?_⟩
      show utf8Ok (e.source.toText ++ [0x20, 0x2D, 0x3E, 0x20] ++ e.destination.toText) = true
      rw [List.append_assoc, utf8Ok_append (utf8Ok_toText _), utf8Ok_append (by decide +kernel)]
      exact utf8Ok_toText _
  | some x =>
    cases he : w.edges with
    | true =>
      rw [(C51_options w.edges w.format).2.2.1 he (by rw [hfmt]; simp)] at hf
      cases hf
    | false =>
      cases hp : RefsFormat.parseFormat x with
      | error er =>
        rw [(C51_options w.edges w.format).2.2.2 er x hfmt he hp] at hf
        cases hf
      | ok ps =>
        rw [(C51_options w.edges w.format).1 ps x hfmt he hp] at hf
        cases hf
        obtain ⟨g1, g2⟩ := C51_accepted x
        obtain ⟨ts, hts⟩ := g1.mp ⟨ps, hp⟩
        refine ⟨⟨ts, hts, g2 ps ts hp hts _ _ _⟩, ?_⟩
        refine utf8Ok_flatMap _ _ ?_
        intro p hpm
        cases p with
        | static b => exact parseGo_utf8 hp (by simpa using hu x hfmt) b hpm
        | source => exact utf8Ok_toText _
        | destination => exact utf8Ok_toText _
        | linkName => exact hn

theorem format_iff (w : RefsWish) : (∃ f, RefsFormat.fromOptions w.edges w.format = .ok f) ↔ FormatOk w := by
  unfold FormatOk
  cases hfmt : w.format with
  | none =>
    constructor
    · intro _; simp
    · intro _; exact ⟨_, (C51_options w.edges none).2.1 rfl⟩
  | some x =>
    cases he : w.edges with
    | true =>
      rw [(C51_options true (some x)).2.2.1 rfl (by simp)]
      simp
    | false =>
      simp only [Bool.false_eq_true, false_implies, Option.some.injEq, forall_eq', true_and]
      rw [← (C51_accepted x).1]
      cases hp : RefsFormat.parseFormat x with
      | error er => rw [(C51_options false (some x)).2.2.2 er x rfl rfl hp]; simp
      | ok ps => rw [(C51_options false (some x)).1 ps x rfl rfl hp]; simp

theorem readEdge_write {ref err : Bytes} (h1 : utf8Ok ref = true) (h2 : utf8Ok err = true) :
    readEdge ((edgeObject ref err).write ++ [10]) = some (ref, err) := by
  have hw : Writable (edgeObject ref err) := ⟨by decide +kernel, h1, by decide +kernel, h2, trivial⟩
  have : readJson ((edgeObject ref err).write ++ [10]) = some (edgeObject ref err, [10]) := by
    rw [C65_write _ hw [10] (fun n hn => by cases hn), if_pos (by simp [edgeObject, nesting, nestingMap])]
  unfold readEdge
  rw [this]
  simp [edgeObject]

theorem lines_say {blockText : BlockErr → Bytes} (hb : ∀ x, utf8Ok (blockText x) = true) {w : RefsWish} {f : RefsFormat.Formatter}
    (hf : RefsFormat.fromOptions w.edges w.format = .ok f) (hu : ∀ x, w.format = some x → utf8Ok x = true)
    (items : List Refs.Item) (h1 : ∀ c, .notFound c ∉ items) (h2 : ∀ e, .edge e ∈ items → utf8Ok (e.name.getD []) = true) :
    LinesSay blockText w items (items.map (edgeLine blockText f)) := by
  induction items with
  | nil => trivial
  | cons i is ih =>
    refine ⟨?_, ih (fun c hc => h1 c (by simp [hc])) (fun e he => h2 e (by simp [he]))⟩
    cases i with
    | edge e =>
      obtain ⟨g1, g2⟩ := render_written hf hu e (h2 e (by simp))
      exact ⟨_, g1, readEdge_write g2 utf8Ok_nil⟩
    | blockErr x => exact readEdge_write utf8Ok_nil (hb x)
    | notFound c => exact absurd (by simp) (h1 c)

/-! ### Helpers: the documents named -/

theorem leads_parsed {mb : UInt8 → Bytes → Option Bytes} {txt : Txt} {t : Bytes} {path p : IpfsPath}
    (hp : IpfsPath.parse mb t = some path) (h : Leads mb txt path p) : ∃ t', IpfsPath.parse mb t' = some p := by
  induction h with
  | refl => exact ⟨t, hp⟩
  | step _ hn ih =>
    cases hn with
    | ipld => exact ih
    | own hr => obtain ⟨_, s, _, _, _, _, h⟩ := hr; exact ⟨s, h⟩
    | sub _ _ hr => obtain ⟨_, s, _, _, _, _, h⟩ := hr; exact ⟨s, h⟩

theorem inside_codec {G : Graph} {c : Cid} {segs last : List Bytes} {pos : Pos} (h : Steps (Inside G) (.doc c) segs pos last) :
    ∀ c' v, pos = .value c' v → c'.codec ≠ codecDagPb := by
  have key : ∀ p a q b, Steps (Inside G) p a q b → (∀ c' v, p = .value c' v → c'.codec ≠ codecDagPb) →
      ∀ c' v, q = .value c' v → c'.codec ≠ codecDagPb := by
    intro p a q b h
    induction h with
    | refl => intro h; exact h
    | step hs _ ih =>
      intro hp
      refine ih ?_
      intro c' v hv
      cases hs with
      | enter _ hc _ => cases hv; exact hc
      | key _ => cases hv; exact hp _ _ rfl
      | index _ _ => cases hv; exact hp _ _ rfl
  exact key _ _ _ _ h (by intro c' v hv; cases hv)

/-- The links of a document, when there is no "/". -/
theorem rootDoc_ok {s : Served} (hs : SlashFree s) {node : Node} {c : Cid} {d : Ipld} (h : rootDoc s.env s.size node = .doc c d)
    (hf : ∀ data, node = .block c data → s.fetch c = some data) (hv : ∀ v, node = .projection c v → c.codec ≠ codecDagPb) :
    ∃ ls, NodeLinks s node (some (c, ls)) ∧ Refs.ipldLinks c d = some ls := by
  cases node with
  | dagPbData a b => cases h
  | link a b => cases h
  | block a data =>
    cases hd : decodeIpld s.env s.size a data with
    | error x => simp only [rootDoc, hd] at h; cases h
    | ok d' =>
      simp only [rootDoc, hd] at h
      cases h
      obtain ⟨g1, g2⟩ := ipldLinks_decoded hd
      cases hl : Refs.ipldLinks c d with
      | none =>
        obtain ⟨hc, n, hn, l, hm, hx⟩ := g2.mp hl
        refine absurd ?_ (hs c data n hc (hf data rfl) hn l hm)
        rw [hx]; decide +kernel
      | some ls => exact ⟨ls, .block ((g1 ls).mp hl).1, rfl⟩
  | projection a v =>
    cases h
    have hc := hv _ rfl
    exact ⟨_, .value hc, ipldLinks_other hc _⟩

theorem refsRoots_ok {mb : UInt8 → Bytes → Option Bytes} {s : Served} (hs : SlashFree s) : ∀ (ts : List Bytes) (ps : List IpfsPath)
    (docs : List (Cid × Ipld)), parsePaths mb ts = .ok ps → refsRoots mb s ps = .ok docs →
    ∃ roots, ListedRoots (Named s.fetch) mb s ts roots ∧ rootLinks docs = some roots := by
  intro ts
  induction ts with
  | nil =>
    intro ps docs h1 h2
    cases h1
    cases h2
    exact ⟨[], .nil, rfl⟩
  | cons t ts ih =>
    intro ps docs h1 h2
    unfold parsePaths at h1
    cases hp : IpfsPath.parse mb t with
    | none => rw [hp] at h1; cases h1
    | some path =>
      rw [hp] at h1
      cases hps : parsePaths mb ts with
      | error x => simp only [hps] at h1; cases h1
      | ok ps' =>
        simp only [hps] at h1
        cases h1
        unfold refsRoots at h2
        cases hr : resolveNode mb s true path with
        | none => rw [hr] at h2; cases h2
        | some r =>
          rw [hr] at h2
          cases r with
          | error e =>
            exfalso
            split at h2 <;> first | cases h2 | skip
            all_goals rename_i hx; cases hx
          | ok r =>
            obtain ⟨node, rem⟩ := r
            simp only [] at h2
            obtain ⟨c, segs, hl, hd⟩ := resolveNode_ok hr
            obtain ⟨t', ht'⟩ := leads_parsed hp hl
            have hseg := C19_parsed mb t' _ ht'
            obtain ⟨c1, mid, pos, last, g1, g2, g3, g4, -⟩ :=
              C20_follow (servedGraph s) s.fuel c segs rem node (fun x hx => (hseg x hx).1) hd
            have hsteps : Steps (Taking (servedGraph s) (Named s.fetch)) (.doc c) segs pos last := g1.trans g2.inside
            cases hdoc : rootDoc s.env s.size node with
            | panic => rw [hdoc] at h2; cases h2
            | failed e => rw [hdoc] at h2; cases h2
            | noLinks =>
              rw [hdoc] at h2
              obtain ⟨roots, k1, k2⟩ := ih ps' docs hps h2
              refine ⟨roots, ?_, k2⟩
              have hx : NodeLinks s node none := by
                cases node with
                | dagPbData a b => exact .data
                | link a b => cases hdoc
                | projection a b => cases hdoc
                | block a b =>
                  cases hd : decodeIpld s.env s.size a b <;> (simp only [rootDoc, hd] at hdoc; cases hdoc)
              exact .cons (x := none) hp hl hsteps g4 hx k1
            | doc c' d =>
              rw [hdoc] at h2
              simp only [] at h2
              cases hrest : refsRoots mb s ps' with
              | failed e => rw [hrest] at h2; cases h2
              | panic => rw [hrest] at h2; cases h2
              | running => rw [hrest] at h2; cases h2
              | ok docs' =>
                rw [hrest] at h2
                cases h2
                obtain ⟨roots, k1, k2⟩ := ih ps' docs' hps hrest
                obtain ⟨ls, m1, m2⟩ := rootDoc_ok hs hdoc
                  (by rintro data rfl; cases g4; assumption)
                  (by rintro v rfl; cases g4; exact inside_codec g2 _ _ rfl)
                refine ⟨(c', ls) :: roots, .cons (x := some (c', ls)) hp hl hsteps g4 m1 k1, ?_⟩
                simp [rootLinks, m2, k2]

theorem refsRoots_failed {mb : UInt8 → Bytes → Option Bytes} {s : Served} : ∀ (ps : List IpfsPath) (e : RefsFail),
    refsRoots mb s ps = .failed e → (∃ x, e = .resolving x) ∨ ∃ c, e = .document c := by
  intro ps
  induction ps with
  | nil => intro e h; cases h
  | cons p ps ih =>
    intro e h
    unfold refsRoots at h
    split at h
    · cases h
    · cases h
    · cases h; exact Or.inl ⟨_, rfl⟩
    · split at h
      · cases h
      · rename_i node _ _ _ _ hd
        cases h
        cases node with
        | dagPbData a b => cases hd
        | link a b => cases hd
        | projection a b => cases hd
        | block a b =>
          cases hx : decodeIpld s.env s.size a b <;> (simp only [rootDoc, hx] at hd; cases hd)
          exact Or.inr ⟨_, rfl⟩
      · exact ih e h
      · cases hr : refsRoots mb s ps with
        | ok l => rw [hr] at h; cases h
        | failed e' => rw [hr] at h; cases h; exact ih e hr
        | panic => rw [hr] at h; cases h
        | running => rw [hr] at h; cases h

theorem served_calm {s : Served} (hs : SlashFree s) (roots : List (Cid × List (Option Bytes × Cid))) :
    RefsCalm (servedLook s) roots := by
  intro n e _ hp
  obtain ⟨data, n, h1, h2, h3, l, h4, h5⟩ := (C38_others _ _ _ _).2.2.mp hp
  exact hs _ data n h2 h1 h3 l h4 h5

theorem edgesBelow_stop {look : Cid → Refs.Look} {roots : List (Cid × List (Option Bytes × Cid))} {N : Nat}
    (h : edgeLevel look roots N = []) (k : Nat) : edgesBelow look roots (N + k) = edgesBelow look roots N := by
  induction k with
  | zero => rfl
  | succ k ih => rw [← Nat.add_assoc, edgesBelow_succ, ih, edgeLevel_nil h _ (by omega), List.append_nil]

theorem refs_list {s : Served} {roots : List (Cid × List (Option Bytes × Cid))} (hc : RefsCalm (servedLook s) roots) {w : RefsWish}
    (hd : ∀ d, w.depth = some d → d + 1 < 2 ^ 64) {items : List Refs.Item} {ending : Refs.Ending}
    (h : Refs.refs ⟨w.depth, w.unique, true, s.debug⟩ (servedLook s) s.fuel roots = some (items, ending)) :
    ending = .done ∧ ToList (servedLook s) roots w items := by
  unfold ToList keptEdges
  cases hu : w.unique with
  | true =>
    obtain ⟨g1, g2, g3⟩ := C38_unique_order ⟨w.depth, w.unique, true, s.debug⟩ _ roots s.fuel hu rfl hd hc items ending h
    refine ⟨g1, ?_⟩
    cases hdep : w.depth with
    | some d => exact g2 d hdep
    | none => exact g3 hdep
  | false =>
    cases hdep : w.depth with
    | some d =>
      obtain ⟨g1, g2⟩ := C39_levels ⟨w.depth, w.unique, true, s.debug⟩ _ roots s.fuel d hu rfl hdep (hd d hdep) hc items ending h
      refine ⟨g1, ?_⟩
      simp only [Bool.false_eq_true, if_false]
      rw [g2, edgesBelow, List.flatMap_assoc]
    | none =>
      obtain ⟨g1, N, g2, g3⟩ := C38_all ⟨w.depth, w.unique, true, s.debug⟩ _ roots s.fuel hu rfl hdep hc items ending h
      refine ⟨g1, N, fun n hn => ?_⟩
      obtain ⟨k, rfl⟩ : ∃ k, n = N + k := ⟨n - N, by omega⟩
      simp only [Bool.false_eq_true, if_false]
      rw [edgesBelow_stop g2, g3, edgesBelow, List.flatMap_assoc]

theorem toList_items {look : Cid → Refs.Look} {roots : List (Cid × List (Option Bytes × Cid))} {w : RefsWish} {items : List Refs.Item}
    (h : ToList look roots w items) : (∀ c, .notFound c ∉ items) ∧ ∀ e, .edge e ∈ items → ∃ n, FoundAt look roots n e := by
  obtain ⟨n, hn⟩ : ∃ n, items = (keptEdges w.unique (edgesBelow look roots n)).flatMap (shownEdge look) := by
    unfold ToList at h
    split at h
    · exact ⟨_, h⟩
    · obtain ⟨N, hN⟩ := h
      exact ⟨N, hN N (Nat.le_refl _)⟩
  have hshow : ∀ x i, i ∈ shownEdge look x → (∀ c, i ≠ .notFound c) ∧ ∀ e, i = .edge e → e = x := by
    intro x i hi
    unfold shownEdge at hi
    split at hi
    · simp only [List.mem_singleton] at hi
      subst hi
      exact ⟨by simp, fun e he => by cases he; rfl⟩
    · simp only [List.mem_singleton] at hi
      subst hi
      exact ⟨by simp, fun e he => by cases he⟩
    · cases hi
  subst hn
  constructor
  · intro c hc
    obtain ⟨x, -, hx⟩ := List.mem_flatMap.mp hc
    exact (hshow x _ hx).1 c rfl
  · intro e he
    obtain ⟨x, hm, hx⟩ := List.mem_flatMap.mp he
    obtain rfl := (hshow x _ hx).2 e rfl
    have : e ∈ edgesBelow look roots n := by
      unfold keptEdges at hm
      split at hm
      · exact firstTo_sub _ hm
      · exact hm
    obtain ⟨m, -, hm⟩ := mem_edgesBelow.mp this
    exact ⟨m, (mem_edgeLevel _ _ _ _).mp hm⟩

/-! ### C71 -/

/-- **C71**: which queries `refs` accepts; there has to be one. -/
theorem C71_refs_query (q : QueryEnv) (blockText : BlockErr → Bytes) (s : Served) :
    refsRequest q blockText s none = .failed .badQuery ∧
    ∀ query, (∃ e, refsRequest q blockText s (some query) = .failed (.options e)) ↔ ¬ ∃ w, RefsAsked q query w := by
  refine ⟨rfl, fun query => ?_⟩
  constructor
  · rintro ⟨e, h⟩ ⟨w, hw⟩
    obtain ⟨o, h0, -⟩ := (refsAsked_iff q query w).mp hw
    simp only [refsRequest, h0, refsInner] at h
    split at h
    · cases h
    · split at h
      · cases h
      · split at h
        · cases h
        · split at h <;> try cases h
          · rename_i hx
            rcases refsRoots_failed _ _ hx with ⟨_, hx⟩ | ⟨_, hx⟩ <;> cases hx
          · unfold refsStream at h
            split at h
            · cases h
            · split at h <;> cases h
  · intro hn
    cases hp : RefsOptions.parse q.duration (formPairs q.lossy query) with
    | error e => exact ⟨e, by simp [refsRequest, hp]⟩
    | ok o => exact absurd ⟨⟨o.arg, o.format, o.timeout, o.depth, o.edges, o.unique⟩,
        (refsAsked_iff q query _).mpr ⟨o, hp, rfl, rfl, rfl, rfl, rfl, rfl⟩⟩ hn

/-- **C71**: the lines answered are, for the documents that the paths lead to, the links up to the depth asked for in the
form asked for, level by level, each of them, or with `unique` the first to every block; with an error in the place of links
to blocks that cannot be decoded, and nothing for those to blocks that are not there. -/
theorem C71_refs (q : QueryEnv) (hl : ∀ x, utf8Ok (q.lossy x) = true) (blockText : BlockErr → Bytes)
    (hb : ∀ x, utf8Ok (blockText x) = true) (s : Served) (hs : SlashFree s) (query : Bytes) (w : RefsWish)
    (hq : RefsAsked q query w) (lines : List Bytes) (ending : Refs.Ending)
    (h : refsRequest q blockText s (some query) = .stream lines ending) :
    ending = .done ∧ ∃ roots items, ListedRoots (Named s.fetch) q.mb s w.args roots ∧ ToList (servedLook s) roots w items ∧
      LinesSay blockText w items lines := by
  rw [refsRequest_eq hq] at h
  unfold refsWish at h
  cases hf : RefsFormat.fromOptions w.edges w.format with
  | error x => rw [hf] at h; cases h
  | ok f =>
    simp only [hf] at h
    cases hp : parsePaths q.mb w.args with
    | error x => rw [hp] at h; cases h
    | ok ps =>
      simp only [hp] at h
      split at h
      · cases h
      · cases hr : refsRoots q.mb s ps with
        | failed e => rw [hr] at h; cases h
        | panic => rw [hr] at h; cases h
        | running => rw [hr] at h; cases h
        | ok docs =>
          simp only [hr] at h
          obtain ⟨roots, h1, h2⟩ := refsRoots_ok hs _ _ _ hp hr
          have hc := served_calm hs roots
          have hroots : ∀ r, (if w.depth = some 0 then some [] else rootLinks docs) = some r →
              Refs.refs ⟨w.depth, w.unique, true, s.debug⟩ (servedLook s) s.fuel r =
              Refs.refs ⟨w.depth, w.unique, true, s.debug⟩ (servedLook s) s.fuel roots := by
            intro r hr
            split at hr
            · rename_i h0
              simp only [Refs.refs, h0, if_true]
            · rw [h2] at hr; cases hr; rfl
          unfold refsStream at h
          split at h
          · cases h
          · rename_i r hx
            have he := hroots r hx
            unfold servedLook at he
            rw [he] at h
            split at h
            · cases h
            · rename_i items ending' hi
              cases h
              obtain ⟨g1, g2⟩ := refs_list hc (asked_depth hq) hi
              obtain ⟨k1, k2⟩ := toList_items g2
              refine ⟨g1, roots, items, h1, g2, lines_say hb hf (asked_format hl hq) items k1 ?_⟩
              intro e he
              obtain ⟨n, hn⟩ := k2 e he
              exact found_utf8 (listed_utf8 h1) hn

/-! ### Helpers: answers -/

theorem nodeLinks_doc {s : Served} (hs : SlashFree s) {pos : Pos} {last : List Bytes} {node : Node}
    {x : Option (Cid × List (Option Bytes × Cid))} (he : Ends (servedGraph s) pos last node) (h : NodeLinks s node x) :
    match x with
    | none => rootDoc s.env s.size node = .noLinks
    | some (c, ls) => ∃ d, rootDoc s.env s.size node = .doc c d ∧ Refs.ipldLinks c d = some ls := by
  cases h with
  | data => rfl
  | @block c data ls hb =>
    cases he with
    | block hf =>
      have hl : ∀ hc : c.codec = codecDagPb, ∀ l ∈ ls, l.1 ≠ some "/".toUTF8.toList := by
        intro hc l hl
        unfold BlockLinks at hb
        rw [if_pos hc] at hb
        obtain ⟨n, hn, rfl⟩ := hb
        obtain ⟨y, hy, rfl⟩ := List.mem_map.mp hl
        intro hx
        exact hs c data n hc hf hn y hy (Option.some.inj hx)
      have := (C38_order s.env s.size s.fetch c ls).mpr ⟨data, hf, hb, hl⟩
      unfold Refs.look at this
      have hf' : s.fetch c = some data := hf
      simp only [hf'] at this
      cases hd : decodeIpld s.env s.size c data with
      | error e => simp only [hd] at this; cases this
      | ok d =>
        simp only [hd] at this
        cases hi : Refs.ipldLinks c d with
        | none => simp only [hi] at this; cases this
        | some ls' =>
          simp only [hi] at this
          cases this
          exact ⟨d, by simp [rootDoc, hd], hi⟩
  | value hc => exact ⟨_, rfl, ipldLinks_other hc _⟩

theorem refsRoots_listed {mb : UInt8 → Bytes → Option Bytes} {s : Served} (hs : SlashFree s) (sets : List (List Bytes))
    (hfin : FinitelyMany s.txt sets) {ts : List Bytes} {roots : List (Cid × List (Option Bytes × Cid))}
    (h : ListedRoots (NamedOp s.fetch) mb s ts roots) :
    ∃ ps, parsePaths mb ts = .ok ps ∧ ∃ f0, ∀ fuel, f0 ≤ fuel →
      ∃ docs, refsRoots mb { s with fuel := fuel } ps = .ok docs ∧ rootLinks docs = some roots := by
  induction h with
  | nil => exact ⟨[], rfl, 0, fun _ _ => ⟨[], rfl, rfl⟩⟩
  | @cons t ts path c segs pos last node x roots h1 h2 h3 h4 h5 _ ih =>
    obtain ⟨ps, hps, f0, hf0⟩ := ih
    refine ⟨path :: ps, by simp [parsePaths, h1, hps], ?_⟩
    obtain ⟨t', ht'⟩ := leads_parsed h1 h2
    have hseg := C19_parsed mb t' _ ht'
    obtain ⟨f1, hf1⟩ := C20_reached (servedGraph s) c segs last pos node (fun x hx => (hseg x hx).1) h3 h4
    refine ⟨f0 + f1 + sets.length + 3, fun fuel hf => ?_⟩
    obtain ⟨docs, g1, g2⟩ := hf0 fuel (by omega)
    obtain ⟨rem, hrem⟩ := hf1 fuel (by omega)
    have hrem' : dagResolve s.env s.size s.fetch true fuel c segs = some (.ok (node, rem)) := hrem
    obtain ⟨r, hr⟩ := C55_terminates mb s.txt sets hfin path fuel (by omega)
    have hc := C55_cid mb s.txt fuel path c segs r hr h2
    subst hc
    have hnode : resolveNode mb { s with fuel := fuel } true path = some (.ok (node, rem)) := by
      unfold resolveNode
      simp only [hr, hrem']
    have hdoc := nodeLinks_doc hs h4 h5
    unfold refsRoots
    simp only [hnode]
    cases x with
    | none =>
      simp only [] at hdoc
      simp only [hdoc]
      exact ⟨docs, g1, g2⟩
    | some y =>
      obtain ⟨c', ls⟩ := y
      obtain ⟨d, k1, k2⟩ := hdoc
      simp only [k1, g1]
      refine ⟨(c', d) :: docs, rfl, ?_⟩
      simp [rootLinks, k2, g2]

theorem refs_fuel_more {o : Refs.Opts} {look : Cid → Refs.Look} {roots : List (Cid × List (Option Bytes × Cid))} {a b : Nat}
    {r : List Refs.Item × Refs.Ending} (hab : a ≤ b) (h : Refs.refs o look a roots = some r) : Refs.refs o look b roots = some r := by
  unfold Refs.refs at h ⊢
  split at h
  · rename_i h0; rw [if_pos h0]; exact h
  · rename_i h0
    rw [if_neg h0]
    obtain ⟨k, rfl⟩ : ∃ k, b = a + k := ⟨b - a, by omega⟩
    clear hab
    induction k with
    | zero => exact h
    | succ k ih => rw [← Nat.add_assoc]; exact loop_more _ _ _ _ ih

theorem refs_ends {look : Cid → Refs.Look} {roots : List (Cid × List (Option Bytes × Cid))} {w : RefsWish} (debug : Bool)
    (hc : RefsCalm look roots) (hd : ∀ d, w.depth = some d → d + 1 < 2 ^ 64)
    (hend : w.depth ≠ none ∨
      (w.unique = true ∧ ∃ U : List Cid, (∀ r ∈ roots, ∀ l ∈ r.2, l.2 ∈ U) ∧
        ∀ c ∈ U, ∀ ls, look c = .links ls → ∀ l ∈ ls, l.2 ∈ U) ∨
      (w.unique = false ∧ ∃ rank : Cid → Nat, ∀ c ls name d, look c = .links ls → (name, d) ∈ ls → rank d < rank c)) :
    ∃ fuel, (Refs.refs ⟨w.depth, w.unique, true, debug⟩ look fuel roots).isSome := by
  cases hdep : w.depth with
  | some d =>
    cases hu : w.unique with
    | true => exact C39_unique_terminates ⟨some d, true, true, debug⟩ look roots d rfl rfl rfl (hd d hdep) hc
    | false => exact C39_terminates ⟨some d, false, true, debug⟩ look roots d rfl rfl rfl (hd d hdep) hc
  | none =>
    rcases hend with h | ⟨hu, U, h1, h2⟩ | ⟨hu, rank, hr⟩
    · exact absurd hdep h
    · rw [hu]; exact C38_unique_terminates ⟨none, true, true, debug⟩ look roots rfl U h1 h2
    · rw [hu]; exact C38_terminates ⟨none, false, true, debug⟩ look roots rfl rfl rfl hc rank hr

/-! ### C71, answers and failures -/

/-- **C71**: if the paths lead to documents, there is an answer with status 200, as long as the listing ends: there is a
limit, or what is below is finite and every block is taken once, or there are no cycles. -/
theorem C71_refs_answers (q : QueryEnv) (blockText : BlockErr → Bytes) (s : Served) (hs : SlashFree s) (query : Bytes)
    (w : RefsWish) (hq : RefsAsked q query w) (hf : FormatOk w) (ht : s.elapses = true → w.timeout = none)
    (sets : List (List Bytes)) (hfin : FinitelyMany s.txt sets) (roots : List (Cid × List (Option Bytes × Cid)))
    (hr : ListedRoots (NamedOp s.fetch) q.mb s w.args roots)
    (hend : w.depth ≠ none ∨
      (w.unique = true ∧ ∃ U : List Cid, (∀ r ∈ roots, ∀ l ∈ r.2, l.2 ∈ U) ∧
        ∀ c ∈ U, ∀ ls, servedLook s c = .links ls → ∀ l ∈ ls, l.2 ∈ U) ∨
      (w.unique = false ∧ ∃ rank : Cid → Nat, ∀ c ls name d, servedLook s c = .links ls → (name, d) ∈ ls → rank d < rank c)) :
    ∃ fuel0, ∀ fuel, fuel0 ≤ fuel → ∃ lines, refsRequest q blockText { s with fuel := fuel } (some query) = .stream lines .done := by
  have hc := served_calm hs roots
  obtain ⟨f, hfm⟩ := (format_iff w).mpr hf
  obtain ⟨ps, hps, f0, hf0⟩ := refsRoots_listed hs sets hfin hr
  obtain ⟨f1, hf1⟩ := refs_ends s.debug hc (asked_depth hq) hend
  obtain ⟨⟨items, ending⟩, hit⟩ := Option.isSome_iff_exists.mp hf1
  refine ⟨f0 + f1, fun fuel hle => ?_⟩
  obtain ⟨docs, g1, g2⟩ := hf0 fuel (by omega)
  have hrefs := refs_fuel_more (b := fuel) (by omega) hit
  have hdone := (refs_list (s := { s with fuel := fuel }) hc (asked_depth hq) hrefs).1
  subst hdone
  refine ⟨items.map (edgeLine blockText f), ?_⟩
  rw [refsRequest_eq hq]
  unfold refsWish
  have hto : ¬ (({ s with fuel := fuel } : Served).timedOut w.timeout = true) := by
    unfold Served.timedOut
    cases ha : s.elapses with
    | false => simp
    | true => simp [ht ha]
  simp only [hfm, hps, g1, if_neg hto]
  unfold refsStream
  have hx : Refs.refs ⟨w.depth, w.unique, true, s.debug⟩ (Refs.look s.env s.size s.fetch) fuel roots = some (items, .done) := hrefs
  by_cases h0 : w.depth = some 0
  · have hx' : ∀ r, Refs.refs ⟨w.depth, w.unique, true, s.debug⟩ (Refs.look s.env s.size s.fetch) fuel r = some (items, .done) := by
      intro r
      rw [← hx]
      simp only [Refs.refs, h0, if_true]
    simp only [if_pos h0, hx']
  · simp only [if_neg h0, g2, hx]

/-- **C71**: how requests fail before anything is listed: a format that is none, the first path that is none, the timeout. -/
theorem C71_refs_fails (q : QueryEnv) (blockText : BlockErr → Bytes) (s : Served) (query : Bytes) (w : RefsWish)
    (hq : RefsAsked q query w) :
    (¬ FormatOk w → ∃ e, refsRequest q blockText s (some query) = .failed (.format e)) ∧
    (FormatOk w →
      (∀ a t b, w.args = a ++ t :: b → (∀ x ∈ a, IpfsPath.parse q.mb x ≠ none) → IpfsPath.parse q.mb t = none →
        refsRequest q blockText s (some query) = .failed (.path t)) ∧
      ((∀ x ∈ w.args, IpfsPath.parse q.mb x ≠ none) → s.elapses = true → w.timeout ≠ none →
        refsRequest q blockText s (some query) = .failed .elapsed)) := by
  rw [refsRequest_eq hq]
  unfold refsWish
  constructor
  · intro hn
    cases hf : RefsFormat.fromOptions w.edges w.format with
    | error e => exact ⟨e, rfl⟩
    | ok f => exact absurd ((format_iff w).mp ⟨f, hf⟩) hn
  · intro hf
    obtain ⟨f, hfm⟩ := (format_iff w).mpr hf
    simp only [hfm]
    have key : ∀ (a b : List Bytes) (t : Bytes), (∀ x ∈ a, IpfsPath.parse q.mb x ≠ none) → IpfsPath.parse q.mb t = none →
        parsePaths q.mb (a ++ t :: b) = .error t := by
      intro a b t ha ht
      induction a with
      | nil => simp [parsePaths, ht]
      | cons x a ih =>
        cases hx : IpfsPath.parse q.mb x with
        | none => exact absurd hx (ha x (by simp))
        | some p => simp [parsePaths, hx, ih (fun y hy => ha y (by simp [hy]))]
    have key' : ∀ l : List Bytes, (∀ x ∈ l, IpfsPath.parse q.mb x ≠ none) → ∃ ps, parsePaths q.mb l = .ok ps := by
      intro l
      induction l with
      | nil => intro _; exact ⟨[], rfl⟩
      | cons x l ih =>
        intro h
        obtain ⟨ps, hps⟩ := ih (fun y hy => h y (by simp [hy]))
        cases hx : IpfsPath.parse q.mb x with
        | none => exact absurd hx (h x (by simp))
        | some p => exact ⟨p :: ps, by simp [parsePaths, hx, hps]⟩
    constructor
    · intro a t b hab ha ht
      rw [hab, key a b t ha ht]
    · intro ha h1 h2
      obtain ⟨ps, hps⟩ := key' _ ha
      have h3 : s.timedOut w.timeout = true := by
        cases hto : w.timeout with
        | none => exact absurd hto h2
        | some _ => simp [Served.timedOut, h1]
      simp only [hps, if_pos h3]

/-- **C71**: the first document that cannot be had is what a request fails with. -/
theorem C71_refs_unresolved (q : QueryEnv) (blockText : BlockErr → Bytes) (s : Served) (query : Bytes) (w : RefsWish)
    (hq : RefsAsked q query w) (e : RefsFail) (h : refsRequest q blockText s (some query) = .failed e) :
    (∃ x, e = .format x ∧ ¬ FormatOk w) ∨ (∃ t ∈ w.args, e = .path t ∧ IpfsPath.parse q.mb t = none) ∨
    (e = .elapsed ∧ s.elapses = true ∧ w.timeout ≠ none) ∨
    ∃ t ∈ w.args, ∃ path, IpfsPath.parse q.mb t = some path ∧
      ((∃ x, e = .resolving x ∧ resolveNode q.mb s true path = some (.error x)) ∨
       ∃ c data rem x, e = .document c ∧ resolveNode q.mb s true path = some (.ok (.block c data, rem)) ∧
         decodeIpld s.env s.size c data = .error x) := by
  rw [refsRequest_eq hq] at h
  unfold refsWish at h
  have key : ∀ (l : List Bytes) (t : Bytes), parsePaths q.mb l = .error t → t ∈ l ∧ IpfsPath.parse q.mb t = none := by
    intro l
    induction l with
    | nil => intro t h; cases h
    | cons x l ih =>
      intro t h
      cases hx : IpfsPath.parse q.mb x with
      | none => simp only [parsePaths, hx] at h; cases h; exact ⟨by simp, hx⟩
      | some p =>
        cases hl : parsePaths q.mb l with
        | error t' =>
          simp only [parsePaths, hx, hl] at h
          cases h
          exact ⟨by simp [(ih t hl).1], (ih t hl).2⟩
        | ok ps => simp only [parsePaths, hx, hl] at h; cases h
  have key' : ∀ (l : List Bytes) (ps : List IpfsPath), parsePaths q.mb l = .ok ps → refsRoots q.mb s ps = .failed e →
      ∃ t ∈ l, ∃ path, IpfsPath.parse q.mb t = some path ∧
      ((∃ x, e = .resolving x ∧ resolveNode q.mb s true path = some (.error x)) ∨
       ∃ c data rem x, e = .document c ∧ resolveNode q.mb s true path = some (.ok (.block c data, rem)) ∧
         decodeIpld s.env s.size c data = .error x) := by
    intro l
    induction l with
    | nil => intro ps h1 h2; cases h1; cases h2
    | cons x l ih =>
      intro ps h1 h2
      cases hx : IpfsPath.parse q.mb x with
      | none => simp only [parsePaths, hx] at h1; cases h1
      | some p =>
        cases hl : parsePaths q.mb l with
        | error t' => simp only [parsePaths, hx, hl] at h1; cases h1
        | ok ps' =>
          simp only [parsePaths, hx, hl] at h1
          cases h1
          have hrec : refsRoots q.mb s ps' = .failed e → ∃ t ∈ x :: l, ∃ path, IpfsPath.parse q.mb t = some path ∧
              ((∃ x, e = .resolving x ∧ resolveNode q.mb s true path = some (.error x)) ∨
               ∃ c data rem x, e = .document c ∧ resolveNode q.mb s true path = some (.ok (.block c data, rem)) ∧
                 decodeIpld s.env s.size c data = .error x) := by
            intro hr
            obtain ⟨t, ht, hp⟩ := ih ps' hl hr
            exact ⟨t, by simp [ht], hp⟩
          unfold refsRoots at h2
          split at h2
          · cases h2
          · cases h2
          · rename_i hr
            cases h2
            exact ⟨x, by simp, p, hx, Or.inl ⟨_, rfl, hr⟩⟩
          · rename_i node rem hr
            split at h2
            · cases h2
            · rename_i hd
              cases h2
              cases node with
              | dagPbData a b => cases hd
              | link a b => cases hd
              | projection a b => cases hd
              | block a b =>
                cases hdec : decodeIpld s.env s.size a b with
                | ok d => simp only [rootDoc, hdec] at hd; cases hd
                | error er =>
                  simp only [rootDoc, hdec] at hd
                  cases hd
                  exact ⟨x, by simp, p, hx, Or.inr ⟨a, b, rem, er, rfl, hr, hdec⟩⟩
            · exact hrec h2
            · cases hrr : refsRoots q.mb s ps' with
              | ok l => rw [hrr] at h2; cases h2
              | failed e' => rw [hrr] at h2; cases h2; exact hrec hrr
              | panic => rw [hrr] at h2; cases h2
              | running => rw [hrr] at h2; cases h2
  cases hf : RefsFormat.fromOptions w.edges w.format with
  | error x =>
    simp only [hf] at h
    cases h
    refine Or.inl ⟨x, rfl, fun hok => ?_⟩
    obtain ⟨f, hf'⟩ := (format_iff w).mpr hok
    rw [hf] at hf'; cases hf'
  | ok f =>
    simp only [hf] at h
    cases hp : parsePaths q.mb w.args with
    | error t =>
      simp only [hp] at h
      cases h
      obtain ⟨h1, h2⟩ := key _ _ hp
      exact Or.inr (Or.inl ⟨t, h1, rfl, h2⟩)
    | ok ps =>
      simp only [hp] at h
      split at h
      · rename_i ht
        cases h
        refine Or.inr (Or.inr (Or.inl ⟨rfl, ?_⟩))
        cases hto : w.timeout with
        | none => rw [hto] at ht; simp [Served.timedOut] at ht
        | some _ => rw [hto] at ht; exact ⟨by simpa [Served.timedOut] using ht, by simp⟩
      · cases hr : refsRoots q.mb s ps with
        | failed e' =>
          simp only [hr] at h
          cases h
          exact Or.inr (Or.inr (Or.inr (key' _ _ hp hr)))
        | panic => simp only [hr] at h; cases h
        | running => simp only [hr] at h; cases h
        | ok docs =>
          simp only [hr] at h
          unfold refsStream at h
          split at h
          · cases h
          · split at h <;> cases h

theorem refsRoots_panics {mb : UInt8 → Bytes → Option Bytes} {s : Served} {p : IpfsPath}
    (hp : resolveNode mb s true p = some (.error (.dag .panic))) (qs : List IpfsPath) : ∀ ps : List IpfsPath,
    (∀ x ∈ ps, ∃ node rem, resolveNode mb s true x = some (.ok (node, rem)) ∧
      (rootDoc s.env s.size node = .noLinks ∨ ∃ c d, rootDoc s.env s.size node = .doc c d)) →
    refsRoots mb s (ps ++ p :: qs) = .panic := by
  intro ps
  induction ps with
  | nil => intro _; simp only [List.nil_append, refsRoots, hp]
  | cons x ps ih =>
    intro h
    obtain ⟨node, rem, h1, h2⟩ := h x List.mem_cons_self
    have := ih (fun y hy => h y (List.mem_cons_of_mem _ hy))
    simp only [List.cons_append, refsRoots, h1]
    rcases h2 with h2 | ⟨c, d, h2⟩ <;> simp only [h2, this, Roots.cons]

theorem parsePaths_split {mb : UInt8 → Bytes → Option Bytes} : ∀ {a : List Bytes} {t : Bytes} {b : List Bytes} {path : IpfsPath},
    (∀ x ∈ a ++ t :: b, IpfsPath.parse mb x ≠ none) → IpfsPath.parse mb t = some path →
    ∃ ps qs, parsePaths mb (a ++ t :: b) = .ok (ps ++ path :: qs) ∧ ∀ p ∈ ps, ∃ x ∈ a, IpfsPath.parse mb x = some p := by
  have all : ∀ l : List Bytes, (∀ x ∈ l, IpfsPath.parse mb x ≠ none) → ∃ ps, parsePaths mb l = .ok ps := by
    intro l
    induction l with
    | nil => intro _; exact ⟨[], rfl⟩
    | cons x l ih =>
      intro h
      obtain ⟨ps, hps⟩ := ih (fun y hy => h y (List.mem_cons_of_mem _ hy))
      cases hx : IpfsPath.parse mb x with
      | none => exact absurd hx (h x List.mem_cons_self)
      | some p => exact ⟨p :: ps, by simp only [parsePaths, hx, hps]⟩
  intro a
  induction a with
  | nil =>
    intro t b path h ht
    obtain ⟨qs, hqs⟩ := all b (fun y hy => h y (by simp [hy]))
    exact ⟨[], qs, by simp only [List.nil_append, parsePaths, ht, hqs], by simp⟩
  | cons x a ih =>
    intro t b path h ht
    obtain ⟨ps, qs, h1, h2⟩ := ih (fun y hy => h y (List.mem_cons_of_mem _ hy)) ht
    cases hx : IpfsPath.parse mb x with
    | none => exact absurd hx (h x List.mem_cons_self)
    | some p =>
      refine ⟨p :: ps, qs, by simp only [List.cons_append, parsePaths, hx, h1], ?_⟩
      intro p' hp'
      rcases List.mem_cons.mp hp' with rfl | hp'
      · exact ⟨x, List.mem_cons_self, hx⟩
      · obtain ⟨y, hy, hy'⟩ := h2 p' hp'
        exact ⟨y, List.mem_cons_of_mem _ hy, hy'⟩

/-- **C71**: where resolving a path panics (`C20`), the request gets no answer, if the paths before lead to documents. -/
theorem C71_refs_panics (q : QueryEnv) (blockText : BlockErr → Bytes) (s : Served) (query : Bytes) (w : RefsWish)
    (hq : RefsAsked q query w) (hf : FormatOk w) (ht : s.elapses = true → w.timeout = none)
    (hps : ∀ x ∈ w.args, IpfsPath.parse q.mb x ≠ none) (a b : List Bytes) (t : Bytes) (path : IpfsPath) (hw : w.args = a ++ t :: b)
    (hok : ∀ x ∈ a, ∀ p, IpfsPath.parse q.mb x = some p → ∃ node rem, resolveNode q.mb s true p = some (.ok (node, rem)) ∧
      (rootDoc s.env s.size node = .noLinks ∨ ∃ c d, rootDoc s.env s.size node = .doc c d))
    (hp : IpfsPath.parse q.mb t = some path) (hr : resolveNode q.mb s true path = some (.error (.dag .panic))) :
    refsRequest q blockText s (some query) = .panic := by
  rw [refsRequest_eq hq]
  unfold refsWish
  obtain ⟨f, hfm⟩ := (format_iff w).mpr hf
  rw [hw] at hps
  obtain ⟨ps, qs, h1, h2⟩ := parsePaths_split hps hp
  have hn : ¬ (s.timedOut w.timeout = true) := by
    unfold Served.timedOut
    cases ha : s.elapses with
    | false => simp
    | true => simp [ht ha]
  have h3 := refsRoots_panics hr qs ps (by
    intro p hp'
    obtain ⟨x, hx, hxp⟩ := h2 p hp'
    exact hok x hx p hxp)
  simp only [hfm, hw, h1, if_neg hn, h3]

/-- **C71**: a failure has status 400 only if there is no query at all. -/
theorem C71_refs_status (q : QueryEnv) (blockText : BlockErr → Bytes) (s : Served) (query : Option Bytes) (e : RefsFail)
    (h : refsRequest q blockText s query = .failed e) : refsStatus e = if query = none then 400 else 500 := by
  cases query with
  | none => cases h; rfl
  | some query =>
    simp only [reduceCtorEq, if_false]
    by_cases hw : ∃ w, RefsAsked q query w
    · obtain ⟨w, hw⟩ := hw
      rcases C71_refs_unresolved q blockText s query w hw e h with ⟨x, rfl, -⟩ | ⟨t, -, rfl, -⟩ | ⟨rfl, -⟩ |
        ⟨t, -, path, -, ⟨x, rfl, -⟩ | ⟨c, data, rem, x, rfl, -⟩⟩ <;> rfl
    · obtain ⟨x, hx⟩ := ((C71_refs_query q blockText s).2 query).mpr hw
      rw [hx] at h; cases h; rfl

/-! ### `refs/local` -/

/-- `refs/local` has a line for every block listed. -/
theorem refsLocal_lines (listed : List Cid) : (refsLocal listed).map readEdge = listed.map (fun c => some (c.toText, [])) := by
  unfold refsLocal
  rw [List.map_map]
  exact List.map_congr_left (fun c _ => readEdge_write (utf8Ok_toText c) utf8Ok_nil)

/-- **C71**: with the store in memory `refs/local` has a line for every block that was put and not removed since, by the cid
it was put with, and no other. -/
theorem C71_local_memory (hist : List BlockOp) :
    ∃ cids : List Cid, (refsLocal (MemBlocks.after hist).list).map readEdge = cids.map (fun c => some (c.toText, [])) ∧
      (∀ c, c ∈ cids ↔ (stored hist c.mh).map Block.cid = some c) ∧ (cids.map Cid.mh).Nodup :=
  ⟨_, refsLocal_lines _, (C25_mem_list hist).1, (C25_mem_list hist).2⟩

/-- **C71**: with the store on disk, a line for every file of a block in the directory, by its cid as version 1, and none for
temporary files. -/
theorem C71_local_disk (mb : UInt8 → Bytes → Option Bytes) (base : List Bytes) (files : List (Cid × Bool))
    (hv : ∀ f ∈ files, f.1.Valid) :
    (refsLocal (files.filterMap fun f => (blockPath base f.1).bind fun p =>
      listBlock mb (fileName (if f.2 then setExtension p extTmp else p)))).map readEdge =
    (files.filter fun f => !f.2).map fun f => some ((⟨.v1, f.1.codec, f.1.mhCode, f.1.digest⟩ : Cid).toText, []) := by
  rw [refsLocal_lines, C28_block_list mb base files hv, List.map_map]
  rfl

/-! ### Examples, and a finding -/

def exRefsQuery (more : String) : Option Bytes := some ("arg=".toUTF8.toList ++ exCidA.toText ++ more.toUTF8.toList)

/-- The lines of an answer, read. -/
def exRefsLines : RefsReply → Option (List (Option (Bytes × Bytes)))
  | .stream lines .done => some (lines.map readEdge)
  | _ => none

/-- `C71_refs`: the links of a document, and with names and arrows. -/
example : exRefsLines (refsRequest exResolveEnv (fun _ => []) exResolveServed (exRefsQuery "")) =
    some [some (exCidB.toText, []), some (exResolveServed.exCidC.toText, [])] := by
  decide +kernel

example : exRefsLines (refsRequest exResolveEnv (fun _ => []) exResolveServed
    (exRefsQuery "&format=%3Clinkname%3E-%3Csrc%3E&max-depth=3&recursive=true")) =
    some [some (45 :: exCidA.toText, []), some (45 :: exCidA.toText, [])] := by decide +kernel

example : exRefsLines (refsRequest exResolveEnv (fun _ => []) exResolveServed (exRefsQuery "/a")) = some [] := by decide +kernel

/-- Requests that are refused. -/
example : refsRequest exResolveEnv (fun _ => []) exResolveServed none = .failed .badQuery ∧
    refsRequest exResolveEnv (fun _ => []) exResolveServed (some []) = .failed (.options .missingArg) ∧
    refsRequest exResolveEnv (fun _ => []) exResolveServed (exRefsQuery "&format=a&edges=true") =
      .failed (.format .edgesWithCustomFormat) ∧
    refsRequest exResolveEnv (fun _ => []) exResolveServed (exRefsQuery "&arg=x") = .failed (.path [120]) := by decide +kernel

/-- A directory with a file called "/". -/
def exSlashCid : Cid := Cid.v0 (List.replicate 32 4)

def exSlashServed : Served :=
  { exResolveServed with fetch := fun c => if c = exSlashCid then some (DagPbNode.toBytes ⟨[⟨exCidB, [47], 0⟩], []⟩) else none }

/-- **C71** (a finding): a dag-pb link called "/" is a panic, the request gets no answer at all; with depth 0 it is fine. -/
theorem C71_slash :
    refsRequest exResolveEnv (fun _ => []) exSlashServed (some ("arg=".toUTF8.toList ++ exSlashCid.toText)) = .panic ∧
    refsRequest exResolveEnv (fun _ => []) exSlashServed
      (some ("recursive=true&max-depth=0&arg=".toUTF8.toList ++ exSlashCid.toText)) = .stream [] .done := by decide +kernel

def exPanicServed : Served :=
  { exResolveServed with fetch := fun c => if c = exSlashCid then some (PBNode.write ⟨[], some []⟩) else none }

/-- The hypotheses of `C71_refs_panics` can be met (a finding, src/dag.rs:471-508): a path to the data of a block that has the field with
nothing in it. -/
theorem C71_refs_panics_met : resolveNode exResolveEnv.mb exPanicServed true ⟨.ipld exSlashCid, [kData]⟩ = some (.error (.dag .panic)) ∧
    refsRequest exResolveEnv (fun _ => []) exPanicServed (some ("arg=".toUTF8.toList ++ exSlashCid.toText ++ "/Data".toUTF8.toList)) =
      .panic := by decide +kernel

end Verif.Props
