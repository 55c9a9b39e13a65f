import Verif.Props.DagResolve
import Verif.Props.DagPb
import Verif.Props.DagJson
import Verif.Base.Snoc

/-!
# C81: documents put into the node are found again along every path

Specification: `IsDoc` says that a document was put and which cid it got. `Along` walks a path over documents: keys of maps, indices of
lists, and links to other documents, with no mention of blocks or codecs.
-/

namespace Verif.Props

open Verif Verif.Unixfs Verif.Ipld Verif.Ipfs

/-- The document was put, and this is its cid. -/
def IsDoc (e : Env) (puts : List (Nat × Ipld)) (c : Cid) (d : Ipld) : Prop :=
  ∃ codec bytes, (codec, d) ∈ puts ∧ dagPut e d codec = .ok (c, bytes)

/-- Where a walk is: at a document, or at a value inside of one. -/
inductive Place where
  | doc (c : Cid)
  | val (x : Ipld)

/-- The path leads from the place to the value. -/
inductive Along (D : Cid → Ipld → Prop) : Place → List Bytes → Ipld → Prop where
  | whole {c d} : D c d → Along D (.doc c) [] d
  | enter {c d s p y} : D c d → c.codec ≠ codecDagPb → Along D (.val d) (s :: p) y → Along D (.doc c) (s :: p) y
  | here {x} : (∀ c, x ≠ .link c) → Along D (.val x) [] x
  | key {m s x p y} : AMap.get m s = some x → Along D (.val x) p y → Along D (.val (.map m)) (s :: p) y
  | index {l s i x p y} : parseU64 s = some i → l[i]? = some x → Along D (.val x) p y → Along D (.val (.list l)) (s :: p) y
  | link {c p y} : p.head? ≠ some ".".toUTF8.toList → Along D (.doc c) p y → Along D (.val (.link c)) p y
  | dot {c p y} : Along D (.doc c) p y → Along D (.val (.link c)) (".".toUTF8.toList :: p) y

/-- The block store after documents were put: the first block of a cid stays. -/
def storeAfter (e : Env) : List (Nat × Ipld) → (Cid → Option Bytes) → Cid → Option Bytes
  | [], s => s
  | (codec, d) :: puts, s =>
    match dagPut e d codec with
    | .ok (c, bytes) => storeAfter e puts (fun k => if k = c then some ((s c).getD bytes) else s k)
    | .error _ => storeAfter e puts s

/-- No two different blocks get the same cid. -/
def NoClash (e : Env) (puts : List (Nat × Ipld)) : Prop :=
  ∀ codec d codec' d' c b b', (codec, d) ∈ puts → (codec', d') ∈ puts → dagPut e d codec = .ok (c, b) → dagPut e d' codec' = .ok (c, b') → b = b'

theorem storeAfter_iff (e : Env) (puts : List (Nat × Ipld)) : ∀ (s : Cid → Option Bytes),
    NoClash e puts → (∀ codec d c b b', (codec, d) ∈ puts → dagPut e d codec = .ok (c, b) → s c = some b' → b' = b) → ∀ c b,
    storeAfter e puts s c = some b ↔ s c = some b ∨ ∃ codec d, (codec, d) ∈ puts ∧ dagPut e d codec = .ok (c, b) := by
  induction puts with
  | nil => intro s _ _ c b; simp [storeAfter]
  | cons x puts ih =>
    obtain ⟨codec0, d0⟩ := x
    intro s hn hs c b
    have hn' : NoClash e puts := fun a1 a2 a3 a4 a5 a6 a7 h1 h2 => hn a1 a2 a3 a4 a5 a6 a7 (List.mem_cons_of_mem _ h1) (List.mem_cons_of_mem _ h2)
    simp only [storeAfter]
    cases hp : dagPut e d0 codec0 with
    | error x =>
      simp only
      rw [ih s hn' (fun a1 a2 a3 a4 a5 h1 => hs a1 a2 a3 a4 a5 (List.mem_cons_of_mem _ h1)) c b]
      constructor
      · rintro (h | ⟨codec, d, hm, hd⟩)
        · exact .inl h
        · exact .inr ⟨codec, d, List.mem_cons_of_mem _ hm, hd⟩
      · rintro (h | ⟨codec, d, hm, hd⟩)
        · exact .inl h
        · rcases List.mem_cons.1 hm with hm | hm
          · cases hm; rw [hp] at hd; cases hd
          · exact .inr ⟨codec, d, hm, hd⟩
    | ok r =>
      obtain ⟨c0, b0⟩ := r
      simp only
      have hval : (s c0).getD b0 = b0 := by
        cases hc : s c0 with
        | none => rfl
        | some b' => exact hs codec0 d0 c0 b0 b' List.mem_cons_self hp hc
      rw [hval, ih _ hn' ?_ c b]
      · constructor
        · rintro (h | ⟨codec, d, hm, hd⟩)
          · split at h
            · rename_i hc
              cases h
              exact .inr ⟨codec0, d0, List.mem_cons_self, by rw [hc]; exact hp⟩
            · exact .inl h
          · exact .inr ⟨codec, d, List.mem_cons_of_mem _ hm, hd⟩
        · rintro (h | ⟨codec, d, hm, hd⟩)
          · by_cases hc : c = c0
            · subst hc
              exact .inl (by rw [if_pos rfl, ← hs codec0 d0 c b0 b List.mem_cons_self hp h])
            · exact .inl (by rw [if_neg hc]; exact h)
          · rcases List.mem_cons.1 hm with hm | hm
            · cases hm
              rw [hp] at hd
              cases hd
              exact .inl (by rw [if_pos rfl])
            · exact .inr ⟨codec, d, hm, hd⟩
      · intro codec d c1 b1 b' hm hd hh
        split at hh
        · rename_i hc
          cases hh
          subst hc
          exact hn codec0 d0 codec d c1 b0 b1 List.mem_cons_self (List.mem_cons_of_mem _ hm) hp hd
        · exact hs codec d c1 b1 b' (List.mem_cons_of_mem _ hm) hd hh

/-- What the store holds after the puts. -/
theorem stored_iff (e : Env) (puts : List (Nat × Ipld)) (hn : NoClash e puts) (c : Cid) (b : Bytes) :
    storeAfter e puts (fun _ => none) c = some b ↔ ∃ codec d, (codec, d) ∈ puts ∧ dagPut e d codec = .ok (c, b) := by
  rw [storeAfter_iff e puts _ hn (by intros; contradiction) c b]
  simp

/-- The documents of a history: each is one its codec keeps. -/
structure DagHistory where
  env : Env
  size : Nat
  puts : List (Nat × Ipld)
  sha : ∀ b, (env.hash mhSha256 b).length = 32
  kept : ∀ codec d, (codec, d) ∈ puts → Kept env size codec d
  clash : NoClash env puts

/-- The blocks of a history, and how they are read. -/
def DagHistory.graph (H : DagHistory) : Graph := ⟨H.env, H.size, storeAfter H.env H.puts (fun _ => none)⟩

theorem DagHistory.doc_block (H : DagHistory) {c : Cid} {d : Ipld} (h : IsDoc H.env H.puts c d) :
    ∃ b, H.graph.fetch c = some b ∧ decodeIpld H.env H.size c b = .ok d := by
  obtain ⟨codec, bytes, hm, hp⟩ := h
  obtain ⟨c', b', hp', hd, -⟩ := C24_put_then_decode_partial H.env H.size codec d (H.kept codec d hm) H.sha
  rw [hp] at hp'
  cases hp'
  exact ⟨bytes, (stored_iff _ _ H.clash c bytes).2 ⟨codec, d, hm, hp⟩, hd⟩

theorem DagHistory.block_doc (H : DagHistory) {c : Cid} {b : Bytes} {d : Ipld} (h : H.graph.fetch c = some b)
    (hd : decodeIpld H.env H.size c b = .ok d) : IsDoc H.env H.puts c d := by
  obtain ⟨codec, d', hm, hp⟩ := (stored_iff _ _ H.clash c b).1 h
  obtain ⟨c', b', hp', hd', -⟩ := C24_put_then_decode_partial H.env H.size codec d' (H.kept codec d' hm) H.sha
  rw [hp] at hp'
  cases hp'
  rw [hd] at hd'
  cases hd'
  exact ⟨codec, b, hm, hp⟩

theorem dot_text : ".".toUTF8.toList = sDot := by decide +kernel

/-- The place in the sense of C20; the cid of the document a value is in does not matter here. -/
def Place.pos (c : Cid) : Place → Pos
  | .doc c' => .doc c'
  | .val x => .value c x

theorem along_steps (H : DagHistory) (N : Bytes → Bytes → Cid → Prop) {pl : Place} {p : List Bytes} {y : Ipld}
    (h : Along (IsDoc H.env H.puts) pl p y) : ∀ c, ∃ pos last node, Steps (Taking H.graph N) (pl.pos c) p pos last ∧ Ends H.graph pos last node ∧
      node.toIpld H.env H.size = .ok y := by
  induction h with
  | @whole c' d hd =>
    intro c
    obtain ⟨b, hb, hde⟩ := H.doc_block hd
    exact ⟨_, _, _, .refl, .block hb, by simp [Node.toIpld, hde]⟩
  | @enter c' d s p y hd hc _ ih =>
    intro c
    obtain ⟨b, hb, hde⟩ := H.doc_block hd
    obtain ⟨pos, last, node, h1, h2, h3⟩ := ih c'
    exact ⟨pos, last, node, .step (.inl (.enter hb hc hde)) h1, h2, h3⟩
  | here hx => intro c; exact ⟨_, _, _, .refl, .value hx, rfl⟩
  | key hk _ ih =>
    intro c
    obtain ⟨pos, last, node, h1, h2, h3⟩ := ih c
    exact ⟨pos, last, node, .step (.inl (.key hk)) h1, h2, h3⟩
  | index hi hl _ ih =>
    intro c
    obtain ⟨pos, last, node, h1, h2, h3⟩ := ih c
    exact ⟨pos, last, node, .step (.inl (.index hi hl)) h1, h2, h3⟩
  | link hh _ ih =>
    intro c
    obtain ⟨pos, last, node, h1, h2, h3⟩ := ih c
    exact ⟨pos, last, node, .step (.inr (.link (by rw [← dot_text]; exact hh))) h1, h2, h3⟩
  | dot _ ih =>
    intro c
    obtain ⟨pos, last, node, h1, h2, h3⟩ := ih c
    exact ⟨pos, last, node, .step (.inr (by rw [dot_text]; exact .dot)) h1, h2, h3⟩

/-- **C81**: whatever documents were put with whatever codecs, what a path leads to over the documents is what the node answers for it. -/
theorem C81_found (H : DagHistory) (c : Cid) (path : List Bytes) (y : Ipld) (hne : ∀ s ∈ path, s ≠ [])
    (h : Along (IsDoc H.env H.puts) (.doc c) path y) :
    ∃ fuel0, ∀ fuel, fuel0 ≤ fuel → dagGet H.env H.size (storeAfter H.env H.puts (fun _ => none)) fuel c path = some (.ok y) := by
  obtain ⟨pos, last, node, h1, h2, h3⟩ := along_steps H (NamedOp H.graph.fetch) h c
  obtain ⟨fuel0, hf⟩ := C20_reached H.graph c path last pos node hne h1 h2
  refine ⟨fuel0, fun fuel hle => ?_⟩
  obtain ⟨rem, hr⟩ := hf fuel hle
  simp only [dagResolve] at hr
  show dagGet H.graph.env H.graph.size H.graph.fetch fuel c path = _
  unfold dagGet
  split at hr
  · cases hr
  · cases hr
  · rename_i node' n h0
    split at hr
    · cases hr
      exact congrArg some h3
    · cases hr

theorem steps_along (H : DagHistory) (hpb : ∀ codec d, (codec, d) ∈ H.puts → codec ≠ codecDagPb) {N : Bytes → Bytes → Cid → Prop} {pos pos' : Pos}
    {p last : List Bytes} {node : Node} {y : Ipld} (h : Steps (Taking H.graph N) pos p pos' last) (he : Ends H.graph pos' last node)
    (hy : node.toIpld H.env H.size = .ok y) :
    Along (IsDoc H.env H.puts) (match pos with | .doc c => .doc c | .value _ x => .val x) p y := by
  have hcodec : ∀ c b, H.graph.fetch c = some b → c.codec ≠ codecDagPb := by
    intro c b hb
    obtain ⟨codec, d, hm, hp⟩ := (stored_iff _ _ H.clash c b).1 hb
    have : c.codec = codec := by
      have hne := hpb codec d hm
      unfold dagPut at hp
      cases he : encodeIpld H.env d codec with
      | error x => rw [he] at hp; cases hp
      | ok bs =>
        simp only [he, if_neg hne, Cid.new] at hp
        cases hp
        rfl
    rw [this]; exact hpb codec d hm
  induction h with
  | refl =>
    cases he with
    | @block c b hb =>
      simp only [Node.toIpld] at hy
      split at hy
      · rename_i d hd
        cases hy
        exact .whole (H.block_doc hb hd)
      · cases hy
    | value hd => simp only [Node.toIpld, Except.ok.injEq] at hy; subst hy; exact .here hd
    | data hb hc => exact absurd hc (hcodec _ _ hb)
  | step h _ ih =>
    have ih := ih he
    rcases h with h | h
    · cases h with
      | enter hb hc hd => exact .enter (H.block_doc hb hd) hc ih
      | key hk => exact .key hk ih
      | index hi hl => exact .index hi hl ih
    · cases h with
      | link hh => exact .link (by rw [dot_text]; exact hh) ih
      | dot =>
        have h' := Along.dot ih
        rw [dot_text] at h'
        exact h'
      | named hb hc => exact absurd hc (hcodec _ _ hb)

/-- **C81**: without dag-pb documents, which have names instead of keys, a path is answered with a value exactly if it leads to it. -/
theorem C81_exactly (H : DagHistory) (hpb : ∀ codec d, (codec, d) ∈ H.puts → codec ≠ codecDagPb) (c : Cid) (path : List Bytes) (y : Ipld)
    (hne : ∀ s ∈ path, s ≠ []) :
    (∃ fuel, dagGet H.env H.size (storeAfter H.env H.puts (fun _ => none)) fuel c path = some (.ok y)) ↔
    Along (IsDoc H.env H.puts) (.doc c) path y := by
  constructor
  · rintro ⟨fuel, h⟩
    obtain ⟨node, pos, last, h1, h2, h3⟩ := C20_get H.graph fuel c path y hne h
    exact steps_along H hpb h1 h2 h3
  · intro h
    obtain ⟨fuel0, hf⟩ := C81_found H c path y hne h
    exact ⟨fuel0, hf fuel0 (Nat.le_refl _)⟩

/-- **C81**: a document that was put is what the node answers for its cid, whichever of the codecs it was put with. -/
theorem C81_whole (H : DagHistory) (c : Cid) (d : Ipld) (h : IsDoc H.env H.puts c d) (fuel : Nat) :
    dagGet H.env H.size (storeAfter H.env H.puts (fun _ => none)) (fuel + 1) c [] = some (.ok d) := by
  obtain ⟨b, hb, hd⟩ := H.doc_block h
  have hb' : storeAfter H.env H.puts (fun _ => none) c = some b := hb
  simp [dagGet, resolve0, hb', resolveLocal, Node.toIpld, hd]

/-- **C81**: different documents have different cids; putting one again gives the same cid and stores nothing new. -/
theorem C81_cids (H : DagHistory) (c : Cid) (d d' : Ipld) (h : IsDoc H.env H.puts c d) (h' : IsDoc H.env H.puts c d') : d = d' := by
  have h1 := C81_whole H c d h 0
  rw [C81_whole H c d' h' 0] at h1
  cases h1; rfl

theorem C81_again (H : DagHistory) (codec : Nat) (d : Ipld) (h : (codec, d) ∈ H.puts) :
    storeAfter H.env (H.puts ++ [(codec, d)]) (fun _ => none) = storeAfter H.env H.puts (fun _ => none) := by
  funext c
  have hn : NoClash H.env (H.puts ++ [(codec, d)]) := by
    intro a1 a2 a3 a4 a5 a6 a7 h1 h2
    refine H.clash a1 a2 a3 a4 a5 a6 a7 ?_ ?_
    · simp only [List.mem_append, List.mem_singleton] at h1
      rcases h1 with h1 | h1
      · exact h1
      · exact h1 ▸ h
    · simp only [List.mem_append, List.mem_singleton] at h2
      rcases h2 with h2 | h2
      · exact h2
      · exact h2 ▸ h
  apply Option.ext
  intro b
  rw [stored_iff _ _ hn, stored_iff _ _ H.clash]
  constructor
  · rintro ⟨a, x, hm, hp⟩
    simp only [List.mem_append, List.mem_singleton] at hm
    rcases hm with hm | hm
    · exact ⟨a, x, hm, hp⟩
    · exact ⟨a, x, hm ▸ h, hp⟩
  · rintro ⟨a, x, hm, hp⟩
    exact ⟨a, x, List.mem_append.2 (.inl hm), hp⟩

/-- A path leads to one value at most. -/
theorem C81_unique (H : DagHistory) (c : Cid) (path : List Bytes) (y y' : Ipld) (hne : ∀ s ∈ path, s ≠ [])
    (h : Along (IsDoc H.env H.puts) (.doc c) path y) (h' : Along (IsDoc H.env H.puts) (.doc c) path y') : y = y' := by
  obtain ⟨f1, h1⟩ := C81_found H c path y hne h
  obtain ⟨f2, h2⟩ := C81_found H c path y' hne h'
  have e1 := h1 (max f1 f2) (Nat.le_max_left _ _)
  rw [h2 (max f1 f2) (Nat.le_max_right _ _)] at e1
  cases e1; rfl

/-- The environment with the dag-json codec of the code. -/
def jsonEnv (hash : Nat → Bytes → Bytes) (f : Floats) : Env := ⟨hash, fun d => some (jsonEncode f d), jsonDecode f⟩

/-- **C81**: with the dag-json codec of the code, the documents it keeps are those C65 names. -/
theorem C81_json (hash : Nat → Bytes → Bytes) (f : Floats) (size : Nat) (d : Ipld) (hw : d.WF) (hs : Everywhere (SoundLeaf f) d) :
    Kept (jsonEnv hash f) size codecDagJson d ↔ Everywhere (JsonSafe f) d ∧ levels d ≤ 127 := by
  rw [← C65_exact f d hw hs]
  constructor
  · rintro (⟨h, -⟩ | ⟨h, -⟩ | ⟨h, -⟩ | ⟨-, bs, h1, h2⟩)
    · simp [codecDagJson, codecDagCbor] at h
    · simp [codecDagJson, codecDagPb] at h
    · simp [codecDagJson, codecRaw] at h
    · simp only [jsonEnv, Option.some.injEq] at h1 h2
      rw [h1]; exact h2
  · intro h
    exact .inr (.inr (.inr ⟨rfl, _, rfl, h⟩))

/-! ### Example: a raw block and a dag-cbor document that links to it -/

/-- The cid of the raw block. -/
def apiLeaf : Cid := ⟨.v1, codecRaw, mhSha256, 1 :: 2 :: List.replicate 30 0⟩

/-- The document: a list with the link below a key. -/
def apiRoot : Ipld := .map [("k".toUTF8.toList, .list [.null, .link apiLeaf])]

theorem api_leaf_put : dagPut envEx (.bytes [1, 2]) codecRaw = .ok (apiLeaf, [1, 2]) := by decide +kernel

theorem api_root_put : (dagPut envEx apiRoot codecDagCbor).map (fun r => r.1.codec) = .ok codecDagCbor := by
  decide +kernel

/-- The history of the example. -/
def apiHistory : DagHistory where
  env := envEx
  size := 32
  puts := [(codecRaw, .bytes [1, 2]), (codecDagCbor, apiRoot)]
  sha := by intro b; simp [envEx]
  kept := by
    intro codec d h
    simp only [List.mem_cons, Prod.mk.injEq, List.not_mem_nil, or_false] at h
    rcases h with ⟨rfl, rfl⟩ | ⟨rfl, rfl⟩
    · exact .inr (.inr (.inl ⟨rfl, _, rfl⟩))
    · refine .inl ⟨rfl, ?_, ?_⟩
      · simp only [apiRoot, Ipld.WF, WFMap, WFList, and_true]
        exact ⟨by simp [BMap.Sorted], by decide +kernel⟩
      · simp only [apiRoot, CborFits, CborFitsMap, CborFitsList, and_true, true_and]
        decide +kernel
  clash := by
    intro codec d codec' d' c b b' h h' hp hp'
    have hr := api_root_put
    simp only [List.mem_cons, Prod.mk.injEq, List.not_mem_nil, or_false] at h h'
    rcases h with ⟨rfl, rfl⟩ | ⟨rfl, rfl⟩ <;> rcases h' with ⟨rfl, rfl⟩ | ⟨rfl, rfl⟩
    · rw [hp] at hp'; cases hp'; rfl
    · rw [api_leaf_put] at hp; cases hp; rw [hp'] at hr; exact absurd hr (by simp [Except.map, apiLeaf, codecRaw, codecDagCbor])
    · rw [api_leaf_put] at hp'; cases hp'; rw [hp] at hr; exact absurd hr (by simp [Except.map, apiLeaf, codecRaw, codecDagCbor])
    · rw [hp] at hp'; cases hp'; rfl

/-- The path `k/1` leads over the link to the bytes of the other block, and only to them. -/
example : ∃ c, IsDoc envEx apiHistory.puts c apiRoot ∧
    Along (IsDoc envEx apiHistory.puts) (.doc c) ["k".toUTF8.toList, "1".toUTF8.toList] (.bytes [1, 2]) := by
  have hr := api_root_put
  cases hp : dagPut envEx apiRoot codecDagCbor with
  | error x => rw [hp] at hr; cases hr
  | ok r =>
    obtain ⟨c, bytes⟩ := r
    rw [hp] at hr
    have hr : c.codec = codecDagCbor := by simpa [Except.map] using hr
    have hd : IsDoc envEx apiHistory.puts c apiRoot := ⟨_, _, List.mem_cons_of_mem _ List.mem_cons_self, hp⟩
    refine ⟨c, hd, .enter hd (by show c.codec ≠ _; rw [hr]; decide) (.key (x := .list [.null, .link apiLeaf]) (by decide +kernel) (.index (i := 1) (x := .link apiLeaf) (by decide +kernel) rfl (.link (by simp) (.whole ?_))))⟩
    exact ⟨_, _, List.mem_cons_self, api_leaf_put⟩

end Verif.Props
