import Verif.Props.Cat
import Verif.Props.Tar

/-! # C67: getting a tree over HTTP -/

namespace Verif.Props

open Verif Verif.Http Verif.Ipfs Verif.Unixfs

/-! ### Specification -/

/-- A part of the form, and where it was sent to. -/
def SentTo (parts : List FormPart) (p : FormPart) (path : Bytes) : Prop :=
  p ∈ parts ∧ ∃ raw, p.filename = some raw ∧ addPath raw = .ok path

/-- What the archive of everything in a form has to hold: the wrapping directory, every file that was sent, with its
content, every directory that was sent, and every directory on the way to them. -/
inductive Archived (name : Bytes) (parts : List FormPart) : TarEntry → Prop where
  | root : Archived name parts ⟨name, .dir, 0o755, 0⟩
  | file {p : FormPart} {path : Bytes} : SentTo parts p path → p.contentType = some octetStream →
      Archived name parts ⟨joinSlash (name :: splitSlash path), .file p.chunks.flatten, 0o644, 0⟩
  | dir {p : FormPart} {path : Bytes} : SentTo parts p path → p.contentType = some xDirectory →
      Archived name parts ⟨joinSlash (name :: splitSlash path), .dir, 0o755, 0⟩
  | above {p : FormPart} {path : Bytes} {q : List Bytes} : SentTo parts p path → q <+: splitSlash path → q ≠ splitSlash path →
      q ≠ [] → Archived name parts ⟨joinSlash (name :: q), .dir, 0o755, 0⟩

/-- Everything in the archive has a path that can be written. -/
def PathsFit (name : Bytes) (parts : List FormPart) : Prop :=
  ∀ q, (q = [] ∨ ∃ p path, SentTo parts p path ∧ q <+: splitSlash path) → TarPath (joinSlash (name :: q))

/-! ### Helpers -/

theorem ReadsAs.unique {fetch : Cid → Option Bytes} {c : Cid} {a b : Bytes} (ha : ReadsAs fetch c a) (hb : ReadsAs fetch c b) :
    a = b := by
  obtain ⟨_, d1, f1, _, g1⟩ := ha
  obtain ⟨_, d2, f2, _, g2⟩ := hb
  rw [f1] at f2
  cases f2
  obtain ⟨n1, c1, e1, h1⟩ := g1 none
  obtain ⟨n2, c2, e2, h2⟩ := g2 none
  have := (h1 (max n1 n2) (by omega)).symm.trans (h2 (max n1 n2) (by omega))
  have hc : c1 = c2 := congrArg Prod.fst this
  simp only [within] at e1 e2
  rw [← e1, ← e2, hc]

open Classical in
/-- What can be read from a cid. -/
noncomputable def readContent (fetch : Cid → Option Bytes) (c : Cid) : Seen :=
  if h : ∃ b, ReadsAs fetch c b then .file (choose h) (choose h).length {} else .directory

theorem readContent_eq {fetch : Cid → Option Bytes} {c : Cid} {b : Bytes} (h : ReadsAs fetch c b) :
    readContent fetch c = .file b b.length {} := by
  have he : ∃ b, ReadsAs fetch c b := ⟨b, h⟩
  unfold readContent
  rw [dif_pos he, (Classical.choose_spec he).unique h]

theorem ReadsAs.leafIs {fetch : Cid → Option Bytes} {c : Cid} {b : Bytes} (h : ReadsAs fetch c b) :
    LeafIs fetch c (.file b b.length {}) := by
  obtain ⟨_, d, f1, ⟨flat, p1, p2, p3⟩, g⟩ := h
  obtain ⟨n, chunks, e, h⟩ := g none
  have := LeafIs.file (fetch := fetch) (c := c) f1 p1 p2 (h n (Nat.le_refl n))
  rw [p3] at this
  simp only [within] at e
  rw [e] at this
  exact this

/-- What was sent for a call. -/
theorem Answers.sent_of {args : AddArgs} {stored : List Block} {parts : List FormPart} {ops : List DirOp}
    {lines : List AddLine} (ha : Answers args stored parts ops lines) {op : DirOp} (ho : op ∈ ops) :
    ∃ p, SentTo parts p op.path ∧
      ((∃ c n, op = .put op.path c n ∧ p.contentType = some octetStream ∧ StoredAs stored c p.chunks.flatten n) ∨
       (op = .attrs op.path {} ∧ p.contentType = some xDirectory)) := by
  induction ha with
  | nil => cases ho
  | @file p ps ops lines name raw path root size ks h1 h2 h3 h4 h5 h6 h7 h8 h9 h10 _ ih =>
    rcases List.mem_cons.mp ho with rfl | ho
    · exact ⟨p, ⟨List.mem_cons_self, raw, h3, h4⟩, Or.inl ⟨root, size, rfl, h5, h6⟩⟩
    · obtain ⟨p, ⟨a, b⟩, c⟩ := ih ho
      exact ⟨p, ⟨List.mem_cons_of_mem _ a, b⟩, c⟩
  | @dir p ps ops lines name raw path h1 h2 h3 h4 h5 _ ih =>
    rcases List.mem_cons.mp ho with rfl | ho
    · exact ⟨p, ⟨List.mem_cons_self, raw, h3, h4⟩, Or.inr ⟨rfl, h5⟩⟩
    · obtain ⟨p, ⟨a, b⟩, c⟩ := ih ho
      exact ⟨p, ⟨List.mem_cons_of_mem _ a, b⟩, c⟩

/-- The call for what was sent. -/
theorem Answers.op_of {args : AddArgs} {stored : List Block} {parts : List FormPart} {ops : List DirOp}
    {lines : List AddLine} (ha : Answers args stored parts ops lines) {p : FormPart} {path : Bytes} (hp : SentTo parts p path) :
    (p.contentType = some octetStream ∧ ∃ c n, .put path c n ∈ ops ∧ StoredAs stored c p.chunks.flatten n) ∨
    (p.contentType = some xDirectory ∧ .attrs path {} ∈ ops) := by
  obtain ⟨hp, raw, hraw, hpath⟩ := hp
  induction ha with
  | nil => cases hp
  | file h1 h2 h3 h4 h5 h6 h7 h8 h9 h10 _ ih =>
    rcases List.mem_cons.mp hp with rfl | hp
    · rw [hraw] at h3; cases h3
      rw [hpath] at h4; cases h4
      exact Or.inl ⟨h5, _, _, by simp, h6⟩
    · rcases ih hp with ⟨a, c, n, b, d⟩ | ⟨a, b⟩
      · exact Or.inl ⟨a, c, n, by simp [b], d⟩
      · exact Or.inr ⟨a, by simp [b]⟩
  | dir h1 h2 h3 h4 h5 _ ih =>
    rcases List.mem_cons.mp hp with rfl | hp
    · rw [hraw] at h3; cases h3
      rw [hpath] at h4; cases h4
      exact Or.inr ⟨h5, by simp⟩
    · rcases ih hp with ⟨a, c, n, b, d⟩ | ⟨a, b⟩
      · exact Or.inl ⟨a, c, n, by simp [b], d⟩
      · exact Or.inr ⟨a, by simp [b]⟩

/-- Not loading the first block again makes no difference. -/
theorem walkFrom_eq {fetch : Cid → Option Bytes} (fuel : Nat) (debug : Bool) {c : Cid} (name : Bytes) {first : Bytes}
    (h : fetch c = some first) :
    walkFrom fetch fuel (Walker.new debug c name) first = (Walker.new debug c name).feed fetch (fuel + 1) := by
  unfold walkFrom
  rw [Walker.feed]
  have h1 : (Walker.new debug c name).shouldContinue = true := rfl
  have h2 : (Walker.new debug c name).wanted = some c := rfl
  simp only [h1, h2, if_true, h]
  rfl

theorem getQuery_of_cat {q : QueryEnv} {query : Bytes} {args : CatArgs} (h : catQuery q query = .ok args) :
    getQuery q query = .ok (args.arg, args.timeout) := by
  unfold catQuery at h
  unfold getQuery
  simp only [] at h ⊢
  split at h
  · rename_i h1 _ _ h4
    cases h
    simp only [h1, h4]
  · cases h

theorem v0_text_plain (d : Bytes) (hd : d.length = 32) : PlainName (Cid.v0 d).toText := by
  refine ⟨?_, ?_, Cid.toText_no_slash _⟩
  · intro h
    have := Cid.ofText_toText (fun _ _ => none) (Cid.v0 d) (Cid.v0_valid d hd)
    rw [h] at this
    cases this
  · intro h
    have hx : (46 : UInt8) ∈ (Cid.v0 d).toText := by rw [h]; simp
    have h58 : ∀ d < 58, char58 d ≠ 46 := by decide +kernel
    unfold Cid.toText at hx
    simp only [Cid.v0] at hx
    unfold base58 at hx
    obtain ⟨d, hd, he⟩ := List.mem_map.mp hx
    exact h58 d (convert_lt (by decide) _ d hd) he

theorem eq_of_split {a b : Bytes} (h : splitSlash a = splitSlash b) : a = b := by
  rw [← join_splitSlash a, ← join_splitSlash b, h]

theorem nodup_map_of {α β : Type} {f : α → β} {l : List α} (h : l.Nodup) (hf : ∀ a ∈ l, ∀ b ∈ l, f a = f b → a = b) :
    (l.map f).Nodup := by
  induction l with
  | nil => simp
  | cons x l ih =>
    rw [List.nodup_cons] at h
    rw [List.map_cons, List.nodup_cons]
    refine ⟨fun hx => ?_, ih h.2 (fun a ha b hb => hf a (by simp [ha]) b (by simp [hb]))⟩
    obtain ⟨y, hy, he⟩ := List.mem_map.mp hx
    have := hf y (by simp [hy]) x (by simp) he
    exact h.1 (this ▸ hy)

theorem zip_left {α β : Type} {xs : List α} {ys : List β} (hl : xs.length = ys.length) {x : α} (hx : x ∈ xs) :
    ∃ y, (x, y) ∈ xs.zip ys := by
  obtain ⟨i, hi, rfl⟩ := List.mem_iff_getElem.mp hx
  exact ⟨ys[i], List.mem_iff_getElem.mpr ⟨i, by simp; omega, by simp⟩⟩

theorem zip_right {α β : Type} {xs : List α} {ys : List β} (hl : xs.length = ys.length) {y : β} (hy : y ∈ ys) :
    ∃ x, (x, y) ∈ xs.zip ys := by
  obtain ⟨i, hi, rfl⟩ := List.mem_iff_getElem.mp hy
  exact ⟨xs[i], List.mem_iff_getElem.mpr ⟨i, by simp; omega, by simp⟩⟩

/-! ### The properties -/

/-- **C67**: what was added over HTTP with a wrapping directory comes back from `get`: when the request to add was answered
without error, its last line has the cid of that directory; when later the blocks that were stored can be
loaded, the request for that cid is answered with an archive of exactly the files and directories that were sent,
each once, below the name of the cid. -/
theorem C67_archive {sha : Bytes → Bytes} (hsha : Digest32 sha) {put : Block → Bool} {args : AddArgs}
    (hw : args.wrap = true) {parts : List FormPart} {broken : Bool} {ev : List AddEvent}
    (hfit : ∀ p ∈ parts, Fits args.chunk args.bf p.chunks.flatten)
    (hs : ∀ p ∈ parts, ∀ raw, p.filename = some raw → raw.length < 2 ^ 30)
    (hbig : ∀ p ∈ parts, p.chunks.flatten.length < 2 ^ 33)
    (htot : FormTotals sha args parts)
    (h : addStream sha put args parts broken = (ev, .ok ()))
    (q : QueryEnv) (hl : ∀ s, utf8Ok s = true → q.lossy s = s) (s : Served)
    (hf : ∀ b ∈ putsOf ev, s.fetch b.1 = some b.2)
    (esc : UInt8 → Bool) (h37 : esc 37 = true) (h38 : esc 38 = true) (h43 : esc 43 = true) :
    ∃ top total, (linesOf ev).getLast? = some (.added [] top total) ∧
      (PathsFit top.toText parts → ∃ fuel0 chunks es,
        tarEntries chunks.flatten = some es ∧ (es.map TarEntry.path).Nodup ∧ (∀ e, e ∈ es ↔ Archived top.toText parts e) ∧
        ∀ fuel, fuel0 ≤ fuel →
          getRequest q { s with fuel := fuel } (catUrl esc ("/ipfs/".toUTF8.toList ++ top.toText) none) = .stream chunks .done) := by
  obtain ⟨ops, lines, nodes, puts, ha, hacc, hrun, hlines, hfd, hputs⟩ := addStream_inv hsha hfit h
  have hst : ∀ n ∈ nodes, (n.cid, n.block) ∈ putsOf ev := fun n hn => by
    rw [hputs]; exact List.mem_append_right _ (List.mem_map.mpr ⟨n, hn, rfl⟩)
  have htot := htot ops puts hfd
  have hops := ha.fits hs
  obtain ⟨front, root, hfr, hroot, _⟩ := C12_root_last hsha args.tree ops hops htot hw hrun
  obtain ⟨qs, node, _, _, _, hout, hnode⟩ := C12_nodes hsha args.tree ops hops htot hrun
  have hv0 : ∀ n ∈ nodes, n.cid = Cid.v0 (sha n.block) := by
    intro n hn
    rw [hout] at hn
    obtain ⟨x, hx, rfl⟩ := List.mem_map.mp hn
    exact (hnode x hx).cid
  subst hfr
  refine ⟨root.cid, root.total, by rw [hlines, ← hroot]; simp, ?_⟩
  intro hpaths
  have hserve : Serves s.fetch (front ++ [root]) := fun n hn => hf _ (hst n hn)
  have hname : PlainName root.cid.toText := by rw [hv0 root (by simp)]; exact v0_text_plain _ (hsha _)
  have htop : root.cid.Valid := by
    rw [hv0 root (by simp)]; exact Cid.v0_valid _ (hsha _)
  -- the segments are plain
  have hplainOf : ∀ x, (x = [] ∨ ∃ p path, SentTo parts p path ∧ x <+: splitSlash path) → ∀ n ∈ root.cid.toText :: x, PlainName n := by
    intro x hx n hn
    have hp := hpaths x hx
    have hno : ∀ y ∈ root.cid.toText :: x, NoSlash y := by
      intro y hy
      rcases List.mem_cons.mp hy with rfl | hy
      · exact hname.noSlash
      · rcases hx with rfl | ⟨p, path, _, hpre⟩
        · cases hy
        · exact splitSlash_noSlash path y (hpre.subset hy)
    have := hp.plain
    rw [splitSlash_join (by simp) hno] at this
    exact (this n hn).1
  have hsent : ∀ op ∈ ops, ∃ p, SentTo parts p op.path := by
    intro op ho
    obtain ⟨p, hp, _⟩ := ha.sent_of ho
    exact ⟨p, hp⟩
  have hplain : ∀ op ∈ acceptedOps (Builder.new args.tree) ops, ∀ x ∈ splitSlash op.path, x ≠ [] ∧ x ≠ [46] := by
    intro op ho x hx
    rw [hacc] at ho
    obtain ⟨p, hp⟩ := hsent op ho
    have := hplainOf (splitSlash op.path) (Or.inr ⟨p, _, hp, List.prefix_refl _⟩) x (by simp [hx])
    exact ⟨this.nonempty, this.notDot⟩
  -- what the files hold
  have hreads : ∀ path c n, .put path c n ∈ ops → ∃ p, SentTo parts p path ∧ p.contentType = some octetStream ∧
      ReadsAs s.fetch c p.chunks.flatten := by
    intro path c n ho
    obtain ⟨p, hp, hcase⟩ := ha.sent_of ho
    rcases hcase with ⟨c', n', he, hct, hsto⟩ | ⟨he, _⟩
    · cases he
      exact ⟨p, hp, hct, (hsto s.fetch hf).2⟩
    · cases he
  have hleaf : ∀ path c n, .put path c n ∈ acceptedOps (Builder.new args.tree) ops → LeafIs s.fetch c (readContent s.fetch c) := by
    intro path c n ho
    rw [hacc] at ho
    obtain ⟨p, _, _, hr⟩ := hreads path c n ho
    rw [readContent_eq hr]
    exact hr.leafIs
  obtain ⟨groups, hrep, hfeed⟩ := C16_walk_partial hsha args.tree ops hops htot hw hrun hserve hplain hleaf s.debug (Or.inr hname)
  obtain ⟨out, es, t1, t2, t3, t4⟩ := C53_tree_partial (16 * 1024) hname.nonempty hrep
    (by
      intro x hx
      refine hpaths x ?_
      rcases hx with rfl | ⟨op, ho, hpre⟩
      · exact Or.inl rfl
      · rw [hacc] at ho
        obtain ⟨p, hp⟩ := hsent op ho
        exact Or.inr ⟨p, _, hp, hpre⟩)
    (by
      intro path c n ho
      rw [hacc] at ho
      obtain ⟨p, hp, _, hr⟩ := hreads path c n ho
      rw [readContent_eq hr]
      exact ⟨rfl, hbig p hp.1, by decide⟩)
  rw [hacc] at hrep t4
  have hlen : (groups.map Prod.fst).length = es.length := by
    have := congrArg List.length t3
    simpa using this.symm
  simp only [List.nil_append] at t4
  -- every path of the walk is a prefix of one that was sent
  have hall : ∀ x, x ∈ groups.map Prod.fst ↔ x = [] ∨ ∃ op ∈ ops, x <+: splitSlash op.path := by
    intro x; simpa using hrep.all x
  -- leaves and directories exclude each other
  have hone : ∀ x path c n path' c' n', .put path c n ∈ ops → .put path' c' n' ∈ ops → splitSlash path = x → splitSlash path' = x → c = c' := by
    intro x path c n path' c' n' h1 h2 e1 e2
    have a := ((C11_tree args.tree ops x).1 ⟨c, n⟩).mpr ⟨.put path c n, by rw [hacc]; exact h1, e1, rfl⟩
    have b := ((C11_tree args.tree ops x).1 ⟨c', n'⟩).mpr ⟨.put path' c' n', by rw [hacc]; exact h2, e2, rfl⟩
    rw [a] at b
    exact congrArg Leaf.link (Kind.leaf.inj (Option.some.inj b))
  have hdirno : ∀ x, (x = [] ∨ ∃ op ∈ ops, (x <+: splitSlash op.path ∧ x ≠ splitSlash op.path) ∨ (x = splitSlash op.path ∧ op.kind = .dir)) →
      ∀ path c n, .put path c n ∈ ops → splitSlash path ≠ x := by
    intro x hx path c n h1 e1
    have a := ((C11_tree args.tree ops x).1 ⟨c, n⟩).mpr ⟨.put path c n, by rw [hacc]; exact h1, e1, rfl⟩
    have b := (C11_tree args.tree ops x).2.mpr (by rw [hacc]; exact hx)
    rw [a] at b
    cases b
  refine ⟨max (groups.map Prod.snd).flatten.length 2, out, es, t2, ?_, ?_, ?_⟩
  · rw [t3]
    rw [show groups.map (fun g => joinSlash (root.cid.toText :: g.1)) = (groups.map Prod.fst).map (fun x => joinSlash (root.cid.toText :: x)) by
      rw [List.map_map]; rfl]
    refine nodup_map_of hrep.once ?_
    have hno : ∀ a ∈ groups.map Prod.fst, ∀ y ∈ root.cid.toText :: a, NoSlash y := by
      intro a ha' y hy
      refine (hplainOf a ?_ y hy).noSlash
      rcases (hall a).mp ha' with h | ⟨op, ho, hpre⟩
      · exact Or.inl h
      · obtain ⟨p, hp⟩ := hsent op ho
        exact Or.inr ⟨p, _, hp, hpre⟩
    intro a ha' b hb he
    have := congrArg splitSlash he
    rw [splitSlash_join (by simp) (hno a ha'), splitSlash_join (by simp) (hno b hb)] at this
    exact (List.cons.inj this).2
  · intro e
    constructor
    · intro he
      obtain ⟨x, hx⟩ := zip_right hlen he
      have hxm : x ∈ groups.map Prod.fst := (List.of_mem_zip hx).1
      rcases t4 _ hx with ⟨path, c, n, ho, hsp, he'⟩ | ⟨hno, he'⟩
      · simp only at he'
        subst he'
        obtain ⟨p, hp, hct, hr⟩ := hreads path c n ho
        rw [readContent_eq hr]
        have := Archived.file (name := root.cid.toText) hp hct
        rw [hsp] at this
        exact this
      · simp only at he' hno
        subst he'
        rcases (hall x).mp hxm with rfl | ⟨op, ho, hpre⟩
        · exact .root
        · obtain ⟨p, hp, hcase⟩ := ha.sent_of ho
          by_cases hx0 : x = []
          · subst hx0; exact .root
          by_cases hxe : x = splitSlash op.path
          · rcases hcase with ⟨c, n, he, _⟩ | ⟨_, hct⟩
            · rw [he] at ho
              exact absurd hxe.symm (hno _ _ _ ho)
            · have := Archived.dir (name := root.cid.toText) hp hct
              rw [← hxe] at this
              exact this
          · exact .above hp hpre hxe hx0
    · intro he
      have dirs : ∀ x, x ∈ groups.map Prod.fst →
          (x = [] ∨ ∃ op ∈ ops, (x <+: splitSlash op.path ∧ x ≠ splitSlash op.path) ∨ (x = splitSlash op.path ∧ op.kind = .dir)) →
          (⟨joinSlash (root.cid.toText :: x), .dir, 0o755, 0⟩ : TarEntry) ∈ es := by
        intro x hxm hx
        obtain ⟨e', hz⟩ := zip_left hlen hxm
        rcases t4 _ hz with ⟨path, c, n, ho, hsp, _⟩ | ⟨_, he'⟩
        · exact absurd hsp (hdirno x hx path c n ho)
        · have := (List.of_mem_zip hz).2
          simp only at he'
          rw [he'] at this
          exact this
      cases he with
      | root => exact dirs [] ((hall []).mpr (Or.inl rfl)) (Or.inl rfl)
      | @file p path hp hct =>
        rcases ha.op_of hp with ⟨_, c, n, ho, hsto⟩ | ⟨hct', _⟩
        · obtain ⟨e', hz⟩ := zip_left hlen ((hall (splitSlash path)).mpr (Or.inr ⟨_, ho, List.prefix_refl _⟩))
          rcases t4 _ hz with ⟨path', c', n', ho', hsp, he'⟩ | ⟨hno, _⟩
          · have hc := hone _ _ _ _ _ _ _ ho ho' rfl hsp
            subst hc
            rw [readContent_eq (hsto s.fetch hf).2] at he'
            have := (List.of_mem_zip hz).2
            simp only at he'
            rw [he'] at this
            exact this
          · exact absurd rfl (hno _ _ _ ho)
        · rw [hct] at hct'
          exact absurd (Option.some.inj hct') (by decide +kernel)
      | @dir p path hp hct =>
        rcases ha.op_of hp with ⟨hct', _⟩ | ⟨_, ho⟩
        · rw [hct] at hct'
          exact absurd (Option.some.inj hct') (by decide +kernel)
        · exact dirs _ ((hall _).mpr (Or.inr ⟨_, ho, List.prefix_refl _⟩)) (Or.inr ⟨_, ho, Or.inr ⟨rfl, rfl⟩⟩)
      | @above p path x hp hpre hne hx0 =>
        have ho : ∃ op ∈ ops, op.path = path := by
          rcases ha.op_of hp with ⟨_, c, n, ho, _⟩ | ⟨_, ho⟩
          · exact ⟨_, ho, rfl⟩
          · exact ⟨_, ho, rfl⟩
        obtain ⟨op, ho, rfl⟩ := ho
        exact dirs x ((hall x).mpr (Or.inr ⟨op, ho, hpre⟩)) (Or.inr ⟨op, ho, Or.inl ⟨hpre, hne⟩⟩)
  · intro fuel hfuel
    have e1 : "/ipfs/".toUTF8.toList = 47 :: sIpfs ++ [47] := by decide +kernel
    have hparse : IpfsPath.parse q.mb ("/ipfs/".toUTF8.toList ++ root.cid.toText) = some ⟨.ipld root.cid, []⟩ := by
      have he : "/ipfs/".toUTF8.toList ++ root.cid.toText = IpfsPath.text ⟨.ipld root.cid, []⟩ := by
        unfold IpfsPath.text
        simp only [PathRoot.text]
        rw [e1]
        simp
      rw [he]
      refine parse_text_of (ty := sIpfs) (key := root.cid.toText) (by decide) (Cid.toText_no_slash root.cid) (by simp) rfl ?_
      simp only [parseRoot, ne_eq, not_true_eq_false, if_false, true_or, if_true, Cid.ofText_toText q.mb root.cid htop, Option.map_some]
    have hu : utf8Ok ("/ipfs/".toUTF8.toList ++ root.cid.toText) = true := by
      rw [utf8Ok_append (by decide +kernel)]; exact utf8Ok_ascii (toText_ascii root.cid)
    have hq := getQuery_of_cat (C66_url q hl esc h37 h38 h43 _ hu _ hparse none (by simp))
    have hd : s.fetch root.cid = some root.block := hserve root (by simp)
    have hloc := locate_follow q.mb { s with fuel := fuel } (top := root.cid) (segs := []) hd (by rw [hv0 root (by simp)]; rfl) rfl
      (by simp only [List.length_nil]; omega)
    unfold getRequest
    rw [hq]
    simp only [getInner, hloc, getStream]
    rw [walkFrom_eq fuel s.debug root.cid.toText hd, hfeed (fuel + 1) (by omega)]
    simp only [t1, if_true]

/-- The entries of an archive that is sent completely. -/
def archiveOf : Reply GetEnd → Option (List TarEntry)
  | .stream chunks .done => tarEntries chunks.flatten
  | _ => none

/-! #### What does not hold -/

/-- Two files, one of them in a directory named by a dot. -/
def exDotForm : List FormPart :=
  [⟨some "file-1".toUTF8.toList, some "./a".toUTF8.toList, some octetStream, [[1, 2, 3]], false⟩,
   ⟨some "file-2".toUTF8.toList, some "b".toUTF8.toList, some octetStream, [[4, 5, 6]], false⟩]

/-- What is known after adding them: the blocks and the cid in the last line. -/
def exDotAdded : Option (List Block × Cid) :=
  match addRounds exDirHash (fun _ => true) exAddArgs exDotForm false 20 with
  | some (ev, .ok ()) =>
    match (linesOf ev).getLast? with
    | some (.added [] top _) => some (putsOf ev, top)
    | _ => none
  | _ => none

/-- Names that are a dot are accepted when adding, but the archive has the files at other paths: here one of them beside the
root instead of in it. A debug build panics instead. -/
theorem C67_dot : ∃ blocks top es, exDotAdded = some (blocks, top) ∧
    archiveOf (getRequest exQueryEnv { exServed with debug := false, fetch := fun c => blocks.lookup c }
      (catUrl exEsc ("/ipfs/".toUTF8.toList ++ top.toText) none)) = some es ∧
    ⟨"b".toUTF8.toList, .file [4, 5, 6], 0o644, 0⟩ ∈ es ∧
    ⟨joinSlash [top.toText, "b".toUTF8.toList], .file [4, 5, 6], 0o644, 0⟩ ∉ es := by
  have key : (exDotAdded.bind (fun r => (archiveOf (getRequest exQueryEnv { exServed with debug := false, fetch := fun c => r.1.lookup c }
      (catUrl exEsc ("/ipfs/".toUTF8.toList ++ r.2.toText) none))).map (fun es =>
        decide ((⟨"b".toUTF8.toList, .file [4, 5, 6], 0o644, 0⟩ : TarEntry) ∈ es ∧
          (⟨joinSlash [r.2.toText, "b".toUTF8.toList], .file [4, 5, 6], 0o644, 0⟩ : TarEntry) ∉ es)))) = some true := by
    decide +kernel
  obtain ⟨r, h1, h2⟩ := Option.bind_eq_some_iff.mp key
  obtain ⟨es, h3, h4⟩ := Option.map_eq_some_iff.mp h2
  exact ⟨r.1, r.2, es, h1, h3, of_decide_eq_true h4⟩

/-! ### Examples -/

/-- The archive of the form of C54. -/
example : archiveOf (getRequest exQueryEnv exServed (catUrl exEsc ("/ipfs/".toUTF8.toList ++ exTop.toText) none)) =
    some [⟨exTop.toText, .dir, 0o755, 0⟩, ⟨exTop.toText ++ "/x".toUTF8.toList, .dir, 0o755, 0⟩,
      ⟨exTop.toText ++ "/x/a b".toUTF8.toList, .file [1, 2, 3, 4, 5], 0o644, 0⟩,
      ⟨exTop.toText ++ "/x/d".toUTF8.toList, .dir, 0o755, 0⟩] := by decide +kernel

/-- Its paths can be written. -/
example : PathsFit exTop.toText exForm := by
  have key : ∀ path ∈ ["x/a b".toUTF8.toList, "x/d".toUTF8.toList], (splitSlash path).length = 2 ∧
      ∀ n < 3, TarPath (joinSlash (exTop.toText :: (splitSlash path).take n)) := by decide +kernel
  intro q hq
  rcases hq with rfl | ⟨p, path, ⟨hp, raw, hr, hpath⟩, hpre⟩
  · exact (key "x/d".toUTF8.toList (by simp)).2 0 (by decide)
  · have hm : path ∈ ["x/a b".toUTF8.toList, "x/d".toUTF8.toList] := by
      simp only [exForm, List.mem_cons, List.not_mem_nil, or_false] at hp
      rcases hp with rfl | rfl
      · have := Option.some.inj hr
        subst this
        have e : addPath "/x/a%20b".toUTF8.toList = .ok "x/a b".toUTF8.toList := by decide +kernel
        rw [e] at hpath
        cases hpath; simp
      · have := Option.some.inj hr
        subst this
        have e : addPath "x/d".toUTF8.toList = .ok "x/d".toUTF8.toList := by decide +kernel
        rw [e] at hpath
        cases hpath; simp
    obtain ⟨k1, k2⟩ := key path hm
    have hle := hpre.length_le
    have := k2 q.length (by omega)
    rw [← List.prefix_iff_eq_take.mp hpre] at this
    exact this

end Verif.Props
