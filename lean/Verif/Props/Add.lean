import Verif.Http.AddLemmas
import Verif.Props.DirResolve
import Verif.Props.File

/-!
# C54: the add endpoint
-/

namespace Verif.Props

open Verif Verif.Unixfs Verif.Http

/-! ### Specification -/

/-- The part of a content that is in a range. -/
def within (range : Option Rng) (content : Bytes) : Bytes :=
  match range with
  | none => content
  | some r => (content.take r.stop).drop r.start

/-- `root` is the cid of a dag-pb block in a store, which declares the length of the content and no
metadata; reading it, in full or in part, gives the content or that part, and ends well. -/
def ReadsAs (fetch : Cid → Option Bytes) (root : Cid) (content : Bytes) : Prop :=
  root.codec = codecDagPb ∧ ∃ data, fetch root = some data ∧
    (∃ flat, Flat.parse data = .ok flat ∧ flat.data.filesize = some content.length ∧ Metadata.of flat.data = {}) ∧
    ∀ range : Option Rng, ∃ n chunks, chunks.flatten = within range content ∧
      ∀ fuel, n ≤ fuel → cat fetch range data fuel = (chunks, .done)

/-- What the endpoint has to do with a file: in every store with the blocks it stored, `root` is the top
of a dag for the content, whose blocks have `size` bytes, and reading it gives the content. -/
def StoredAs (stored : List Block) (root : Cid) (content : Bytes) (size : Nat) : Prop :=
  ∀ fetch : Cid → Option Bytes, (∀ b ∈ stored, fetch b.1 = some b.2) →
    (∃ (d : Nat) (t : T d), t.content = content ∧ FileDag fetch d root t size) ∧ ReadsAs fetch root content

/-- The reports on a file: growing, the last one its length. -/
def GoodReports (wanted : Bool) (len : Nat) (ks : List Nat) : Prop :=
  if wanted then ks.getLast? = some len ∧ ks.Pairwise (· ≤ ·) else ks = []

/-- The answers to the parts of a form: the directory entries that are made and the lines that are sent. -/
inductive Answers (args : AddArgs) (stored : List Block) : List FormPart → List DirOp → List AddLine → Prop where
  | nil : Answers args stored [] [] []
  | file {p : FormPart} {ps ops lines} {name raw path : Bytes} {root : Cid} {size : Nat} {ks : List Nat} :
      p.name = some name → (name = "file".toUTF8.toList ∨ "file-".toUTF8.toList <+: name) →
      p.filename = some raw → addPath raw = .ok path → p.contentType = some octetStream →
      StoredAs stored root p.chunks.flatten size → size < 2 ^ 64 → root.Valid → root.toBytes.length = 34 →
      GoodReports args.progress p.chunks.flatten.length ks →
      Answers args stored ps ops lines →
      Answers args stored (p :: ps) (.put path root size :: ops)
        (ks.map (.progress path) ++ .added (if path = [] then root.toText else path) root size :: lines)
  | dir {p : FormPart} {ps ops lines} {name raw path : Bytes} :
      p.name = some name → (name = "dir".toUTF8.toList ∨ "dir-".toUTF8.toList <+: name) →
      p.filename = some raw → addPath raw = .ok path → p.contentType = some xDirectory →
      Answers args stored ps ops lines →
      Answers args stored (p :: ps) (.attrs path {} :: ops) lines

/-- Percent-encoding of the bytes for which `esc` says so. -/
def percentEncode (esc : UInt8 → Bool) (s : Bytes) : Bytes :=
  (s.map (fun c => if esc c then [37, hexDigit (c.toNat / 16), hexDigit (c.toNat % 16)] else [c])).flatten
where
  /-- The digit for a value. -/
  hexDigit (n : Nat) : UInt8 := if n < 10 then UInt8.ofNat (48 + n) else UInt8.ofNat (55 + n)

/-! ### Helpers -/

theorem fieldOk_iff {kind name : Bytes} : fieldOk kind name = true ↔ name = kind ∨ kind ++ [45] <+: name := by
  simp [fieldOk]

theorem fileDash : "file-".toUTF8.toList = "file".toUTF8.toList ++ [45] := by decide +kernel

theorem dirDash : "dir-".toUTF8.toList = "dir".toUTF8.toList ++ [45] := by decide +kernel

theorem StoredAs.mono {a b : List Block} {root : Cid} {content : Bytes} {size : Nat}
    (h : StoredAs a root content size) (hs : ∀ x ∈ a, x ∈ b) : StoredAs b root content size :=
  fun fetch hf => h fetch (fun x hx => hf x (hs x hx))

theorem Answers.mono {args : AddArgs} {a b : List Block} (hs : ∀ x ∈ a, x ∈ b) {ps ops lines}
    (h : Answers args a ps ops lines) : Answers args b ps ops lines := by
  induction h with
  | nil => exact .nil
  | file h1 h2 h3 h4 h5 h6 h7 h8 h9 h10 _ ih => exact .file h1 h2 h3 h4 h5 (h6.mono hs) h7 h8 h9 h10 ih
  | dir h1 h2 h3 h4 h5 _ ih => exact .dir h1 h2 h3 h4 h5 ih

theorem T.flat_filesize {sha : Bytes → Bytes} {d : Nat} (t : T d) :
    (t.flat sha).data.filesize = some t.content.length := by
  cases d with
  | zero => rfl
  | succ d => rw [T.flat_node]

/-- Everything about the blocks of a file. -/
theorem adder_all {sha : Bytes → Bytes} (hsha : Digest32 sha) {chunk bf : Nat} {slices : List Bytes}
    (hfit : Fits chunk bf slices.flatten) : ∃ blocks a last,
      Adder.pushSlices sha { chunk := chunk, bf := bf } slices = .ok (blocks, a) ∧
      a.finish sha = .ok last ∧
      (last = [] ↔ slices.flatten.length = chunk) ∧
      (blocks = [] ↔ slices.flatten.length < chunk) ∧
      ∀ root, (blocks ++ last).getLast? = some root →
        StoredAs (blocks ++ last) root.1 slices.flatten (bytesIn (blocks ++ last)) ∧
        bytesIn (blocks ++ last) < 2 ^ 64 ∧ root.1.Valid ∧ root.1.toBytes.length = 34 := by
  obtain ⟨blocks, a, last, h1, h2, h3, h4, h5⟩ := adder_parts sha (chunk := chunk) (bf := bf)
    hfit.chunkPos hfit.bfGe slices
  refine ⟨blocks, a, last, h1, h2, h3, h4, ?_⟩
  intro root hroot
  obtain ⟨log, r, hlog, hadd, hlast, hcon, hshape, htot, _, hsub⟩ := add_spec hsha hfit
  have hall : addFile sha chunk bf slices = .ok (blocks ++ last) := by
    unfold addFile; rw [h1]; simp only []; rw [h2]
  have heq : blocks ++ last = log.map (AnyT.block sha) := by
    have := hadd slices rfl
    rw [hall] at this
    exact Except.ok.inj this
  have hr : root = r.2.block sha := by
    rw [heq, hlast] at hroot
    exact (Option.some.inj hroot).symm
  have hsum : bytesIn (blocks ++ last) = r.2.total sha := h5 r log hlog
  have hlen := hfit.content
  rw [hsum, hr]
  refine ⟨?_, htot, ?_, ?_⟩
  · intro fetch hf
    have hf' : ∀ s, Sub s r → fetch (s.2.block sha).1 = some (s.2.block sha).2 := by
      intro s hs
      exact hf _ (by rw [heq]; exact List.mem_map.mpr ⟨s, hsub s hs, rfl⟩)
    refine ⟨⟨r.1, r.2, hcon, fileDag_of_blocks hsha hfit.chunkLe hfit.bfLe r.2 hshape htot
      (by rw [hcon]; omega) hf'⟩, by rw [T.block_eq]; rfl, (r.2.block sha).2, hf' r (Sub.refl r), ?_, ?_⟩
    · refine ⟨r.2.flat sha, T.parse_block hsha hfit.chunkLe hfit.bfLe r.2 hshape htot (by rw [hcon]; omega), ?_, ?_⟩
      · rw [← hcon]; exact T.flat_filesize r.2
      · obtain ⟨d, t⟩ := r
        cases d <;> rfl
    · intro range
      obtain ⟨n, cs, hcs, hcat⟩ := cat_tree range hsha hfit.chunkLe hfit.bfLe (fetch := fetch) r.2 hshape
        htot (by rw [hcon]; omega) hf'
      refine ⟨n, cs, ?_, hcat⟩
      rw [hcs, hcon]
      cases range <;> simp [slice, within]
  · rw [T.block_eq]; exact Cid.v0_valid _ (hsha _)
  · rw [T.block_eq]; exact Cid.v0_toBytes_length _ (hsha _)

/-- Which blocks are stored for the parts of a form, and what is put into the tree for them: those of the files, one file after the other. -/
inductive FileDags (sha : Bytes → Bytes) (args : AddArgs) : List FormPart → List DirOp → List Block → Prop where
  | nil : FileDags sha args [] [] []
  | file {p : FormPart} {ps ops blocks puts} {raw path : Bytes} {root : Block} :
      p.filename = some raw → addPath raw = .ok path → p.contentType = some octetStream →
      addFile sha args.chunk args.bf p.chunks = .ok blocks → blocks.getLast? = some root →
      FileDags sha args ps ops puts → FileDags sha args (p :: ps) (.put path root.1 (bytesIn blocks) :: ops) (blocks ++ puts)
  | dir {p : FormPart} {ps ops puts} {raw path : Bytes} :
      p.filename = some raw → addPath raw = .ok path → p.contentType = some xDirectory →
      FileDags sha args ps ops puts → FileDags sha args (p :: ps) (.attrs path {} :: ops) puts

/-- The totals of the directories of a form fit into 64 bits. -/
def FormTotals (sha : Bytes → Bytes) (args : AddArgs) (parts : List FormPart) : Prop :=
  ∀ ops puts, FileDags sha args parts ops puts → TotalsFit sha (builderAfter args.tree ops)

/-- What a file part does when it succeeds. -/
theorem filePart_inv {sha : Bytes → Bytes} (hsha : Digest32 sha) {put : Block → Bool} {args : AddArgs}
    {tree tree' : Builder} {path : Bytes} {p : FormPart} {ev : List AddEvent}
    (hfit : Fits args.chunk args.bf p.chunks.flatten)
    (h : addFilePart sha put args tree path p = (ev, .ok tree')) :
    ∃ root size ks, StoredAs (putsOf ev) root p.chunks.flatten size ∧ size < 2 ^ 64 ∧ root.Valid ∧
      root.toBytes.length = 34 ∧ GoodReports args.progress p.chunks.flatten.length ks ∧
      linesOf ev = ks.map (.progress path) ++ [.added (if path = [] then root.toText else path) root size] ∧
      tree.putLink path root size = (tree', .ok ()) ∧
      addFile sha args.chunk args.bf p.chunks = .ok (putsOf ev) ∧
      size = bytesIn (putsOf ev) ∧ ∃ r, (putsOf ev).getLast? = some r ∧ r.1 = root := by
  unfold addFilePart at h
  cases hr : readFile sha put args path p.broken { chunk := args.chunk, bf := args.bf } 0 0 p.chunks with
  | mk ev1 r1 =>
    rw [hr] at h
    cases r1 with
    | error e => cases (Prod.mk.inj h).2
    | ok q =>
      obtain ⟨hbr, bs, a, hps, hput⟩ := readFile_inv hr
      obtain ⟨blocks, a', last, h1, h2, h3, h4, h5⟩ := adder_all hsha hfit
      rw [hps] at h1
      cases h1
      obtain ⟨ev2, e1, e2, e3⟩ := readFile_ok (args := args) (path := path) (broken := p.broken) hps hput 0 0
      rw [hr, hbr] at e1
      simp only [Bool.false_eq_true, if_false, Nat.zero_add] at e1
      obtain ⟨rfl, he⟩ := Prod.mk.inj e1
      cases he
      simp only [] at h
      rw [h2] at h
      simp only [] at h
      cases hi : importAll put none 0 last with
      | mk ev3 r3 =>
        rw [hi] at h
        cases r3 with
        | error e => cases (Prod.mk.inj h).2
        | ok sv =>
          have hall := importAll_ok (importAll_inv hi) none 0
          rw [hi] at hall
          obtain ⟨rfl, he⟩ := Prod.mk.inj hall
          have he := Except.ok.inj he
          cases hl : last.getLast? with
          | none =>
            rw [he] at h
            have : lastOf none 0 last = none := by simp [lastOf, hl]
            rw [this] at h
            cases (Prod.mk.inj h).2
          | some r =>
            have hlo : lastOf none 0 last = some (r.1, bytesIn last) := by simp [lastOf, hl]
            rw [he, hlo] at h
            simp only [] at h
            cases hpl : tree.putLink path r.1 (bytesIn bs + bytesIn last) with
            | mk t2 r2 =>
              rw [hpl] at h
              cases r2 with
              | error e => cases (Prod.mk.inj h).2
              | ok u =>
                cases u
                obtain ⟨rfl, ht⟩ := Prod.mk.inj h
                cases ht
                obtain ⟨s1, s2, s3, s4⟩ := h5 r (by rw [List.getLast?_append, hl]; rfl)
                rw [bytesIn_append] at s1 s2
                refine ⟨r.1, _, if args.progress then reports sha { chunk := args.chunk, bf := args.bf } 0 p.chunks ++
                  [p.chunks.flatten.length] else [], s1.mono ?_, s2, s3, s4, ?_, ?_, hpl, ?_⟩
                · intro x hx
                  simp only [putsOf_append, e2, putsOf_putAll]
                  simp only [List.mem_append] at hx ⊢
                  exact Or.inl (Or.inl hx)
                · unfold GoodReports
                  obtain ⟨g1, g2⟩ := reports_sorted (sha := sha) p.chunks { chunk := args.chunk, bf := args.bf } 0
                  cases args.progress with
                  | false => simp
                  | true =>
                    simp only [if_true]
                    refine ⟨by simp, ?_⟩
                    rw [List.pairwise_append]
                    refine ⟨g1, by simp, ?_⟩
                    intro x hx y hy
                    rw [List.mem_singleton] at hy
                    subst hy
                    have := g2 x hx
                    omega
                · simp only [linesOf_append, e3, linesOf_putAll]
                  cases args.progress <;> simp [linesOf]
                · have hputs : putsOf ((ev1 ++ putAll last) ++ (if args.progress then [.line (.progress path p.chunks.flatten.length)] else []) ++
                      [.line (.added (if path = [] then r.1.toText else path) r.1 (bytesIn bs + bytesIn last))]) = bs ++ last := by
                    simp only [putsOf_append, e2, putsOf_putAll]
                    cases args.progress <;> simp [putsOf]
                  refine ⟨?_, by rw [hputs, bytesIn_append], r, ?_, rfl⟩
                  · unfold addFile
                    rw [hps]
                    simp only []
                    rw [h2]
                    simp only [Except.ok.injEq]
                    exact hputs.symm
                  · rw [hputs, List.getLast?_append, hl]
                    rfl

theorem addParts_inv {sha : Bytes → Bytes} (hsha : Digest32 sha) {put : Block → Bool} {args : AddArgs}
    {broken : Bool} : ∀ {parts : List FormPart} {tree tree' : Builder} {ev : List AddEvent},
    (∀ p ∈ parts, Fits args.chunk args.bf p.chunks.flatten) →
    addParts sha put args broken tree parts = (ev, .ok tree') →
    broken = false ∧ ∃ ops, Answers args (putsOf ev) parts ops (linesOf ev) ∧
      tree' = ops.foldl (fun b op => (op.run b).1) tree ∧ acceptedOps tree ops = ops ∧ FileDags sha args parts ops (putsOf ev) := by
  intro parts
  induction parts with
  | nil =>
    intro tree tree' ev _ h
    rw [addParts] at h
    cases broken with
    | true => cases (Prod.mk.inj h).2
    | false => cases h; exact ⟨rfl, [], .nil, rfl, rfl, .nil⟩
  | cons p ps ih =>
    intro tree tree' ev hfit h
    rw [addParts] at h
    cases hp : addPart sha put args tree p with
    | mk ev1 r1 =>
      rw [hp] at h
      cases r1 with
      | error e => cases (Prod.mk.inj h).2
      | ok t1 =>
        simp only [] at h
        cases hq : addParts sha put args broken t1 ps with
        | mk ev2 r2 =>
          rw [hq] at h
          obtain ⟨rfl, hr⟩ := Prod.mk.inj h
          cases hr
          obtain ⟨hb, ops, ha, ht, hacc, hfd⟩ := ih (fun x hx => hfit x (by simp [hx])) hq
          refine ⟨hb, ?_⟩
          have ha := ha.mono (b := putsOf (ev1 ++ ev2)) (by
            intro x hx; rw [putsOf_append]; exact List.mem_append.mpr (Or.inr hx))
          unfold addPart at hp
          cases hn : p.name with
          | none => rw [hn] at hp; cases (Prod.mk.inj hp).2
          | some name =>
            cases hf : p.filename with
            | none => rw [hn, hf] at hp; cases (Prod.mk.inj hp).2
            | some raw =>
              rw [hn, hf] at hp
              simp only [] at hp
              cases hpa : addPath raw with
              | error e => rw [hpa] at hp; cases (Prod.mk.inj hp).2
              | ok path =>
                rw [hpa] at hp
                simp only [] at hp
                cases hct : p.contentType with
                | none => rw [hct] at hp; cases (Prod.mk.inj hp).2
                | some ct =>
                  rw [hct] at hp
                  simp only [] at hp
                  split at hp
                  · rename_i hc
                    split at hp
                    · rename_i hfo
                      obtain ⟨root, size, ks, s1, s2, s3, s4, s5, s6, s7, s8, s11, r, s9, s10⟩ :=
                        filePart_inv hsha (hfit p (by simp)) hp
                      refine ⟨.put path root size :: ops, ?_, ?_, ?_, ?_⟩
                      · rw [linesOf_append, s6, List.append_assoc, List.singleton_append]
                        refine .file hn (by have := fieldOk_iff.mp hfo; rwa [← fileDash] at this) hf hpa (by rw [hct, hc])
                          (s1.mono ?_) s2 s3 s4 s5 ha
                        intro x hx; rw [putsOf_append]; exact List.mem_append.mpr (Or.inl hx)
                      · simp only [List.foldl_cons, DirOp.run, s7]; exact ht
                      · simp only [acceptedOps, DirOp.run, s7, hacc]
                      · rw [putsOf_append, ← s10, s11]
                        exact .file hf hpa (by rw [hct, hc]) s8 s9 hfd
                    · cases (Prod.mk.inj hp).2
                  · split at hp
                    · rename_i hc
                      split at hp
                      · rename_i hfo
                        split at hp
                        · cases (Prod.mk.inj hp).2
                        · cases hsm : tree.setMetadata path {} with
                          | mk t2 r2 =>
                            rw [hsm] at hp
                            cases r2 with
                            | error e => cases (Prod.mk.inj hp).2
                            | ok u =>
                              cases u
                              obtain ⟨rfl, ht2⟩ := Prod.mk.inj hp
                              cases ht2
                              refine ⟨.attrs path {} :: ops, ?_, ?_, ?_, ?_⟩
                              · exact .dir hn (by have := fieldOk_iff.mp hfo; rwa [← dirDash] at this) hf hpa (by rw [hct, hc]) ha
                              · simp only [List.foldl_cons, DirOp.run, hsm]; exact ht
                              · simp only [acceptedOps, DirOp.run, hsm, hacc]
                              · exact .dir hf hpa (by rw [hct, hc]) hfd
                      · cases (Prod.mk.inj hp).2
                    · cases (Prod.mk.inj hp).2

theorem addDirs_inv {put : Block → Bool} : ∀ {nodes : List TreeNode} {e : BuildEnd} {ev : List AddEvent},
    addDirs put nodes e = (ev, .ok ()) → e = .done ∧
      linesOf ev = nodes.map (fun n => .added n.path n.cid n.total) ∧
      putsOf ev = nodes.map (fun n => (n.cid, n.block)) := by
  intro nodes
  induction nodes with
  | nil =>
    intro e ev h
    cases e with
    | done => cases h; exact ⟨rfl, rfl, rfl⟩
    | failed e => cases (Prod.mk.inj h).2
  | cons n ns ih =>
    intro e ev h
    rw [addDirs] at h
    split at h
    · cases hr : addDirs put ns e with
      | mk ev1 r1 =>
        rw [hr] at h
        obtain ⟨rfl, h2⟩ := Prod.mk.inj h
        simp only [] at h2
        subst h2
        obtain ⟨i1, i2, i3⟩ := ih hr
        exact ⟨i1, by simp [linesOf, i2], by simp [putsOf, i3]⟩
    · cases (Prod.mk.inj h).2

/-! ### The properties -/

theorem addStream_inv {sha : Bytes → Bytes} (hsha : Digest32 sha) {put : Block → Bool} {args : AddArgs}
    {parts : List FormPart} {broken : Bool} {ev : List AddEvent}
    (hfit : ∀ p ∈ parts, Fits args.chunk args.bf p.chunks.flatten)
    (h : addStream sha put args parts broken = (ev, .ok ())) :
    ∃ ops lines nodes puts, Answers args (putsOf ev) parts ops lines ∧
      acceptedOps (Builder.new args.tree) ops = ops ∧
      (builderAfter args.tree ops).build.run sha = (nodes, .done) ∧
      linesOf ev = lines ++ nodes.map (fun n => .added n.path n.cid n.total) ∧
      FileDags sha args parts ops puts ∧ putsOf ev = puts ++ nodes.map (fun n => (n.cid, n.block)) := by
  unfold addStream at h
  cases hp : addParts sha put args broken (Builder.new args.tree) parts with
  | mk ev1 r1 =>
    rw [hp] at h
    cases r1 with
    | error e => cases (Prod.mk.inj h).2
    | ok tree =>
      simp only [] at h
      cases hrun : tree.build.run sha with
      | mk nodes e =>
        rw [hrun] at h
        simp only [] at h
        cases hd : addDirs put nodes e with
        | mk ev2 r2 =>
          rw [hd] at h
          obtain ⟨rfl, hr⟩ := Prod.mk.inj h
          simp only [] at hr
          subst hr
          obtain ⟨_, ops, ha, ht, hacc, hfd⟩ := addParts_inv hsha hfit hp
          obtain ⟨rfl, d2, d3⟩ := addDirs_inv hd
          subst ht
          refine ⟨ops, linesOf ev1, nodes, _, ha.mono ?_, hacc, hrun, by rw [linesOf_append, d2], hfd, by rw [putsOf_append, d3]⟩
          intro x hx; rw [putsOf_append]; exact List.mem_append.mpr (Or.inl hx)

/-- C54. When a request is answered without error, then for every part in order there is one entry of the
directory tree: for a file the lines are the reports, the last one being its length, and then the line
with the cid of the file and the size of all its blocks, which is the size of the entry; the lines for the
directories that come of these entries follow. All of it was stored. -/
theorem C54_answer_partial {sha : Bytes → Bytes} (hsha : Digest32 sha) {put : Block → Bool} {args : AddArgs}
    {parts : List FormPart} {broken : Bool} {ev : List AddEvent}
    (hfit : ∀ p ∈ parts, Fits args.chunk args.bf p.chunks.flatten)
    (h : addStream sha put args parts broken = (ev, .ok ())) :
    ∃ ops lines nodes, Answers args (putsOf ev) parts ops lines ∧
      acceptedOps (Builder.new args.tree) ops = ops ∧
      (builderAfter args.tree ops).build.run sha = (nodes, .done) ∧
      linesOf ev = lines ++ nodes.map (fun n => .added n.path n.cid n.total) ∧
      ∀ n ∈ nodes, (n.cid, n.block) ∈ putsOf ev := by
  obtain ⟨ops, lines, nodes, puts, h1, h2, h3, h4, -, h5⟩ := addStream_inv hsha hfit h
  refine ⟨ops, lines, nodes, h1, h2, h3, h4, fun n hn => ?_⟩
  rw [h5]
  exact List.mem_append.mpr (Or.inr (List.mem_map.mpr ⟨n, hn, rfl⟩))

/-- C54. A file of the default chunk size exactly makes the endpoint panic; any other file is added if its
blocks can be stored and its path can be put into the tree. -/
theorem C54_accepted {sha : Bytes → Bytes} (hsha : Digest32 sha) {args : AddArgs}
    {tree : Builder} {path : Bytes} {p : FormPart} (hfit : Fits args.chunk args.bf p.chunks.flatten)
    (hbr : p.broken = false) :
    (p.chunks.flatten.length = args.chunk →
      (addFilePart sha (fun _ => true) args tree path p).2 = .error .nothingFinished) ∧
    (p.chunks.flatten.length ≠ args.chunk → ∃ root size, StoredAs
        (putsOf (addFilePart sha (fun _ => true) args tree path p).1) root p.chunks.flatten size ∧
      (addFilePart sha (fun _ => true) args tree path p).2 =
        match tree.putLink path root size with
        | (t, .ok ()) => .ok t
        | (_, .error e) => .error (.treeGathering e)) := by
  obtain ⟨bs, a, last, h1, h2, h3, h4, h5⟩ := adder_all hsha hfit
  obtain ⟨ev, e1, e2, e3⟩ := readFile_ok (put := fun _ => true) (args := args) (path := path) (broken := p.broken) h1
    (fun _ _ => rfl) 0 0
  rw [hbr] at e1
  simp only [Bool.false_eq_true, if_false, Nat.zero_add] at e1
  constructor
  · intro hl
    unfold addFilePart
    rw [hbr, e1]
    simp only []
    rw [h2]
    simp only []
    rw [importAll_ok (fun _ _ => rfl), h3.mpr hl]
    rfl
  · intro hl
    have hne : last ≠ [] := fun h0 => hl (h3.mp h0)
    cases hg : last.getLast? with
    | none => exact absurd (List.getLast?_eq_none_iff.mp hg) hne
    | some r =>
      have hlo : lastOf none 0 last = some (r.1, bytesIn last) := by simp [lastOf, hg]
      obtain ⟨s1, s2, s3, s4⟩ := h5 r (by rw [List.getLast?_append, hg]; rfl)
      rw [bytesIn_append] at s1
      refine ⟨r.1, bytesIn bs + bytesIn last, ?_, ?_⟩
      · refine s1.mono ?_
        intro x hx
        unfold addFilePart
        rw [hbr, e1]
        simp only []
        rw [h2]
        simp only []
        rw [importAll_ok (fun _ _ => rfl), hlo]
        simp only []
        cases tree.putLink path r.1 (bytesIn bs + bytesIn last) with
        | mk t q =>
          cases q with
          | error e => simp only [putsOf_append, e2, putsOf_putAll]; exact hx
          | ok u =>
            simp only [putsOf_append, e2, putsOf_putAll]
            simp only [List.mem_append] at hx ⊢
            exact Or.inl (Or.inl hx)
      · unfold addFilePart
        rw [hbr, e1]
        simp only []
        rw [h2]
        simp only []
        rw [importAll_ok (fun _ _ => rfl), hlo]
        simp only []
        cases tree.putLink path r.1 (bytesIn bs + bytesIn last) with
        | mk t q =>
          cases q with
          | error e => rfl
          | ok u => rfl

theorem addPath_spec {raw path : Bytes} (h : addPath raw = .ok path) :
    utf8Ok path = true ∧ (percentDecode raw = path ∨ percentDecode raw = 47 :: path) := by
  unfold addPath at h
  simp only [] at h
  split at h
  · rename_i hu
    split at h
    · rename_i r he
      cases h
      refine ⟨?_, Or.inr he⟩
      rw [he] at hu
      have := utf8Ok_append (a := [47]) (b := path) (by decide)
      rw [List.singleton_append] at this
      rw [← this]; exact hu
    · cases h; exact ⟨hu, Or.inl rfl⟩
  · cases h

theorem percentDecode_length (raw : Bytes) : (percentDecode raw).length ≤ raw.length := by
  fun_induction percentDecode raw with
  | case1 => simp
  | case2 a b s x y _ _ ih => simp; omega
  | case3 a b s _ ih => simp at ih ⊢; omega
  | case4 c s _ ih => simp; omega

/-- The entries made are what the builder expects. -/
theorem Answers.fits {args : AddArgs} {stored : List Block} {parts ops lines}
    (h : Answers args stored parts ops lines)
    (hs : ∀ p ∈ parts, ∀ raw, p.filename = some raw → raw.length < 2 ^ 30) : ∀ op ∈ ops, OpFits op := by
  have key : ∀ {raw path : Bytes}, addPath raw = .ok path → raw.length < 2 ^ 30 → path.length < 2 ^ 30 := by
    intro raw path h1 h2
    have h3 := percentDecode_length raw
    rcases (addPath_spec h1).2 with h4 | h4
    · rw [h4] at h3; omega
    · rw [h4] at h3; simp at h3; omega
  induction h with
  | nil => intro op ho; cases ho
  | file h1 h2 h3 h4 h5 h6 h7 h8 h9 h10 _ ih =>
    intro op ho
    rcases List.mem_cons.mp ho with rfl | ho
    · refine ⟨(addPath_spec h4).1, key h4 (hs _ (by simp) _ h3), ?_⟩
      intro p c n he
      cases he
      exact ⟨h8, by omega, h7⟩
    · exact ih (fun p hp => hs p (by simp [hp])) op ho
  | dir h1 h2 h3 h4 h5 _ ih =>
    intro op ho
    rcases List.mem_cons.mp ho with rfl | ho
    · refine ⟨(addPath_spec h4).1, key h4 (hs _ (by simp) _ h3), ?_⟩
      intro p c n he
      cases he
    · exact ih (fun p hp => hs p (by simp [hp])) op ho

/-- C54. The size of a file, as it is reported, is the size that the listing of the directory of the file
has for it, together with its name and its cid. -/
theorem C54_listing {sha : Bytes → Bytes} (hsha : Digest32 sha) {args : AddArgs} {parts : List FormPart}
    {stored : List Block} {ops : List DirOp} {lines : List AddLine} {nodes : List TreeNode}
    (hs : ∀ p ∈ parts, ∀ raw, p.filename = some raw → raw.length < 2 ^ 30)
    (ha : Answers args stored parts ops lines) (hacc : acceptedOps (Builder.new args.tree) ops = ops)
    (htot : TotalsFit sha (builderAfter args.tree ops))
    (hrun : (builderAfter args.tree ops).build.run sha = (nodes, .done))
    {path : Bytes} {root : Cid} {size : Nat} (hop : .put path root size ∈ ops) {q : List Bytes} {name : Bytes}
    (hq : splitSlash path = q ++ [name]) (hd : args.wrap = true ∨ q ≠ []) :
    ∃ n ∈ nodes, n.path = joinSlash q ∧ ∃ links,
      Flat.parse n.block = .ok { links, data := { type := .directory } } ∧
      ⟨some root.toBytes, some name, some size⟩ ∈ links := by
  obtain ⟨qs, node, _, _, hmem, hout, hnode⟩ := C12_nodes hsha args.tree ops (ha.fits hs) htot hrun
  have hdir : entryAt (builderAfter args.tree ops).root q = some .dir := by
    refine (C11_tree args.tree ops q).2.mpr (Or.inr ⟨_, by rw [hacc]; exact hop, Or.inl ?_⟩)
    simp only [DirOp.path, hq]
    refine ⟨⟨[name], rfl⟩, ?_⟩
    intro h0
    have := congrArg List.length h0
    simp at this
  have hleaf : entryAt (builderAfter args.tree ops).root (q ++ [name]) = some (.leaf ⟨root, size⟩) := by
    refine ((C11_tree args.tree ops (q ++ [name])).1 _).mpr ⟨_, by rw [hacc]; exact hop, ?_, rfl⟩
    simp only [DirOp.path, hq]
  have hqm : q ∈ qs := (hmem q).mpr ⟨hdir, hd⟩
  obtain ⟨n1, _, links, n2, _, n3, _⟩ := hnode q hqm
  refine ⟨node q, by rw [hout]; exact List.mem_map.mpr ⟨q, hqm, rfl⟩, n1, links, n2, ?_⟩
  exact (n3 _).mpr ⟨name, _, hleaf, rfl⟩

/-- C54. With a wrapping directory, the last line is for that directory, and from its cid the path of
every file leads to a file with the content that was sent. -/
theorem C54_read_back {sha : Bytes → Bytes} (hsha : Digest32 sha) {args : AddArgs}
    (hw : args.wrap = true) {parts : List FormPart} {stored : List Block} {ops : List DirOp}
    {lines : List AddLine} {nodes : List TreeNode}
    (hs : ∀ p ∈ parts, ∀ raw, p.filename = some raw → raw.length < 2 ^ 30)
    (ha : Answers args stored parts ops lines) (hacc : acceptedOps (Builder.new args.tree) ops = ops)
    (htot : TotalsFit sha (builderAfter args.tree ops))
    (hrun : (builderAfter args.tree ops).build.run sha = (nodes, .done))
    (hst : ∀ n ∈ nodes, (n.cid, n.block) ∈ stored)
    {fetch : Cid → Option Bytes} (hf : ∀ b ∈ stored, fetch b.1 = some b.2) :
    ∃ top total, (lines ++ nodes.map (fun n => AddLine.added n.path n.cid n.total)).getLast? =
        some (.added [] top total) ∧
      ∀ p ∈ parts, p.contentType = some octetStream → ∀ raw path, p.filename = some raw → addPath raw = .ok path →
        ∃ file, followNames fetch top (splitSlash path) = .reached file ∧ ReadsAs fetch file p.chunks.flatten := by
  have hops := ha.fits hs
  obtain ⟨front, root, hfr, hroot, hx⟩ := C12_root_last hsha args.tree ops hops htot hw hrun
  clear hx
  subst hfr
  refine ⟨root.cid, root.total, by rw [← hroot]; simp, ?_⟩
  intro p hp hct raw path hraw hpath
  have hop : ∃ file size, DirOp.put path file size ∈ ops ∧ StoredAs stored file p.chunks.flatten size := by
    clear hs hrun hacc hops htot
    induction ha with
    | nil => cases hp
    | file h1 h2 h3 h4 h5 h6 h7 h8 h9 h10 _ ih =>
      rcases List.mem_cons.mp hp with rfl | hp
      · rw [hraw] at h3; cases h3
        rw [hpath] at h4; cases h4
        exact ⟨_, _, by simp, h6⟩
      · obtain ⟨f, n, a, b⟩ := ih hp
        exact ⟨f, n, by simp [a], b⟩
    | dir h1 h2 h3 h4 h5 _ ih =>
      rcases List.mem_cons.mp hp with rfl | hp
      · rw [hct] at h5
        exact absurd (Option.some.inj h5) (by decide +kernel)
      · obtain ⟨f, n, a, b⟩ := ih hp
        exact ⟨f, n, by simp [a], b⟩
  obtain ⟨file, size, h1, h2⟩ := hop
  refine ⟨file, C10_found hsha args.tree ops hops htot hw hrun (fun n hn => hf _ (hst n hn))
    (by rw [hacc]; exact h1), (h2 fetch hf).2⟩

/-- C54. The reports are running totals: for a file longer than a chunk they add up to more than the
length of the file, which the comment on the field rules out. -/
theorem C54_cumulative {sha : Bytes → Bytes} (hsha : Digest32 sha) {args : AddArgs} (hpr : args.progress = true)
    {tree : Builder} {path : Bytes} {p : FormPart} {ev : List AddEvent} {tree' : Builder}
    (hfit : Fits args.chunk args.bf p.chunks.flatten) (hlong : args.chunk < p.chunks.flatten.length)
    (h : addFilePart sha (fun _ => true) args tree path p = (ev, .ok tree')) :
    p.chunks.flatten.length <
      ((linesOf ev).map (fun l => match l with | .progress _ k => k | .added _ _ _ => 0)).sum := by
  obtain ⟨bs, a, last, h1, h2, h3, h4, h5⟩ := adder_all hsha hfit
  obtain ⟨ev1, e1, e2, e3⟩ := readFile_ok (put := fun _ => true) (args := args) (path := path) (broken := p.broken) h1
    (fun _ _ => rfl) 0 0
  obtain ⟨k, hk, hkp⟩ := reports_pos p.chunks { chunk := args.chunk, bf := args.bf } a 0 bs h1
    (fun h0 => by have := h4.mp h0; omega)
  have hk' : k ≤ (reports sha { chunk := args.chunk, bf := args.bf } 0 p.chunks).sum := by
    clear e3
    generalize reports sha { chunk := args.chunk, bf := args.bf } 0 p.chunks = ks at hk
    induction ks with
    | nil => cases hk
    | cons x xs ih =>
      rcases List.mem_cons.mp hk with rfl | hk
      · simp
      · have := ih hk; simp; omega
  unfold addFilePart at h
  rw [e1] at h
  cases hb : p.broken with
  | true => rw [hb] at h; cases (Prod.mk.inj h).2
  | false =>
    rw [hb] at h
    simp only [Bool.false_eq_true, if_false, Nat.zero_add] at h
    rw [h2] at h
    simp only [] at h
    rw [importAll_ok (fun _ _ => rfl)] at h
    cases hl : lastOf none 0 last with
    | none => rw [hl] at h; cases (Prod.mk.inj h).2
    | some r =>
      rw [hl] at h
      simp only [] at h
      cases hpl : tree.putLink path r.1 (bytesIn bs + r.2) with
      | mk t2 r2 =>
        rw [hpl] at h
        cases r2 with
        | error e => cases (Prod.mk.inj h).2
        | ok u =>
          cases u
          obtain ⟨rfl, _⟩ := Prod.mk.inj h
          simp only [linesOf_append, e3, linesOf_putAll, hpr, if_true, linesOf, List.map_append, List.map_map,
            List.sum_append, List.map_cons, List.map_nil, List.sum_cons, List.sum_nil, Function.comp_def,
            List.map_id', List.append_nil]
          omega

/-- C54. Names are sent percent-encoded: whatever bytes are encoded, the percent sign among them, the name
comes out again. -/
theorem C54_names (esc : UInt8 → Bool) (h37 : esc 37 = true) (s : Bytes) :
    percentDecode (percentEncode esc s) = s := by
  induction s with
  | nil => simp [percentEncode, percentDecode]
  | cons c s ih =>
    have hcons : percentEncode esc (c :: s) =
        (if esc c then [37, percentEncode.hexDigit (c.toNat / 16), percentEncode.hexDigit (c.toNat % 16)] else [c]) ++
          percentEncode esc s := rfl
    rw [hcons]
    have hex : ∀ n, n < 16 → hexVal (percentEncode.hexDigit n) = some n := by decide +kernel
    have hlt : c.toNat < 256 := c.toNat_lt
    cases hc : esc c with
    | true =>
      simp only [if_true, List.cons_append, List.nil_append]
      rw [percentDecode]
      rw [hex _ (by omega), hex _ (by omega)]
      simp only []
      rw [ih, show 16 * (c.toNat / 16) + c.toNat % 16 = c.toNat by omega]
      simp
    | false =>
      simp only [Bool.false_eq_true, if_false, List.cons_append, List.nil_append]
      have hne : c ≠ 37 := by intro h0; rw [h0, h37] at hc; cases hc
      rw [percentDecode]
      · rw [ih]
      · intro a b s' h1 h2
        exact hne h1

/-! ### Examples -/

/-- `addStream`, with at most so many rounds for the directories. -/
def addRounds (sha : Bytes → Bytes) (put : Block → Bool) (args : AddArgs) (parts : List FormPart)
    (broken : Bool) (n : Nat) : Option (List AddEvent × Except AddErr Unit) :=
  match addParts sha put args broken (Builder.new args.tree) parts with
  | (ev, .error e) => some (ev, .error e)
  | (ev, .ok tree) =>
    (runRounds sha n tree.build).map (fun r => (ev ++ (addDirs put r.1 r.2).1, (addDirs put r.1 r.2).2))

theorem addRounds_eq {sha : Bytes → Bytes} {put : Block → Bool} {args : AddArgs} {parts : List FormPart}
    {broken : Bool} {n : Nat} {r} (h : addRounds sha put args parts broken n = some r) :
    addStream sha put args parts broken = r := by
  unfold addRounds at h
  unfold addStream
  split at h
  · rename_i ev e he
    rw [he]; cases h; rfl
  · rename_i ev tree he
    rw [he]
    obtain ⟨q, h1, rfl⟩ := Option.map_eq_some_iff.mp h
    simp only []
    rw [runRounds_eq h1]

/-- The file `a b` in a directory, sent in two pieces, and an empty directory. -/
def exForm : List FormPart :=
  [⟨some "file-1".toUTF8.toList, some "/x/a%20b".toUTF8.toList, some octetStream, [[1, 2, 3], [4, 5]], false⟩,
   ⟨some "dir".toUTF8.toList, some "x/d".toUTF8.toList, some xDirectory, [], false⟩]

/-- Wrapping, reporting, and small chunks. -/
def exAddArgs : AddArgs := { progress := true, wrap := true, chunk := 2, bf := 2 }

/-- Leaving out the cids. -/
def lineShape : AddLine → Bytes × Nat × Bool
  | .progress n k => (n, k, true)
  | .added n _ k => (n, k, false)

/-- The request is answered: two running reports, the final one, the file with its six blocks, and three
directories. -/
example : (addRounds exDirHash (fun _ => true) exAddArgs exForm false 20).map
    (fun r => ((linesOf r.1).map lineShape, (putsOf r.1).length, r.2)) =
      some ([("x/a b".toUTF8.toList, 3, true), ("x/a b".toUTF8.toList, 5, true), ("x/a b".toUTF8.toList, 5, true),
        ("x/a b".toUTF8.toList, 267, false), ("x/d".toUTF8.toList, 4, false), ("x".toUTF8.toList, 364, false),
        ([], 412, false)], 9, .ok ()) := by
  decide +kernel

example : ∀ p ∈ exForm, Fits exAddArgs.chunk exAddArgs.bf p.chunks.flatten := by
  intro p hp
  simp only [exForm, List.mem_cons, List.not_mem_nil, or_false] at hp
  rcases hp with rfl | rfl <;> constructor <;> simp [exAddArgs]

/-- A file of exactly one chunk: nothing is answered. -/
example : (addRounds exDirHash (fun _ => true) exAddArgs
    [⟨some "file".toUTF8.toList, some "f".toUTF8.toList, some octetStream, [[1], [2]], false⟩] false 20).map
    (fun r => r.2) = some (.error .nothingFinished) := by
  decide +kernel

theorem oneChunk : ([List.replicate 262144 (0 : UInt8)]).flatten.length = 262144 := by
  rw [List.flatten_cons, List.flatten_nil, List.append_nil, List.length_replicate]

/-- The same with the defaults. -/
example (sha : Bytes → Bytes) (hsha : Digest32 sha) (tree : Builder) :
    (addFilePart sha (fun _ => true) {} tree [102]
      ⟨some "file".toUTF8.toList, some "f".toUTF8.toList, some octetStream, [List.replicate 262144 0], false⟩).2 =
        .error .nothingFinished :=
  (C54_accepted hsha (by constructor <;> simp only [oneChunk] <;> decide) rfl).1 oneChunk

example : percentDecode (percentEncode (fun c => c == 37 || c == 32) "50% of x".toUTF8.toList) =
    "50% of x".toUTF8.toList := C54_names _ rfl _

end Verif.Props
