import Verif.Props.KeptFile
import Verif.Props.Cat
import Verif.Props.Get
import Verif.Props.DirResolve

/-!
# C86: what was added over HTTP and pinned is served for ever

The whole way: a form is sent to `add` with a wrapping directory, its blocks are put into a repository on disk, the directory is pinned, and afterwards,
whatever is asked for and whenever the process crashes, `cat` answers requests for the files with the bytes that were sent.
-/

namespace Verif.Props

open Verif Verif.Ipld Verif.Repo Verif.Repo.FsPaths Verif.Ipfs.Refs Verif.Ipfs.Pin Verif.Ipfs.DiskNode Verif.Unixfs Verif.Http

/-! ### Lists of blocks -/

theorem CidOf.mono {A B : List (Cid × Bytes)} (h : ∀ b ∈ A, b ∈ B) {c : Cid} (hc : CidOf A c) : CidOf B c := by
  obtain ⟨b, hb, he⟩ := hc
  exact ⟨b, h b hb, he⟩

theorem PbReach.mono {A B : List (Cid × Bytes)} (h : ∀ b ∈ A, b ∈ B) {x y : Cid × Bytes} (hr : PbReach A x y) : PbReach B x y := by
  induction hr with
  | refl => exact .refl
  | step _ hy hd hl hc ih => exact .step ih (h _ hy) hd hl hc

theorem PbReach.trans {A : List (Cid × Bytes)} {x y z : Cid × Bytes} (h1 : PbReach A x y) (h2 : PbReach A y z) : PbReach A x z := by
  induction h2 with
  | refl => exact h1
  | step _ hy hd hl hc ih => exact .step ih hy hd hl hc

/-- The blocks of the files of a form. -/
theorem fileDags_spec {sha : Bytes → Bytes} (hsha : Digest32 sha) {args : AddArgs} {parts : List FormPart} {ops : List DirOp}
    {puts : List (Cid × Bytes)} (h : FileDags sha args parts ops puts) (hfit : ∀ p ∈ parts, Fits args.chunk args.bf p.chunks.flatten) :
    PbClosed puts ∧ (∀ b ∈ puts, b.1 = Cid.v0 (sha b.2)) ∧ (∀ path c n, .put path c n ∈ ops → CidOf puts c) ∧
    ∀ b ∈ puts, ∃ path n root, .put path root.1 n ∈ ops ∧ root ∈ puts ∧ PbReach puts root b := by
  induction h with
  | nil => exact ⟨(by intro b hb; cases hb), (by simp), (by simp), (by simp)⟩
  | @file p ps ops blocks puts raw path root _ _ _ h1 h2 _ ih =>
    obtain ⟨i1, i2, i3, i4⟩ := ih (fun p hp => hfit p (List.mem_cons_of_mem _ hp))
    obtain ⟨bl, r, g1, g2, g3, g4, g5⟩ := file_dag hsha (hfit p List.mem_cons_self)
    rw [h1] at g1
    cases g1
    rw [h2] at g2
    cases g2
    have hl : ∀ b ∈ blocks, b ∈ blocks ++ puts := fun b hb => List.mem_append_left _ hb
    have hr : ∀ b ∈ puts, b ∈ blocks ++ puts := fun b hb => List.mem_append_right _ hb
    refine ⟨?_, ?_, ?_, ?_⟩
    · intro b hb
      rcases List.mem_append.1 hb with hb | hb
      · obtain ⟨a, doc, b1, b2⟩ := g3 b hb
        exact ⟨a, doc, b1, fun l hm => ⟨(b2 l hm).1, (b2 l hm).2.mono hl⟩⟩
      · obtain ⟨a, doc, b1, b2⟩ := i1 b hb
        exact ⟨a, doc, b1, fun l hm => ⟨(b2 l hm).1, (b2 l hm).2.mono hr⟩⟩
    · intro b hb
      rcases List.mem_append.1 hb with hb | hb
      · exact g5 b hb
      · exact i2 b hb
    · intro path' c n hop
      rcases List.mem_cons.1 hop with hop | hop
      · cases hop
        exact ⟨root, hl _ (List.mem_of_getLast? h2), rfl⟩
      · exact (i3 _ _ _ hop).mono hr
    · intro b hb
      rcases List.mem_append.1 hb with hb | hb
      · exact ⟨path, _, root, List.mem_cons_self, hl _ (List.mem_of_getLast? h2), (g4 b hb).mono hl⟩
      · obtain ⟨path', n, root', a1, a2, a3⟩ := i4 b hb
        exact ⟨path', n, root', List.mem_cons_of_mem _ a1, hr _ a2, a3.mono hr⟩
  | dir _ _ _ _ ih =>
    obtain ⟨i1, i2, i3, i4⟩ := ih (fun p hp => hfit p (List.mem_cons_of_mem _ hp))
    refine ⟨i1, i2, ?_, ?_⟩
    · intro path' c n hop
      rcases List.mem_cons.1 hop with hop | hop
      · cases hop
      · exact i3 _ _ _ hop
    · intro b hb
      obtain ⟨path', n, root', a1, a2, a3⟩ := i4 b hb
      exact ⟨path', n, root', List.mem_cons_of_mem _ a1, a2, a3⟩

/-! ### Directories -/

section
variable {H : Bytes → Bytes}

/-- The nodes of directories are as the node reads them. -/
theorem nodes_flat (hH : ∀ b, (H b).length = 32) (opts : TreeOpts) (ops : List DirOp) (hops : ∀ op ∈ ops, OpFits op)
    (hfit : TotalsFit H (builderAfter opts ops)) {out : List TreeNode} (hrun : (builderAfter opts ops).build.run H = (out, .done)) :
    ∀ n ∈ out, ∃ ls : List NamedLeaf, (∀ l ∈ ls, l.Ok) ∧ n.block = dirBlock ls := by
  have hg := builderAfter_good (opts := opts) hops
  have ho := (builderAfter_sound opts ops).2
  have hfit' := hfit
  unfold TotalsFit at hfit'
  rw [ho] at hfit'
  rw [run_eq hH hops hfit] at hrun
  intro n hn
  have hout : out = treeEmits H opts.wrapWithDirectory (builderAfter opts ops).root := by
    rcases emitThen_cases opts.blockSizeLimit (treeEmits H opts.wrapWithDirectory (builderAfter opts ops).root) with
      ⟨h1, _⟩ | ⟨a, n, b, _, h2, _⟩
    · rw [h1] at hrun; cases hrun; rfl
    · rw [h2] at hrun; cases hrun
  rw [hout, treeEmits_eq hg] at hn
  obtain ⟨q, hq, rfl⟩ := List.mem_map.1 hn
  obtain ⟨c, hc⟩ := subdir_some.mpr ((mem_treeDirs hg _ q).mp hq).1
  obtain ⟨r', hgc⟩ := good_sub hg hc
  have hl : linksAt H (builderAfter opts ops).root q = nodeLinks H c.nodes := by simp only [linksAt, hc]
  have hbelow : ∀ x ∈ nodesEmit H [] c.nodes, x.total < 2 ^ 64 := by
    intro x hx
    rw [nodesEmit_eq hgc] at hx
    obtain ⟨q', hq', rfl⟩ := List.mem_map.mp hx
    have hdir : entryAt c q' = some .dir := by
      rw [← mem_dirsOf hgc, dirsOf_eq]; exact List.mem_append_left _ hq'
    have hne : q' ≠ [] := by
      obtain ⟨k', c', q'', h1, h2, rfl⟩ := mem_nodesDirs.mp hq'
      simp
    have hin : q ++ q' ∈ treeDirs opts.wrapWithDirectory (builderAfter opts ops).root := by
      rw [mem_treeDirs hg, entryAt_sub hc]
      exact ⟨hdir, Or.inr (by simp [hne])⟩
    have := hfit' _ (by rw [treeEmits_eq hg]; exact List.mem_map.mpr ⟨_, hin, rfl⟩)
    have e : linksAt H (builderAfter opts ops).root (q ++ q') = linksAt H c q' := by simp only [linksAt, subdir_append hc]
    rw [e] at this
    exact this
  exact ⟨_, nodeLinks_ok hH hgc hbelow, by rw [hl]; rfl⟩

/-- What the document of a directory links to. -/
theorem dir_doc {ls : List NamedLeaf} (hls : ∀ l ∈ ls, l.Ok) :
    ∃ doc, DagPbNode.ofBytes (dirBlock ls) = some doc ∧ SameLinks doc.links (ls.map NamedLeaf.toLink) := by
  obtain ⟨doc, h1, h2, -⟩ := flat_written (dirFlat ls) (dirFlat_wf hls) (by
    intro l hl
    obtain ⟨x, hx, rfl⟩ := List.mem_map.1 hl
    exact ⟨x.cid, Cid.ofBytes_toBytes _ (hls x hx).cid⟩)
  exact ⟨doc, h1, h2⟩

end

/-- All the blocks of an answered request to add: they are closed, each hangs below the directory that is named last. -/
theorem added_dag {sha : Bytes → Bytes} (hsha : Digest32 sha) {put : Unixfs.Block → Bool} {args : AddArgs} (hw : args.wrap = true)
    {parts : List FormPart} {broken : Bool} {ev : List AddEvent} (hfit : ∀ p ∈ parts, Fits args.chunk args.bf p.chunks.flatten)
    (hs : ∀ p ∈ parts, ∀ raw, p.filename = some raw → raw.length < 2 ^ 30)
    (htot : FormTotals sha args parts)
    (h : addStream sha put args parts broken = (ev, .ok ())) :
    ∃ top total, (linesOf ev).getLast? = some (.added [] top.1 total) ∧ top ∈ putsOf ev ∧ PbClosed (putsOf ev) ∧
      (∀ b ∈ putsOf ev, PbReach (putsOf ev) top b) ∧ ∀ b ∈ putsOf ev, b.1 = Cid.v0 (sha b.2) := by
  obtain ⟨ops, lines, nodes, puts, ha, hacc, hrun, hlines, hfd, hputs⟩ := addStream_inv hsha hfit h
  have htot := htot ops puts hfd
  have hops := ha.fits hs
  obtain ⟨f1, f2, f3, f4⟩ := fileDags_spec hsha hfd hfit
  obtain ⟨qs, node, hnd, hord, hqs, hout, hnode⟩ := C12_nodes hsha args.tree ops hops htot hrun
  have hflat := nodes_flat hsha args.tree ops hops htot hrun
  have htree := C11_tree args.tree ops
  rw [hacc] at htree
  generalize hA : entryAt (builderAfter args.tree ops).root = A at *
  -- the root
  have hroot : [] ∈ qs := (hqs []).2 ⟨by rw [← hA]; rfl, .inl hw⟩
  obtain ⟨qa, qb, hq⟩ := List.append_of_mem hroot
  have hqb : qb = [] := by
    cases qb with
    | nil => rfl
    | cons y qb =>
      rw [hq, List.pairwise_append] at hord
      exact absurd (List.nil_prefix) ((List.pairwise_cons.1 hord.2.1).1 y List.mem_cons_self)
  subst hqb
  let blk : List Bytes → Cid × Bytes := fun q => ((node q).cid, (node q).block)
  have hnodes : nodes.map (fun n => (n.cid, n.block)) = qs.map blk := by rw [hout, List.map_map]; rfl
  rw [hnodes] at hputs
  have hinF : ∀ b ∈ puts, b ∈ putsOf ev := fun b hb => by rw [hputs]; exact List.mem_append_left _ hb
  have hinD : ∀ q ∈ qs, blk q ∈ putsOf ev := fun q hq => by rw [hputs]; exact List.mem_append_right _ (List.mem_map.2 ⟨q, hq, rfl⟩)
  have hdir : ∀ q, A q = some .dir → q ∈ qs := fun q hq => (hqs q).2 ⟨hq, .inl hw⟩
  -- the documents of directories
  have hdoc : ∀ q ∈ qs, ∃ doc, DagPbNode.ofBytes (blk q).2 = some doc ∧
      (∀ l ∈ doc.links, l.name ≠ [0x2F] ∧ CidOf (putsOf ev) l.cid) ∧
      (∀ name, A (q ++ [name]) = some .dir → ∃ l ∈ doc.links, l.cid = (blk (q ++ [name])).1) ∧
      (∀ name c n, A (q ++ [name]) = some (.leaf ⟨c, n⟩) → ∃ l ∈ doc.links, l.cid = c) := by
    intro q hq
    obtain ⟨links, p1, -, p2, -⟩ := (hnode q hq).links
    obtain ⟨ls, hls, hblk⟩ := hflat (node q) (by rw [hout]; exact List.mem_map.2 ⟨q, hq, rfl⟩)
    obtain ⟨doc, d1, d2⟩ := dir_doc hls
    have hlinks : links = ls.map NamedLeaf.toLink := by
      have e := Flat.parse_write (dirFlat ls) (dirFlat_wf hls)
      rw [hblk] at p1
      have : dirBlock ls = (dirFlat ls).write := rfl
      rw [this, e] at p1
      have := Except.ok.inj p1
      exact (congrArg Flat.links this).symm
    rw [← hlinks] at d2
    obtain ⟨m1, m2⟩ := sameLinks_mem d2
    have hvalid : ∀ name k, A (q ++ [name]) = some k → ∃ c : Cid, c.Valid ∧ (linkFor node q name k).hash = some c.toBytes ∧
        (linkFor node q name k).name = some name ∧ CidOf (putsOf ev) c ∧ (k = .dir → c = (blk (q ++ [name])).1) ∧
        ∀ c' n, k = .leaf ⟨c', n⟩ → c = c' := by
      intro name k hk
      cases k with
      | leaf l =>
        obtain ⟨op, hop, -, hkind⟩ := ((htree (q ++ [name])).1 l).1 hk
        cases op with
        | attrs p m => cases hkind
        | put p c n =>
          cases hkind
          refine ⟨c, ((hops _ hop).leaf _ _ _ rfl).1, rfl, rfl, (f3 _ _ _ hop).mono hinF, by simp, ?_⟩
          rintro c' n' he
          cases he
          rfl
      | dir =>
        have hin := hdir _ hk
        refine ⟨(node (q ++ [name])).cid, ?_, rfl, rfl, ⟨_, hinD _ hin, rfl⟩, fun _ => rfl, by simp⟩
        rw [(hnode _ hin).cid]
        exact Cid.v0_valid _ (hsha _)
    have hsame : ∀ (l : DagPbLink) name k, A (q ++ [name]) = some k → SameLink l (linkFor node q name k) →
        l.name = name ∧ CidOf (putsOf ev) l.cid ∧ (k = .dir → l.cid = (blk (q ++ [name])).1) ∧ ∀ c' n, k = .leaf ⟨c', n⟩ → l.cid = c' := by
      rintro l name k hk ⟨s1, s2, -⟩
      obtain ⟨c, v1, v2, v3, v4, v5, v6⟩ := hvalid name k hk
      rw [v2] at s1
      rw [v3] at s2
      simp only [Option.getD_some] at s1 s2
      rw [Cid.ofBytes_toBytes _ v1] at s1
      cases s1
      exact ⟨s2.symm, v4, v5, v6⟩
    refine ⟨doc, by rw [show (blk q).2 = dirBlock ls from hblk]; exact d1, ?_, ?_, ?_⟩
    · intro l hl
      obtain ⟨pl, hpl, hsl⟩ := m1 l hl
      obtain ⟨name, k, hk, rfl⟩ := (p2 pl).1 hpl
      obtain ⟨e1, e2, -, -⟩ := hsame l name k hk hsl
      refine ⟨?_, e2⟩
      rw [e1]
      rintro rfl
      have hseg : ∃ p, q ++ [[0x2F]] <+: splitSlash p := by
        cases k with
        | leaf lf =>
          obtain ⟨op, -, he, -⟩ := ((htree _).1 lf).1 hk
          exact ⟨op.path, by rw [he]; exact List.prefix_refl _⟩
        | dir =>
          rcases (htree _).2.1 hk with he | ⟨op, -, ⟨he, -⟩ | ⟨he, -⟩⟩
          · simp at he
          · exact ⟨op.path, he⟩
          · exact ⟨op.path, by rw [← he]; exact List.prefix_refl _⟩
      obtain ⟨p, hp⟩ := hseg
      have := splitSlash_noSlash p [0x2F] (hp.subset (by simp))
      exact absurd this (by decide)
    · intro name hk
      obtain ⟨l, hl, hsl⟩ := m2 _ ((p2 _).2 ⟨name, .dir, hk, rfl⟩)
      exact ⟨l, hl, (hsame l name _ hk hsl).2.2.1 rfl⟩
    · intro name c n hk
      obtain ⟨l, hl, hsl⟩ := m2 _ ((p2 _).2 ⟨name, .leaf ⟨c, n⟩, hk, rfl⟩)
      exact ⟨l, hl, (hsame l name _ hk hsl).2.2.2 c n rfl⟩
  have hreachD : ∀ q, A q = some .dir → PbReach (putsOf ev) (blk []) (blk q) := by
    intro q
    induction q using snocInd with
    | nil => intro _; exact .refl
    | snoc q name ih =>
      intro hq
      have hup : A q = some .dir := by
        rw [← hA] at hq ⊢
        exact above_dir (r := [name]) (by simp) (by rw [hq]; simp)
      obtain ⟨doc, d1, -, d3, -⟩ := hdoc q (hdir q hup)
      obtain ⟨l, hl, hc⟩ := d3 name hq
      exact .step (ih hup) (hinD _ (hdir _ hq)) d1 hl hc
  have hreachF : ∀ root ∈ puts, ∀ path n, .put path root.1 n ∈ ops → PbReach (putsOf ev) (blk []) root := by
    intro root hroot path n hop
    have hk : A (splitSlash path) = some (.leaf ⟨root.1, n⟩) := ((htree _).1 _).2 ⟨_, hop, rfl, rfl⟩
    obtain ⟨q, name, he⟩ : ∃ q name, splitSlash path = q ++ [name] :=
      ⟨_, _, (List.dropLast_concat_getLast (splitSlash_ne_nil path)).symm⟩
    rw [he] at hk
    have hup : A q = some .dir := by
      rw [← hA] at hk ⊢
      exact above_dir (r := [name]) (by simp) (by rw [hk]; simp)
    obtain ⟨doc, d1, -, -, d4⟩ := hdoc q (hdir q hup)
    obtain ⟨l, hl, hc⟩ := d4 name _ _ hk
    exact .step (hreachD q hup) (hinF _ hroot) d1 hl hc
  have hlast : nodes.getLast? = some (node []) := by rw [hout, hq]; simp
  refine ⟨blk [], (node []).total, ?_, hinD _ hroot, ?_, ?_, ?_⟩
  · rw [hlines, List.getLast?_append]
    have : (nodes.map (fun n => AddLine.added n.path n.cid n.total)).getLast? = some (.added (node []).path (node []).cid (node []).total) := by
      rw [List.getLast?_map, hlast]
      rfl
    rw [this, (hnode [] hroot).path]
    rfl
  · intro b hb
    rw [hputs] at hb
    rcases List.mem_append.1 hb with hb | hb
    · obtain ⟨a, doc, b1, b2⟩ := f1 b hb
      exact ⟨a, doc, b1, fun l hm => ⟨(b2 l hm).1, (b2 l hm).2.mono hinF⟩⟩
    · obtain ⟨q, hq, rfl⟩ := List.mem_map.1 hb
      obtain ⟨doc, d1, d2, -, -⟩ := hdoc q hq
      exact ⟨by show (node q).cid.codec = _; rw [(hnode q hq).cid]; rfl, doc, d1, d2⟩
  · intro b hb
    rw [hputs] at hb
    rcases List.mem_append.1 hb with hb | hb
    · obtain ⟨path, n, root, a1, a2, a3⟩ := f4 b hb
      exact (hreachF root a2 path n a1).trans (a3.mono hinF)
    · obtain ⟨q, hq, rfl⟩ := List.mem_map.1 hb
      exact hreachD q ((hqs q).1 hq).1
  · intro b hb
    rw [hputs] at hb
    rcases List.mem_append.1 hb with hb | hb
    · exact f2 b hb
    · obtain ⟨q, hq, rfl⟩ := List.mem_map.1 hb
      exact (hnode q hq).cid

/-! ### C86 -/

/-- What the endpoints answer when blocks are loaded by `fetch`: requests for the files of the form, in full or a range, with the bytes that were sent,
and requests for all of it with an archive of it. -/
structure ServesForm (q : QueryEnv) (s : Served) (esc : UInt8 → Bool) (parts : List FormPart) (top : Cid) : Prop where
  cat : ∀ p ∈ parts, p.contentType = some octetStream → ∀ raw path, p.filename = some raw → addPath raw = .ok path →
    path ≠ [] → ∀ range : Option (Nat × Nat), (∀ r, range = some r → r.1 + r.2 < 2 ^ 64) →
    ∃ fuel0 chunks, chunks.flatten = asked range p.chunks.flatten ∧ ∀ fuel, fuel0 ≤ fuel →
      catRequest q { s with fuel := fuel } (catUrl esc (ipfsText top path) range) = .stream chunks .done
  archive : PathsFit top.toText parts → ∃ fuel0 chunks es,
    tarEntries chunks.flatten = some es ∧ (es.map TarEntry.path).Nodup ∧ (∀ e, e ∈ es ↔ Archived top.toText parts e) ∧
    ∀ fuel, fuel0 ≤ fuel →
      getRequest q { s with fuel := fuel } (catUrl esc ("/ipfs/".toUTF8.toList ++ top.toText) none) = .stream chunks .done

/-- **C86**: what was added over HTTP with a wrapping directory into a repository on disk that was in use before can be pinned by the cid of the last line
of the answer, and from then on, after any requests and crashes, every file is served with the bytes that were sent and the archive of all has exactly what
was sent, and none of the blocks can be removed. What is missing: that no put of one of the blocks was cut off between the creation of its file and its
data before (`C85_torn`), and that nobody removes a block by the cid of the other version (`C83_alias`). -/
theorem C86_partial {sha : Bytes → Bytes} (hsha : Digest32 sha) {put : Unixfs.Block → Bool} {args : AddArgs}
    (hw : args.wrap = true) {parts : List FormPart} {broken : Bool} {ev : List AddEvent}
    (hfit : ∀ p ∈ parts, Fits args.chunk args.bf p.chunks.flatten)
    (hs : ∀ p ∈ parts, ∀ raw, p.filename = some raw → raw.length < 2 ^ 30)
    (hbig : ∀ p ∈ parts, p.chunks.flatten.length < 2 ^ 33)
    (htot : FormTotals sha args parts)
    (h : addStream sha put args parts broken = (ev, .ok ()))
    (hno : NoCollision (putsOf ev)) (env : PinEnv) (le : Cid → Cid → Bool) :
    ∃ top total, (linesOf ev).getLast? = some (.added [] top total) ∧
      ∃ N, ∀ fuel, N ≤ fuel → ∀ before, Faithful (putsOf ev) before → NoTornPut (CidOf (putsOf ev)) before →
        ((DiskNode.run { env with fuel := fuel } le ⟨[], []⟩ (before ++ putsDone (putsOf ev))).plan { env with fuel := fuel } le (.pin top true)).1 = true ∧
        ∀ after, LeavesAlone (CidOf (putsOf ev)) top after → ∀ n,
          n = DiskNode.run { env with fuel := fuel } le ⟨[], []⟩ (before ++ putsDone (putsOf ev) ++ (.pin top true, .done) :: after) →
          (∀ (q : QueryEnv), (∀ s, utf8Ok s = true → q.lossy s = s) → ∀ (s : Served) (esc : UInt8 → Bool), esc 37 = true → esc 38 = true → esc 43 = true →
            ServesForm q { s with fetch := n.get } esc parts top) ∧
          NoneGoes { env with fuel := fuel } le n (putsOf ev) := by
  obtain ⟨top, total, hl, htop, hcl, hreach, hv0⟩ := added_dag hsha hw hfit hs htot h
  refine ⟨top.1, total, hl, ?_⟩
  obtain ⟨N, hN⟩ := kept_life (env := env) hcl (ownFile_v0 hv0 hno) htop hreach le
  refine ⟨N, fun fuel hf before h1 h2 => ?_⟩
  obtain ⟨h3, h4⟩ := hN fuel hf before h1 h2
  refine ⟨h3, fun after h5 n hn => ?_⟩
  subst hn
  obtain ⟨h6, h7⟩ := h4 after h5
  refine ⟨fun q hq s esc e1 e2 e3 => ⟨?_, ?_⟩, h7⟩
  · obtain ⟨top', total', hl', hc⟩ := C66_added hsha hw hfit hs htot h q hq { s with fetch := DiskNode.get _ } h6 esc e1 e2 e3
    rw [hl] at hl'
    cases hl'
    exact hc
  · obtain ⟨top', total', hl', hc⟩ := C67_archive hsha hw hfit hs hbig htot h q hq { s with fetch := DiskNode.get _ } h6 esc e1 e2 e3
    rw [hl] at hl'
    cases hl'
    exact hc

/-! ### Examples -/

theorem exDirHash_digest : Digest32 exDirHash := by intro b; simp [exDirHash]

/-- The blocks of the one file of the form. -/
def exFormFile : List Unixfs.Block := match addFile exDirHash 2 2 [[1, 2, 3], [4, 5]] with | .ok b => b | .error _ => []

theorem exFormFile_eq : addFile exDirHash exAddArgs.chunk exAddArgs.bf [[1, 2, 3], [4, 5]] = .ok exFormFile := by decide +kernel

def exFormRoot : Unixfs.Block := exFormFile.getLast (by decide +kernel)

/-- The totals of the example fit. -/
theorem exForm_totals : FormTotals exDirHash exAddArgs exForm := by
  intro ops puts h
  unfold exForm at h
  have key : TotalsFit exDirHash (builderAfter exAddArgs.tree [.put "x/a b".toUTF8.toList exFormRoot.1 (bytesIn exFormFile), .attrs "x/d".toUTF8.toList {}]) := by
    unfold TotalsFit; decide +kernel
  cases h with
  | dir _ _ h _ => exact absurd (Option.some.inj h) (by decide +kernel)
  | file a1 a2 _ a4 a5 a6 =>
    cases a6 with
    | file _ _ h _ _ _ => exact absurd (Option.some.inj h) (by decide +kernel)
    | dir b1 b2 _ b4 =>
      cases b4
      simp only [exFormFile_eq] at a4
      cases a4
      have hr : exFormFile.getLast? = some exFormRoot := by decide +kernel
      rw [hr] at a5
      cases a5
      cases a1
      cases b1
      have e1 : addPath "/x/a%20b".toUTF8.toList = .ok "x/a b".toUTF8.toList := by decide +kernel
      have e2 : addPath "x/d".toUTF8.toList = .ok "x/d".toUTF8.toList := by decide +kernel
      rw [e1] at a2
      rw [e2] at b2
      cases a2
      cases b2
      exact key

/-- What came before and after: a put of one of the blocks that had gone well, a crash in the middle of removing it, and afterwards requests to remove
every block, and a pin that is cut off. -/
def formBefore : List (NodeOp × Ends) := [(.put ⟨exFormRoot.1, exFormRoot.2⟩, .done), (.remove exFormRoot.1, .cut 1)]

def formAfter : List (NodeOp × Ends) := (exPuts.map fun b => (NodeOp.remove b.1, Ends.done)) ++ [(.pin exTop true, .cut 1)]

/-- The theorem for the form of C54. -/
example : ∃ N, ∀ fuel, N ≤ fuel → ∀ n,
    n = DiskNode.run { exPinEnv with fuel := fuel } exLe ⟨[], []⟩ (formBefore ++ putsDone exPuts ++ (.pin exTop true, .done) :: formAfter) →
    ServesForm exQueryEnv { exServed with fetch := n.get } exEsc exForm exTop := by
  obtain ⟨r, hr⟩ : ∃ r, addRounds exDirHash (fun _ => true) exAddArgs exForm false 20 = some r := by
    have : (addRounds exDirHash (fun _ => true) exAddArgs exForm false 20).isSome = true := by decide +kernel
    exact Option.isSome_iff_exists.mp this
  have hok : (addRounds exDirHash (fun _ => true) exAddArgs exForm false 20).map (fun r => (r.2.toOption, (linesOf r.1).getLast?)) =
      some (some (), some (.added [] exTop 412)) := by decide +kernel
  have hp : exPuts = putsOf r.1 := by unfold exPuts; rw [hr]; rfl
  rw [hr] at hok
  simp only [Option.map_some, Option.some.injEq, Prod.mk.injEq] at hok
  obtain ⟨ev, res⟩ := r
  have he : res = .ok () := by
    cases res with
    | ok u => rfl
    | error e => cases hok.1
  subst he
  simp only at hp
  have hno : NoCollision exPuts := by unfold NoCollision; decide +kernel
  have hlen : ∀ p ∈ exForm, p.chunks.flatten.length < 2 ^ 33 := by decide +kernel
  obtain ⟨top, total, h1, N, h2⟩ := C86_partial exDirHash_digest (put := fun _ => true) (args := exAddArgs) rfl (parts := exForm) (broken := false) (ev := ev)
    (by
      intro p hp
      simp only [exForm, List.mem_cons, List.not_mem_nil, or_false] at hp
      rcases hp with rfl | rfl <;> constructor <;> simp [exAddArgs])
    (by
      intro p hp raw hraw
      simp only [exForm, List.mem_cons, List.not_mem_nil, or_false] at hp
      rcases hp with rfl | rfl <;> cases hraw <;> decide +kernel)
    hlen exForm_totals (addRounds_eq hr) (by rw [← hp]; exact hno) exPinEnv exLe
  rw [hok.2] at h1
  cases h1
  rw [← hp] at h2
  have hi : ∀ b ∈ exPuts, ∀ b' ∈ exPuts, toV1 b.1 = toV1 b'.1 → b = b' := by decide +kernel
  have hm : exFormRoot ∈ exPuts := by decide +kernel
  refine ⟨N, fun fuel hf n hn => ?_⟩
  refine ((h2 fuel hf formBefore ?_ ?_).2 formAfter ?_ n hn).1 exQueryEnv ?_ exServed exEsc (by decide) (by decide) (by decide)
  · intro x e he b hb hx
    simp only [formBefore, List.mem_cons, Prod.mk.injEq, NodeOp.put.injEq, reduceCtorEq, false_and, List.not_mem_nil, or_false] at he
    obtain ⟨rfl, -⟩ := he
    rw [hi _ hm b hb hx]
  · rintro x e he d ⟨b, hb, rfl⟩ hx
    simp only [formBefore, List.mem_cons, Prod.mk.injEq, NodeOp.put.injEq, reduceCtorEq, false_and, List.not_mem_nil, or_false] at he
    obtain ⟨-, rfl⟩ := he
    simp
  · refine ⟨?_, ?_⟩
    · intro b e he
      simp [formAfter] at he
    · rintro c e he d ⟨b, hb, rfl⟩ hx
      simp only [formAfter, List.mem_append, List.mem_map, Prod.mk.injEq, NodeOp.remove.injEq, List.mem_cons, reduceCtorEq, false_and, List.not_mem_nil,
        or_false] at he
      obtain ⟨b', hb', rfl, -⟩ := he
      rw [hi b' hb' b hb hx]
  · intro t _
    rfl

end Verif.Props
