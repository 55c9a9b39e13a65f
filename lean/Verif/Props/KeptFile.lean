import Verif.Props.TwoReaders
import Verif.Props.DiskNode
import Verif.Props.RefsOrder

/-!
# C85: what was added and pinned can be read for ever

A file was added (C01), its blocks are on disk, its root was pinned recursively. Whatever is asked for afterwards and whenever the process crashes,
reading it gives exactly its bytes.
-/

namespace Verif.Props

open Verif Verif.Ipld Verif.Repo Verif.Repo.FsPaths Verif.Ipfs.Refs Verif.Ipfs.Pin Verif.Ipfs.DiskNode Verif.Unixfs

/-! ### Specification -/

/-- One of these blocks has this cid. -/
def CidOf (blocks : List (Cid × Bytes)) (d : Cid) : Prop := ∃ b ∈ blocks, b.1 = d

/-- The blocks are there. -/
def AllOn (n : DiskNode) (blocks : List (Cid × Bytes)) : Prop := ∀ b ∈ blocks, n.get b.1 = some b.2

/-- Requests to remove blocks are refused and change nothing. -/
def NoneGoes (env : PinEnv) (le : Cid → Cid → Bool) (n : DiskNode) (blocks : List (Cid × Bytes)) : Prop :=
  ∀ b ∈ blocks, n.plan env le (.remove b.1) = (false, [])

/-! ### Dags of dag-pb blocks -/

/-- All blocks are dag-pb documents, without a link named `/`, and what they link to is there. -/
def PbClosed (blocks : List (Cid × Bytes)) : Prop :=
  ∀ b ∈ blocks, b.1.codec = codecDagPb ∧ ∃ doc, DagPbNode.ofBytes b.2 = some doc ∧ ∀ l ∈ doc.links, l.name ≠ [0x2F] ∧ CidOf blocks l.cid

/-- A way along links from `b` to `b'`. -/
inductive PbReach (blocks : List (Cid × Bytes)) (b : Cid × Bytes) : Cid × Bytes → Prop
  | refl : PbReach blocks b b
  | step {x y : Cid × Bytes} {doc : DagPbNode} {l : DagPbLink} : PbReach blocks b x → y ∈ blocks → DagPbNode.ofBytes x.2 = some doc → l ∈ doc.links →
      l.cid = y.1 → PbReach blocks b y

theorem PbReach.mem {blocks : List (Cid × Bytes)} {b b' : Cid × Bytes} (hb : b ∈ blocks) (h : PbReach blocks b b') : b' ∈ blocks := by
  cases h with
  | refl => exact hb
  | step _ h _ _ _ => exact h

theorem pb_links {env : PinEnv} {content : Cid → Bytes} {c : Cid} {doc : DagPbNode} (hc : c.codec = codecDagPb)
    (hd : DagPbNode.ofBytes (content c) = some doc) (hn : ∀ l ∈ doc.links, l.name ≠ [0x2F]) :
    fullLook env content c = .links (doc.links.map (fun l => (some l.name, l.cid))) := by
  have h1 : decodeIpld env.ipld env.size c (content c) = .ok doc.toIpld := by
    unfold decodeIpld
    rw [hc, if_neg (by decide), if_pos rfl, hd]
  have h2 : ipldLinks c doc.toIpld = some (doc.links.map (fun l => (some l.name, l.cid))) := by
    unfold ipldLinks
    rw [if_pos hc, dagPbLinks_eq, if_neg]
    rintro ⟨l, hl, h⟩
    exact hn l hl h
  simp [fullLook, look, h1, h2]

theorem pb_linkTo {env : PinEnv} {content : Cid → Bytes} {c d : Cid} {doc : DagPbNode} (hc : c.codec = codecDagPb)
    (hd : DagPbNode.ofBytes (content c) = some doc) : LinkTo env content c d ↔ ∃ l ∈ doc.links, l.cid = d := by
  unfold LinkTo DocLink
  simp only [if_pos hc]
  constructor
  · rintro ⟨name, n, h1, l, hl, h2, -⟩
    rw [hd] at h1
    cases h1
    exact ⟨l, hl, h2⟩
  · rintro ⟨l, hl, h⟩
    exact ⟨_, doc, hd, l, hl, h, rfl⟩

section
variable {env : PinEnv} {content : Cid → Bytes} {blocks : List (Cid × Bytes)}

theorem inTree_of_reach (hcl : PbClosed blocks) (hcon : ∀ b ∈ blocks, content b.1 = b.2) {top b : Cid × Bytes} (htop : top ∈ blocks)
    (h : PbReach blocks top b) : InTree env content top.1 b.1 := by
  induction h with
  | refl => exact .inl rfl
  | @step x y doc l hx hy hd hl hc ih =>
    have hxm := hx.mem htop
    refine inTree_closed ih ?_
    exact (pb_linkTo (hcl x hxm).1 (by rw [hcon x hxm]; exact hd)).2 ⟨l, hl, hc⟩

theorem inTree_cidOf (hcl : PbClosed blocks) (hcon : ∀ b ∈ blocks, content b.1 = b.2) {top : Cid × Bytes} (htop : top ∈ blocks) {d : Cid}
    (h : InTree env content top.1 d) : CidOf blocks d := by
  have step : ∀ a b, CidOf blocks a → LinkTo env content a b → CidOf blocks b := by
    rintro a b ⟨x, hx, rfl⟩ hlt
    obtain ⟨hc, doc, hd, hk⟩ := hcl x hx
    obtain ⟨l, hm, rfl⟩ := (pb_linkTo hc (by rw [hcon x hx]; exact hd)).1 hlt
    exact (hk l hm).2
  rcases h with rfl | h
  · exact ⟨top, htop, rfl⟩
  · induction h with
    | link hl => exact step _ _ ⟨top, htop, rfl⟩ hl
    | step _ hl ih => exact step _ _ ih hl

theorem pb_look (hcl : PbClosed blocks) {get : Cid → Option Bytes} (hg : ∀ b ∈ blocks, get b.1 = some b.2) {b : Cid × Bytes} (hb : b ∈ blocks) :
    ∃ ls, look env.ipld env.size get b.1 = .links ls ∧ ∀ l ∈ ls, CidOf blocks l.2 := by
  obtain ⟨hc, doc, hd, hk⟩ := hcl b hb
  have h := pb_links (env := env) (content := fun _ => b.2) hc hd (fun l hl => (hk l hl).1)
  refine ⟨doc.links.map (fun l => (some l.name, l.cid)), ?_, ?_⟩
  · rw [← h]
    simp [fullLook, look, hg b hb]
  · intro l hl
    obtain ⟨x, hx, rfl⟩ := List.mem_map.1 hl
    exact (hk x hx).2

/-- The pin goes well, when the walk is given enough steps. -/
theorem pin_goes (hcl : PbClosed blocks) {top : Cid × Bytes} (htop : top ∈ blocks) (le : Cid → Cid → Bool) :
    ∃ N, ∀ fuel, N ≤ fuel → ∀ n : DiskNode, AllOn n blocks → (n.plan { env with fuel := fuel } le (.pin top.1 true)).1 = true := by
  by_cases hex : ∃ n0 : DiskNode, AllOn n0 blocks
  case neg => exact ⟨0, fun _ _ n hn => absurd ⟨n, hn⟩ hex⟩
  obtain ⟨n0, hn0⟩ := hex
  obtain ⟨ls, hls, hin⟩ := pb_look (env := env) hcl hn0 htop
  have hdec : ∃ doc, decodeIpld env.ipld env.size top.1 top.2 = .ok doc ∧ ipldLinks top.1 doc = some ls := by
    unfold look at hls
    rw [hn0 top htop] at hls
    simp only at hls
    split at hls
    · cases hls
    · split at hls
      · cases hls
      · next h1 _ _ h2 => cases hls; exact ⟨_, h1, h2⟩
  obtain ⟨doc, h1, h2⟩ := hdec
  obtain ⟨N, hN⟩ := C38_unique_terminates walkOpts (look env.ipld env.size n0.get) [(top.1, ls)] rfl (blocks.map Prod.fst)
    (by
      intro r hr l hl
      obtain rfl := List.mem_singleton.mp hr
      obtain ⟨b, hb, he⟩ := hin l hl
      exact List.mem_map.2 ⟨b, hb, he⟩)
    (by
      intro c hc lc hlc l hl
      obtain ⟨b, hb, rfl⟩ := List.mem_map.1 hc
      obtain ⟨ls', h3, h4⟩ := pb_look (env := env) hcl hn0 hb
      rw [h3] at hlc
      cases hlc
      obtain ⟨b', hb', he⟩ := h4 l hl
      exact List.mem_map.2 ⟨b', hb', he⟩)
  refine ⟨N, fun fuel hf n hn => ?_⟩
  obtain ⟨r, hr⟩ := Option.isSome_iff_exists.mp (refs_more hf hN)
  have hfine : none ∉ stream r := by
    refine walk_fine (P := CidOf blocks) ?_ hin hr
    rintro d ⟨b, hb, rfl⟩
    exact pb_look (env := env) hcl hn0 hb
  obtain ⟨g1, g2⟩ := stream_ok hr hfine
  obtain ⟨items, en⟩ := r
  simp only at g1
  subst g1
  have hst : stream (items, .done) = (dests items).map some := stream_edges g2
  have hr' : refs walkOpts (look env.ipld env.size n.get) fuel [(top.1, ls)] = some (items, .done) := by
    refine refs_transfer (P := CidOf blocks) ?_ hin hr g2
    rintro c ls' ⟨b, hb, rfl⟩ hc
    obtain ⟨ls1, h3, h4⟩ := pb_look (env := env) hcl hn0 hb
    rw [h3] at hc
    cases hc
    have e : look env.ipld env.size n.get b.1 = look env.ipld env.size n0.get b.1 := by simp only [look, hn b hb, hn0 b hb]
    exact ⟨by rw [e, h3], h4⟩
  have hd : descendantsOf (ε := PinErr) { env with fuel := fuel } n.get top.1 top.2 = .ok (stream (items, .done)) := by
    unfold descendantsOf
    simp only [h1, h2]
    rw [hr']
  simp only [DiskNode.plan, hn top htop, if_true, hd, hst]
  simp [FsPins.insertRecursive, collectRefs_ok, pinPlan]

end

/-- Pinned once all blocks are there. -/
theorem kept_blocks {env : PinEnv} {le : Cid → Cid → Bool} {blocks : List (Cid × Bytes)} (hcl : PbClosed blocks) {n : DiskNode} (hn : AllOn n blocks)
    {top : Cid × Bytes} (htop : top ∈ blocks) (hreach : ∀ b ∈ blocks, PbReach blocks top b) (went : (n.plan env le (.pin top.1 true)).1 = true)
    (hist : List (NodeOp × Ends)) (alone : LeavesAlone (CidOf blocks) top.1 hist) :
    AllOn (n.run env le ((.pin top.1 true, .done) :: hist)) blocks ∧ NoneGoes env le (n.run env le ((.pin top.1 true, .done) :: hist)) blocks := by
  let content : Cid → Bytes := fun c => (n.get c).getD []
  have hcon : ∀ b ∈ blocks, content b.1 = b.2 := fun b hb => by simp [content, hn b hb]
  have key : ∀ b ∈ blocks, SafeAt env le content (n.run env le ((.pin top.1 true, .done) :: hist)) b.1 := by
    intro b hb
    refine C83_stays env le content n top.1 ?_ went hist ?_ b.1 (inTree_of_reach hcl hcon htop (hreach b hb))
    · intro d hd v hv
      simp [content, hv]
    · exact ⟨alone.1, fun c e he d hd hv => alone.2 c e he d (inTree_cidOf hcl hcon htop hd) hv⟩
  exact ⟨fun b hb => by rw [(key b hb).1, hcon b hb], fun b hb => (key b hb).2⟩

/-- No two blocks share a file. -/
def OwnFile (blocks : List (Cid × Bytes)) : Prop := ∀ b ∈ blocks, ∀ b' ∈ blocks, toV1 b.1 = toV1 b'.1 → b = b'

/-- Requests to put the blocks, which go well. -/
def putsDone (blocks : List (Cid × Bytes)) : List (NodeOp × Ends) := blocks.map (fun b => (.put ⟨b.1, b.2⟩, .done))

/-- Whoever puts a block under one of these cids puts it with these data. -/
def Faithful (blocks : List (Cid × Bytes)) (h : List (NodeOp × Ends)) : Prop :=
  ∀ x e, (NodeOp.put x, e) ∈ h → ∀ b ∈ blocks, toV1 x.cid = toV1 b.1 → x.data = b.2

theorem putsDone_there (env : PinEnv) (le : Cid → Cid → Bool) (bs : List (Cid × Bytes)) (n : DiskNode) :
    (∀ d v, n.get d = some v → (n.run env le (putsDone bs)).get d = some v) ∧ ∀ b ∈ bs, ((n.run env le (putsDone bs)).get b.1).isSome = true := by
  induction bs generalizing n with
  | nil => exact ⟨fun _ _ h => h, by simp⟩
  | cons x bs ih =>
    have e : n.run env le (putsDone (x :: bs)) = (n.step env le (.put ⟨x.1, x.2⟩) .done).run env le (putsDone bs) := rfl
    have h1 : ∀ d v, n.get d = some v → (n.step env le (.put ⟨x.1, x.2⟩) .done).get d = some v := by
      intro d v hv
      simp only [DiskNode.step, DiskNode.plan]
      cases hg : n.get x.1 with
      | some w => simpa using hv
      | none =>
        have hne : toV1 d ≠ toV1 x.1 := by
          intro h
          unfold DiskNode.get at hg hv
          rw [h, hg] at hv
          cases hv
        simp only [Option.isSome_none, Bool.false_eq_true, if_false, List.foldl_cons, List.foldl_nil, Change.run]
        unfold DiskNode.get at hv ⊢
        simp only
        rw [AMap.get_set_ne _ _ hne, AMap.get_set_ne _ _ hne, hv]
    have h2 : ((n.step env le (.put ⟨x.1, x.2⟩) .done).get x.1).isSome = true := by
      simp only [DiskNode.step, DiskNode.plan]
      cases hg : n.get x.1 with
      | some w => simp [hg]
      | none => simp [Change.run, DiskNode.get, AMap.get_set]
    obtain ⟨i1, i2⟩ := ih (n.step env le (.put ⟨x.1, x.2⟩) .done)
    rw [e]
    refine ⟨fun d v hv => i1 d v (h1 d v hv), fun b hb => ?_⟩
    rcases List.mem_cons.1 hb with rfl | hb
    · obtain ⟨v, hv⟩ := Option.isSome_iff_exists.mp h2
      rw [i1 _ _ hv]
      rfl
    · exact i2 b hb

/-- Blocks put into a repository that was in use, with requests cut off anywhere before. -/
theorem kept_life {env : PinEnv} {blocks : List (Cid × Bytes)} (hcl : PbClosed blocks) (hown : OwnFile blocks)
    {top : Cid × Bytes} (htop : top ∈ blocks) (hreach : ∀ b ∈ blocks, PbReach blocks top b) (le : Cid → Cid → Bool) :
    ∃ N, ∀ fuel, N ≤ fuel → ∀ before, Faithful blocks before → NoTornPut (CidOf blocks) before →
      ((DiskNode.run { env with fuel := fuel } le ⟨[], []⟩ (before ++ putsDone blocks)).plan { env with fuel := fuel } le (.pin top.1 true)).1 = true ∧
      ∀ after, LeavesAlone (CidOf blocks) top.1 after →
        AllOn (DiskNode.run { env with fuel := fuel } le ⟨[], []⟩ (before ++ putsDone blocks ++ (.pin top.1 true, .done) :: after)) blocks ∧
        NoneGoes { env with fuel := fuel } le
          (DiskNode.run { env with fuel := fuel } le ⟨[], []⟩ (before ++ putsDone blocks ++ (.pin top.1 true, .done) :: after)) blocks := by
  obtain ⟨N, hN⟩ := pin_goes (env := env) hcl htop le
  refine ⟨N, fun fuel hf before hfaith huntorn => ?_⟩
  have hno : NoCollision blocks := fun b hb b' hb' h => by rw [hown b hb b' hb' (by rw [h])]
  have hall : AllOn (DiskNode.run { env with fuel := fuel } le ⟨[], []⟩ (before ++ putsDone blocks)) blocks := by
    intro b hb
    have hs := (putsDone_there { env with fuel := fuel } le blocks (DiskNode.run { env with fuel := fuel } le ⟨[], []⟩ before)).2 b hb
    rw [← diskRun_append] at hs
    obtain ⟨v, hv⟩ := Option.isSome_iff_exists.mp hs
    rw [hv]
    have := C83_blocks { env with fuel := fuel } le (CidOf blocks) (fun c => (storeOf blocks c).getD []) (before ++ putsDone blocks) ?_ ?_ b.1 ⟨b, hb, rfl⟩ v hv
    · rw [this, storeOf_mem hno b hb]; rfl
    · rintro x e he d ⟨b', hb', rfl⟩ hd
      simp only [storeOf_mem hno b' hb', Option.getD_some]
      rcases List.mem_append.1 he with he | he
      · exact hfaith x e he b' hb' hd
      · obtain ⟨y, hy, hxy⟩ := List.mem_map.1 he
        cases hxy
        rw [hown y hy b' hb' hd]
    · rintro x e he d ⟨b', hb', rfl⟩ hd
      rcases List.mem_append.1 he with he | he
      · exact huntorn x e he _ ⟨b', hb', rfl⟩ hd
      · obtain ⟨y, hy, hxy⟩ := List.mem_map.1 he
        cases hxy
        exact ⟨by simp, by simp⟩
  have went := hN fuel hf _ hall
  refine ⟨went, fun after alone => ?_⟩
  rw [diskRun_append]
  exact kept_blocks hcl hall htop hreach went after alone

/-! ### The blocks of a file -/

theorem sameLinks_mem {as : List DagPbLink} {bs : List PBLink} (h : SameLinks as bs) :
    (∀ a ∈ as, ∃ b ∈ bs, SameLink a b) ∧ ∀ b ∈ bs, ∃ a ∈ as, SameLink a b := by
  induction as generalizing bs with
  | nil => cases bs with
    | nil => simp
    | cons _ _ => exact absurd h id
  | cons a as ih => cases bs with
    | nil => exact absurd h id
    | cons b bs =>
      obtain ⟨h1, h2⟩ := ih h.2
      constructor
      · intro x hx
        rcases List.mem_cons.1 hx with rfl | hx
        · exact ⟨b, List.mem_cons_self, h.1⟩
        · obtain ⟨y, hy, hxy⟩ := h1 x hx
          exact ⟨y, List.mem_cons_of_mem _ hy, hxy⟩
      · intro y hy
        rcases List.mem_cons.1 hy with rfl | hy
        · exact ⟨a, List.mem_cons_self, h.1⟩
        · obtain ⟨x, hx, hxy⟩ := h2 y hy
          exact ⟨x, List.mem_cons_of_mem _ hx, hxy⟩

theorem file_dag {sha : Bytes → Bytes} (hsha : Digest32 sha) {chunk bf : Nat} {slices : List Bytes} (hfit : Fits chunk bf slices.flatten) :
    ∃ blocks root, addFile sha chunk bf slices = .ok blocks ∧ blocks.getLast? = some root ∧ PbClosed blocks ∧
      (∀ b ∈ blocks, PbReach blocks root b) ∧ ∀ b ∈ blocks, b.1 = Cid.v0 (sha b.2) := by
  obtain ⟨log, root, hlog, hadd, hlast, hcon, hshape, htot, hsh, hsub⟩ := add_spec hsha hfit
  have hlen := hfit.content
  have hdoc : ∀ t ∈ log, ∃ doc, DagPbNode.ofBytes (t.2.block sha).2 = some doc ∧ SameLinks doc.links (t.2.flat sha).links := by
    intro t ht
    have hb := (hlog.sub t ht).bounds sha
    have hwf := T.flat_wf hsha hfit.chunkLe hfit.bfLe t.2 (hsh t ht) (T.kids_total_lt t.2 (by omega)) (by rw [hcon] at hb; omega)
    obtain ⟨doc, h1, h2, -⟩ := flat_written (t.2.flat sha) hwf (by
      intro l hl
      obtain ⟨d, t⟩ := t
      cases d with
      | zero => cases hl
      | succ d =>
        rw [T.flat_node] at hl
        obtain ⟨k, hk, rfl⟩ := List.mem_map.mp hl
        exact ⟨_, Cid.ofBytes_toBytes _ (T.cid_valid hsha k)⟩)
    exact ⟨doc, by rw [T.block_eq]; exact h1, h2⟩
  have hkid : ∀ t ∈ log, ∀ l ∈ (t.2.flat sha).links, ∃ k ∈ t.kids, k ∈ log ∧ l.name = some [] ∧ l.hash = some (k.2.block sha).1.toBytes := by
    intro t ht l hl
    obtain ⟨d, t⟩ := t
    cases d with
    | zero => cases hl
    | succ d =>
      rw [T.flat_node] at hl
      obtain ⟨k, hk, rfl⟩ := List.mem_map.mp hl
      have hkk : k.any ∈ AnyT.kids ⟨d + 1, t⟩ := List.mem_map.mpr ⟨k, hk, rfl⟩
      exact ⟨k.any, hkk, hlog.closed.mem_of_sub (.step (.refl _) hkk) ht, rfl, rfl⟩
  refine ⟨_, _, hadd _ rfl, hlast, ?_, ?_, ?_⟩
  · intro b hb
    obtain ⟨t, ht, rfl⟩ := List.mem_map.mp hb
    refine ⟨by simp only [AnyT.block, T.block_eq, renderAndHash]; rfl, ?_⟩
    obtain ⟨doc, h1, h2⟩ := hdoc t ht
    refine ⟨doc, h1, fun a ha => ?_⟩
    obtain ⟨l, hl, hs⟩ := (sameLinks_mem h2).1 a ha
    obtain ⟨k, hk, hkm, hn, hh⟩ := hkid t ht l hl
    obtain ⟨s1, s2, -⟩ := hs
    constructor
    · rw [← s2, hn]; simp
    · refine ⟨AnyT.block sha k, List.mem_map.mpr ⟨k, hkm, rfl⟩, ?_⟩
      rw [hh] at s1
      simp only [Option.getD_some] at s1
      rw [Cid.ofBytes_toBytes _ (T.cid_valid hsha k.2)] at s1
      exact Option.some.inj s1
  · intro b hb
    obtain ⟨t, ht, rfl⟩ := List.mem_map.mp hb
    have key : ∀ s t : AnyT, Sub s t → t ∈ log → ∀ top, PbReach (log.map (AnyT.block sha)) top (AnyT.block sha t) →
        PbReach (log.map (AnyT.block sha)) top (AnyT.block sha s) := by
      intro s t hs
      induction hs with
      | refl => intro _ _ h; exact h
      | @step k t _ hk ih =>
        intro ht top hr
        have hkm : k ∈ log := hlog.closed.mem_of_sub (.step (.refl k) hk) ht
        refine ih hkm top ?_
        obtain ⟨doc, h1, h2⟩ := hdoc t ht
        have hl : ∃ l ∈ (t.2.flat sha).links, l.hash = some (k.2.block sha).1.toBytes := by
          obtain ⟨d, t⟩ := t
          cases d with
          | zero => cases hk
          | succ d =>
            obtain ⟨x, hx, rfl⟩ := List.mem_map.mp hk
            rw [T.flat_node]
            exact ⟨T.pbLink sha x, List.mem_map.mpr ⟨x, hx, rfl⟩, rfl⟩
        obtain ⟨l, hl, hh⟩ := hl
        obtain ⟨a, ha, s1, -, -⟩ := (sameLinks_mem h2).2 l hl
        refine .step hr (List.mem_map.mpr ⟨k, hkm, rfl⟩) h1 ha ?_
        rw [hh] at s1
        simp only [Option.getD_some] at s1
        rw [Cid.ofBytes_toBytes _ (T.cid_valid hsha k.2)] at s1
        exact (Option.some.inj s1).symm
    exact key t root (hlog.sub t ht) (List.mem_of_getLast? hlog.last) _ .refl
  · intro b hb
    obtain ⟨t, ht, rfl⟩ := List.mem_map.mp hb
    simp only [AnyT.block, T.block_eq, renderAndHash]

theorem ownFile_v0 {sha : Bytes → Bytes} {blocks : List (Cid × Bytes)} (h : ∀ b ∈ blocks, b.1 = Cid.v0 (sha b.2)) (hno : NoCollision blocks) :
    OwnFile blocks := by
  intro b hb b' hb' he
  have h1 : b.1 = b'.1 := by
    rw [h b hb, h b' hb'] at he ⊢
    simp only [toV1, Cid.v0, Cid.mk.injEq] at he ⊢
    simpa using he
  exact Prod.ext h1 (hno b hb b' hb' h1)

/-! ### C85 -/

/-- The file with this cid can be read from the disk, and so can any part of it: these are its bytes. -/
structure ReadsFile (n : DiskNode) (c : Cid) (content : Bytes) : Prop where
  whole : ∃ data fuel0 chunks, n.get c = some data ∧ chunks.flatten = content ∧ ∀ fuel, fuel0 ≤ fuel → cat n.get none data fuel = (chunks, .done)
  part : ∀ start stop, ∃ data fuel0 chunks, n.get c = some data ∧ chunks.flatten = (content.take stop).drop start ∧
    ∀ fuel, fuel0 ≤ fuel → cat n.get (some ⟨start, stop⟩) data fuel = (chunks, .done)

theorem readsFile {sha : Bytes → Bytes} (hsha : Digest32 sha) {chunk bf : Nat} {slices : List Bytes} (hfit : Fits chunk bf slices.flatten)
    {blocks : List (Cid × Bytes)} {root : Cid × Bytes} (hadd : addFile sha chunk bf slices = .ok blocks) (hroot : blocks.getLast? = some root)
    {n : DiskNode} (hn : AllOn n blocks) : ReadsFile n root.1 slices.flatten := by
  constructor
  · obtain ⟨bl, r, h1, h2, h3⟩ := C01_add_then_cat hsha hfit
    rw [hadd] at h1
    cases h1
    rw [hroot] at h2
    cases h2
    obtain ⟨f0, chunks, h4, h5⟩ := h3 n.get hn
    exact ⟨_, f0, chunks, hn _ (List.mem_of_getLast? hroot), h4, h5⟩
  · intro start stop
    obtain ⟨bl, r, h1, h2, h3⟩ := C07_range hsha hfit start stop
    rw [hadd] at h1
    cases h1
    rw [hroot] at h2
    cases h2
    obtain ⟨f0, chunks, h4, h5⟩ := h3 n.get hn
    exact ⟨_, f0, chunks, hn _ (List.mem_of_getLast? hroot), h4, h5⟩

/-- **C85**: a file of any content, cut into blocks in any way and added to a repository on disk that was in use before, can be pinned, and from then on,
after any requests and crashes, is read with exactly its bytes, and none of its blocks can be removed. What is missing: that no put of one of its blocks
was cut off between the creation of its file and its data before (`C85_torn`), and that nobody removes a block by the cid of the other version
(`C83_alias`). -/
theorem C85_partial {sha : Bytes → Bytes} (hsha : Digest32 sha) {chunk bf : Nat} {slices : List Bytes} (hfit : Fits chunk bf slices.flatten)
    (env : PinEnv) (le : Cid → Cid → Bool) :
    ∃ blocks root, addFile sha chunk bf slices = .ok blocks ∧ blocks.getLast? = some root ∧ (NoCollision blocks →
      ∃ N, ∀ fuel, N ≤ fuel → ∀ before, Faithful blocks before → NoTornPut (CidOf blocks) before →
        ((DiskNode.run { env with fuel := fuel } le ⟨[], []⟩ (before ++ putsDone blocks)).plan { env with fuel := fuel } le (.pin root.1 true)).1 = true ∧
        ∀ after, LeavesAlone (CidOf blocks) root.1 after →
          ReadsFile (DiskNode.run { env with fuel := fuel } le ⟨[], []⟩ (before ++ putsDone blocks ++ (.pin root.1 true, .done) :: after)) root.1
            slices.flatten ∧
          NoneGoes { env with fuel := fuel } le
            (DiskNode.run { env with fuel := fuel } le ⟨[], []⟩ (before ++ putsDone blocks ++ (.pin root.1 true, .done) :: after)) blocks) := by
  obtain ⟨blocks, root, hadd, hroot, hcl, hreach, hv0⟩ := file_dag hsha hfit
  refine ⟨blocks, root, hadd, hroot, fun hno => ?_⟩
  obtain ⟨N, hN⟩ := kept_life (env := env) hcl (ownFile_v0 hv0 hno) (List.mem_of_getLast? hroot) hreach le
  refine ⟨N, fun fuel hf before h1 h2 => ?_⟩
  obtain ⟨h3, h4⟩ := hN fuel hf before h1 h2
  refine ⟨h3, fun after h5 => ?_⟩
  obtain ⟨h6, h7⟩ := h4 after h5
  exact ⟨readsFile hsha hfit hadd hroot h6, h7⟩

/-- **C85**, whatever was there before: once all blocks are there and the pin went well. -/
theorem C85_stays {sha : Bytes → Bytes} (hsha : Digest32 sha) {chunk bf : Nat} {slices : List Bytes} (hfit : Fits chunk bf slices.flatten)
    {blocks : List (Cid × Bytes)} {root : Cid × Bytes} (hadd : addFile sha chunk bf slices = .ok blocks) (hroot : blocks.getLast? = some root)
    (env : PinEnv) (le : Cid → Cid → Bool) (n : DiskNode) (hn : AllOn n blocks) (went : (n.plan env le (.pin root.1 true)).1 = true)
    (hist : List (NodeOp × Ends)) (alone : LeavesAlone (CidOf blocks) root.1 hist) :
    ReadsFile (n.run env le ((.pin root.1 true, .done) :: hist)) root.1 slices.flatten ∧
    NoneGoes env le (n.run env le ((.pin root.1 true, .done) :: hist)) blocks := by
  obtain ⟨bl, r, h1, h2, hcl, hreach, -⟩ := file_dag hsha hfit
  rw [hadd] at h1
  cases h1
  rw [hroot] at h2
  cases h2
  obtain ⟨h3, h4⟩ := kept_blocks hcl hn (List.mem_of_getLast? hroot) hreach went hist alone
  exact ⟨readsFile hsha hfit hadd hroot h3, h4⟩

/-! ### Examples -/

def keptToy : List (Cid × Bytes) := match addFile toySha 2 2 toySlices with | .ok b => b | .error _ => []

theorem keptToy_add : addFile toySha 2 2 toySlices = .ok keptToy := by decide +kernel

def keptToyRoot : Cid × Bytes := keptToy.getLast (by decide +kernel)

/-- Crashes of requests for the same blocks before and after. -/
def keptBefore : List (NodeOp × Ends) :=
  [(.put ⟨keptToyRoot.1, keptToyRoot.2⟩, .done), (.pin keptToyRoot.1 true, .done), (.remove keptToyRoot.1, .cut 1), (.put (exBlockOf exLeaf), .cut 1)]

def keptAfter : List (NodeOp × Ends) :=
  (keptToy.map fun b => (NodeOp.remove b.1, Ends.done)) ++ [(.pin keptToyRoot.1 true, .cut 1), (.pin keptToyRoot.1 true, .full 1)]

theorem keptToy_ok : Faithful keptToy keptBefore ∧ NoTornPut (CidOf keptToy) keptBefore ∧ LeavesAlone (CidOf keptToy) keptToyRoot.1 keptAfter := by
  have hv : ∀ b ∈ keptToy, toV1 exLeaf ≠ toV1 b.1 := by decide +kernel
  have hi : ∀ b ∈ keptToy, ∀ b' ∈ keptToy, toV1 b.1 = toV1 b'.1 → b = b' := by decide +kernel
  have hr : keptToyRoot ∈ keptToy := List.getLast_mem _
  refine ⟨?_, ?_, ?_, ?_⟩
  · intro x e he b hb hx
    simp only [keptBefore, List.mem_cons, Prod.mk.injEq, NodeOp.put.injEq, reduceCtorEq, false_and, List.not_mem_nil, or_false, false_or] at he
    rcases he with ⟨rfl, -⟩ | ⟨rfl, -⟩
    · rw [hi _ hr b hb hx]
    · exact absurd hx (hv b hb)
  · rintro x e he d ⟨b, hb, rfl⟩ hx
    simp only [keptBefore, List.mem_cons, Prod.mk.injEq, NodeOp.put.injEq, reduceCtorEq, false_and, List.not_mem_nil, or_false, false_or] at he
    rcases he with ⟨-, rfl⟩ | ⟨rfl, -⟩
    · exact ⟨by simp, by simp⟩
    · exact absurd hx (hv b hb)
  · intro b e he
    simp [keptAfter] at he
  · rintro c e he d ⟨b, hb, rfl⟩ hx
    simp only [keptAfter, List.mem_append, List.mem_map, Prod.mk.injEq, NodeOp.remove.injEq, List.mem_cons, reduceCtorEq, false_and, List.not_mem_nil,
      or_false] at he
    obtain ⟨b', hb', rfl, -⟩ := he
    rw [hi b' hb' b hb hx]

example : ∃ N, ∀ fuel, N ≤ fuel →
    ReadsFile (DiskNode.run { exPinEnv with fuel := fuel } exLe ⟨[], []⟩ (keptBefore ++ putsDone keptToy ++ (.pin keptToyRoot.1 true, .done) :: keptAfter))
      keptToyRoot.1 [1, 2, 3, 4, 5] := by
  obtain ⟨blocks, root, h1, h2, h3⟩ := C85_partial toySha_digest32 toyFits exPinEnv exLe
  rw [keptToy_add] at h1
  cases h1
  obtain rfl : keptToyRoot = root := by
    have : keptToy.getLast? = some keptToyRoot := by decide +kernel
    rw [this] at h2
    exact Option.some.inj h2
  obtain ⟨N, hN⟩ := h3 (by unfold NoCollision; decide +kernel)
  exact ⟨N, fun fuel hf => ((hN fuel hf keptBefore keptToy_ok.1 keptToy_ok.2.1).2 keptAfter keptToy_ok.2.2).1⟩

/-- The first block of the file, whose put is cut off. -/
def keptTorn : Cid × Bytes := keptToy.head (by decide +kernel)

def keptTornNode : DiskNode := DiskNode.run exPinEnv exLe ⟨[], []⟩ ([(.put ⟨keptTorn.1, keptTorn.2⟩, .cut 1)] ++ putsDone keptToy)

theorem catLoop_over {fetch : Cid → Option Bytes} {k : Nat} {v : Visit} (hr : (catLoop fetch k v).2 ≠ .outOfFuel) (j : Nat) :
    catLoop fetch (k + j) v = catLoop fetch k v := by
  induction k generalizing v with
  | zero => exact absurd rfl hr
  | succ k ih =>
    rw [Nat.succ_add]
    simp only [catLoop] at hr ⊢
    cases h1 : v.pending with
    | nil => rfl
    | cons p ps =>
      cases h2 : fetch p.1 with
      | none => simp only [h2]
      | some data =>
        cases h3 : v.continueWalk data with
        | error e => simp only [h2, h3]; cases e <;> rfl
        | ok x =>
          obtain ⟨bytes, more⟩ := x
          cases more with
          | none => simp only [h2, h3]
          | some v' =>
            simp only [h1, h2, h3] at hr
            simp only [h2, h3, ih hr]

theorem cat_over {fetch : Cid → Option Bytes} {range : Option Rng} {root : Bytes} {k : Nat} (h : (cat fetch range root k).2 ≠ .outOfFuel) (j : Nat) :
    cat fetch range root (k + j) = cat fetch range root k := by
  unfold cat at h ⊢
  cases h1 : visitStart range root with
  | error e => cases e <;> rfl
  | ok x =>
    obtain ⟨bytes, a, b, visit⟩ := x
    cases visit with
    | none => rfl
    | some v =>
      simp only [h1] at h
      simp only [catLoop_over h]

/-- **C85 fails** when a put of one of the blocks was cut off: adding the file again goes well, pinning it goes well, and it cannot be read. -/
theorem C85_torn : (keptTornNode.plan exPinEnv exLe (.pin keptToyRoot.1 true)).1 = true ∧
    ∀ content, ¬ ReadsFile (keptTornNode.run exPinEnv exLe [(.pin keptToyRoot.1 true, .done)]) keptToyRoot.1 content := by
  refine ⟨by decide +kernel, fun content h => ?_⟩
  obtain ⟨data, fuel0, chunks, h1, -, h2⟩ := h.whole
  have h3 : (keptTornNode.run exPinEnv exLe [(.pin keptToyRoot.1 true, .done)]).get keptToyRoot.1 = some keptToyRoot.2 := by decide +kernel
  rw [h3] at h1
  cases h1
  have h4 : (cat (keptTornNode.run exPinEnv exLe [(.pin keptToyRoot.1 true, .done)]).get none keptToyRoot.2 9).2 = .walking .read := by decide +kernel
  have h5 := h2 (9 + fuel0) (by omega)
  rw [cat_over (by rw [h4]; simp)] at h5
  rw [h5] at h4
  cases h4

end Verif.Props
