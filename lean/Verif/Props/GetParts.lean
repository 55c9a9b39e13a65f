import Verif.Props.Get
import Verif.Props.HttpResolve
import Verif.Props.ShardWalk

/-! # C95: getting any part of any tree over HTTP -/

namespace Verif.Props

open Verif Verif.Http Verif.Ipfs Verif.Unixfs Verif.Ipld

/-! ### Specification -/

/-- The entry of an archive for one place of a tree: none for the buckets a directory is kept in. -/
def Rep.tarEntries (r : Rep) : List TarEntry :=
  match r.kind with
  | .dir m => [⟨joinSlash r.path, .dir, entryMode m 0o755, entryTime m⟩]
  | .shard m => [⟨joinSlash r.path, .dir, entryMode m 0o755, entryTime m⟩]
  | .bucket => []
  | .leaf seen => [leafEntry (joinSlash r.path) seen]

/-- What can be written: paths of plain names, sizes and times below 2^33, targets of links in UTF-8. -/
def Rep.TarFits (r : Rep) : Prop :=
  match r.kind with
  | .dir m => TarPath (joinSlash r.path) ∧ entryTime m < 2 ^ 33
  | .shard m => TarPath (joinSlash r.path) ∧ entryTime m < 2 ^ 33
  | .bucket => True
  | .leaf seen => TarPath (joinSlash r.path) ∧ LeafFits seen

/-- What the archive of one directory of a form has to hold: that directory, under the name given, every file that was sent
below it, with its content, every directory that was sent below it, and every directory on the way to them. -/
inductive ArchivedBelow (start : List Bytes) (name : Bytes) (parts : List FormPart) : TarEntry → Prop where
  | root : ArchivedBelow start name parts ⟨name, .dir, 0o755, 0⟩
  | file {p : FormPart} {path : Bytes} {q : List Bytes} : SentTo parts p path → p.contentType = some octetStream →
      splitSlash path = start ++ q → ArchivedBelow start name parts ⟨joinSlash (name :: q), .file p.chunks.flatten, 0o644, 0⟩
  | dir {p : FormPart} {path : Bytes} {q : List Bytes} : SentTo parts p path → p.contentType = some xDirectory →
      splitSlash path = start ++ q → ArchivedBelow start name parts ⟨joinSlash (name :: q), .dir, 0o755, 0⟩
  | above {p : FormPart} {path : Bytes} {q : List Bytes} : SentTo parts p path → start ++ q <+: splitSlash path →
      start ++ q ≠ splitSlash path → ArchivedBelow start name parts ⟨joinSlash (name :: q), .dir, 0o755, 0⟩

/-- Everything in that archive has a path that can be written. -/
def PathsFitBelow (start : List Bytes) (name : Bytes) (parts : List FormPart) : Prop :=
  ∀ q, (q = [] ∨ ∃ p path, SentTo parts p path ∧ start ++ q <+: splitSlash path) → TarPath (joinSlash (name :: q))

/-- The directories a form makes: one that was sent, or one on the way to something that was sent. -/
def MadeDir (parts : List FormPart) (start : List Bytes) : Prop :=
  ∃ p path, SentTo parts p path ∧
    ((start <+: splitSlash path ∧ start ≠ splitSlash path) ∨ (start = splitSlash path ∧ p.contentType = some xDirectory))

/-- The names in a form are neither empty nor a dot. -/
def NamesFit (parts : List FormPart) : Prop :=
  ∀ p path, SentTo parts p path → ∀ x ∈ splitSlash path, x ≠ [] ∧ x ≠ [46]

/-! ### Helpers -/

theorem showsRep_in {root : Bool} {top : Option Cid} {r : Rep} {items : List WItem} (h : ShowsRep root top r items)
    (hf : r.TarFits) : ∃ i : TarIn, i.Ok ∧ i.items = items ∧ i.entries = r.tarEntries := by
  obtain ⟨path, cid, kind⟩ := r
  cases kind with
  | dir m => exact ⟨.dir root cid (joinSlash path) m, hf, h.symm, rfl⟩
  | shard m => exact ⟨.dir true cid (joinSlash path) m, hf, h.symm, rfl⟩
  | bucket => exact ⟨.bucket (top.getD cid) (joinSlash path), trivial, h.symm, rfl⟩
  | leaf seen =>
    obtain ⟨i, h1, h2, h3⟩ := shows_in h hf.2 hf.1
    exact ⟨i, h1, h2, h3⟩

theorem showsReps_in {rs : List Rep} : ∀ {top : Option Cid} {items : List WItem}, ShowsReps top rs items → (∀ r ∈ rs, r.TarFits) →
    ∃ is : List TarIn, (∀ i ∈ is, i.Ok) ∧ is.flatMap TarIn.items = items ∧ is.flatMap TarIn.entries = rs.flatMap Rep.tarEntries := by
  induction rs with
  | nil => intro top items h _; exact ⟨[], by simp, h.symm, rfl⟩
  | cons r rs ih =>
    intro top items h hf
    obtain ⟨a, b, rfl, h1, h2⟩ := h
    obtain ⟨i, i1, i2, i3⟩ := showsRep_in h1 (hf r List.mem_cons_self)
    obtain ⟨is, j1, j2, j3⟩ := ih h2 (fun x hx => hf x (List.mem_cons_of_mem _ hx))
    refine ⟨i :: is, ?_, by simp [i2, j2], by simp [i3, j3]⟩
    intro x hx
    rcases List.mem_cons.mp hx with rfl | hx
    · exact i1
    · exact j1 x hx

theorem showsTree_in {rs : List Rep} {items : List WItem} (h : ShowsTree rs items) (hf : ∀ r ∈ rs, r.TarFits) :
    ∃ is : List TarIn, (∀ i ∈ is, i.Ok) ∧ is.flatMap TarIn.items = items ∧ is.flatMap TarIn.entries = rs.flatMap Rep.tarEntries := by
  cases rs with
  | nil => cases h
  | cons r rs =>
    obtain ⟨a, b, rfl, h1, h2⟩ := h
    obtain ⟨i, i1, i2, i3⟩ := showsRep_in h1 (hf r List.mem_cons_self)
    obtain ⟨is, j1, j2, j3⟩ := showsReps_in h2 (fun x hx => hf x (List.mem_cons_of_mem _ hx))
    refine ⟨i :: is, ?_, by simp [i2, j2], by simp [i3, j3]⟩
    intro x hx
    rcases List.mem_cons.mp hx with rfl | hx
    · exact i1
    · exact j1 x hx

theorem Lays.head {fetch : Cid → Option Bytes} {c : Cid} {P : List Bytes} {rs : List Rep} (h : Lays fetch c P rs) :
    (∃ data, fetch c = some data) ∧ ∃ r rest, rs = r :: rest ∧ r.path = P ∧ r.cid = c ∧ r.kind.isBucket = false := by
  cases h with
  | leaf h => cases h <;> exact ⟨⟨_, by assumption⟩, _, _, rfl, rfl, rfl, rfl⟩
  | dir h => exact ⟨⟨_, h⟩, _, _, rfl, rfl, rfl, rfl⟩
  | shard h => exact ⟨⟨_, h⟩, _, _, rfl, rfl, rfl, rfl⟩

theorem TarFits.path {r : Rep} (h : r.TarFits) (hb : r.kind.isBucket = false) : TarPath (joinSlash r.path) := by
  obtain ⟨path, cid, kind⟩ := r
  cases kind with
  | dir m => exact h.1
  | shard m => exact h.1
  | bucket => cases hb
  | leaf seen => exact h.1

theorem text_plain_of_tar {d : Cid} (h : TarPath d.toText) : PlainName d.toText := by
  have := h.plain
  have hs := splitSlash_join (l := [d.toText]) (by simp) (by intro x hx; rw [List.mem_singleton] at hx; exact hx ▸ Cid.toText_no_slash d)
  simp only [joinSlash] at hs
  rw [hs] at this
  exact (this _ (by simp)).1

/-- The text of a cid of this length can be the name of an entry. -/
theorem text_tar {c : Cid} (hv : c.Valid) (hlen : c.toBytes.length = 34) : TarPath c.toText := by
  have h58 : ∀ d < 58, char58 d ≠ 0 := by decide +kernel
  have hch : ∀ x ∈ c.toText, x ≠ 46 ∧ x ≠ 0 := by
    intro x hx
    unfold Cid.toText at hx
    split at hx
    · refine ⟨(base58_no_slash _ x hx).2, ?_⟩
      unfold base58 at hx
      obtain ⟨d, hd, rfl⟩ := List.mem_map.mp hx
      exact h58 d (convert_lt (by decide) _ d hd)
    · rcases List.mem_cons.mp hx with rfl | hx
      · decide
      · refine ⟨(base32_no_slash _ x hx).2, ?_⟩
        have := base32_chars _ x hx
        rintro rfl
        revert this
        decide
  have hlt : c.toText.length < 100 := by
    unfold Cid.toText
    cases hver : c.version with
    | v0 =>
      obtain ⟨-, e1, e2⟩ := hv.1 hver
      have := v0_text c.digest e2
      simp only [isV0Text, Bool.and_eq_true, beq_iff_eq] at this
      simp only [Cid.toBytes, hver, e1, this.1]
      decide
    | v1 =>
      simp only [List.length_cons, base32, List.length_map]
      obtain ⟨z, hz, hfl⟩ := groups5_flatten (c.toBytes.flatMap (fun b => bitsOf 8 b.toNat))
      have h5 : ∀ l : List (List Bool), (∀ g ∈ l, g.length = 5) → l.flatten.length = 5 * l.length := by
        intro l
        induction l with
        | nil => intro _; rfl
        | cons g l ih =>
          intro h
          rw [List.flatten_cons, List.length_append, h g (by simp), ih (fun x hx => h x (by simp [hx])), List.length_cons]
          omega
      have h8 : ∀ l : Bytes, (l.flatMap (fun b => bitsOf 8 b.toNat)).length = 8 * l.length := by
        intro l
        induction l with
        | nil => rfl
        | cons b l ih => rw [List.flatMap_cons, List.length_append, ih, bitsOf_length, List.length_cons]; omega
      have := congrArg List.length hfl
      rw [h5 _ (groups5_len _), List.length_append, h8, List.length_replicate, hlen] at this
      omega
  have hne : c.toText ≠ [] := by
    intro h0
    have := Cid.ofText_toText (fun _ _ => none) c hv
    rw [h0] at this
    cases this
  have hsp : splitSlash c.toText = [c.toText] := by
    have := splitSlash_join (l := [c.toText]) (by simp) (by intro x hx; rw [List.mem_singleton] at hx; exact hx ▸ Cid.toText_no_slash c)
    simpa only [joinSlash] using this
  have hdot : ∀ t : Bytes, 46 ∈ t → t ≠ c.toText := fun t ht h0 => (hch 46 (h0 ▸ ht)).1 rfl
  refine ⟨⟨?_, fun h0 => (hch 0 h0).2 rfl⟩, ?_, by omega⟩
  · intro n hn
    rw [hsp, List.mem_singleton] at hn
    subst hn
    exact ⟨⟨hne, (hdot [46] (by simp)).symm, Cid.toText_no_slash c⟩, (hdot [46, 46] (by simp)).symm⟩
  · rw [List.take_of_length_le (by omega), hsp]
    intro h0
    exact hdot [46, 46] (by simp) (Option.some.inj h0).symm

/-- The archive once the first block is located. -/
theorem get_lays (q : QueryEnv) (s : Served) {query : Bytes} {path : IpfsPath} {timeout : Option Nat} {d : Cid} {rs : List Rep}
    (hq : getQuery q query = .ok (path, timeout))
    {fuel1 : Nat} (hloc : ∀ data, s.fetch d = some data → ∀ fuel, fuel1 ≤ fuel → locate q.mb { s with fuel := fuel } path timeout = .at d data)
    (h : Lays s.fetch d [d.toText] rs) (hfit : ∀ r ∈ (untilClash false rs).1, r.TarFits) :
    ∃ fuel0 chunks, tarEntries chunks.flatten = some ((untilClash false rs).1.flatMap Rep.tarEntries) ∧
      ∀ fuel, fuel0 ≤ fuel → getRequest q { s with fuel := fuel } query =
        .stream chunks (if (untilClash false rs).2 then .walk (.failed .panic) else .done) := by
  obtain ⟨⟨data, hd⟩, r, rest, hr, hp, _, hb⟩ := h.head
  have hmem : r ∈ (untilClash false rs).1 := by rw [hr, untilClash]; simp
  have htar := TarFits.path (hfit r hmem) hb
  rw [hp] at htar
  simp only [joinSlash] at htar
  have hname := text_plain_of_tar htar
  obtain ⟨items, i1, i2⟩ := C61_walk (name := d.toText) (Or.inr hname) (by rw [if_neg hname.nonempty]; exact h) s.debug
  obtain ⟨is, j1, j2, j3⟩ := showsTree_in i1 hfit
  obtain ⟨out, o1, _, o3⟩ := C53_stream_partial (16 * 1024) is j1
  rw [j2] at o1
  rw [j3] at o3
  refine ⟨max fuel1 items.length, out, o3, fun fuel hfuel => ?_⟩
  unfold getRequest
  rw [hq]
  simp only [getInner, hloc data hd fuel (by omega), getStream]
  rw [walkFrom_eq fuel s.debug d.toText hd, i2 (fuel + 1) (by omega)]
  simp only [o1]
  cases (untilClash false rs).2 <;> simp

theorem locate_steps (mb : UInt8 → Bytes → Option Bytes) (s : Served) {top d : Cid} {segs : List Bytes} {data : Bytes}
    {timeout : Option Nat} (ht : s.timedOut timeout = false) (hne : ∀ x ∈ segs, x ≠ [])
    (hs : Steps (Taking (servedGraph s) (NamedOp s.fetch)) (.doc top) segs (.doc d) [])
    (hd : s.fetch d = some data) (hc : d.codec = codecDagPb) :
    ∃ fuel0, ∀ fuel, fuel0 ≤ fuel → locate mb { s with fuel := fuel } ⟨.ipld top, segs⟩ timeout = .at d data := by
  obtain ⟨fuel0, h⟩ := C20_reached (servedGraph s) top segs [] (.doc d) (.block d data) hne hs (.block hd)
  refine ⟨fuel0 + 2, fun fuel hfuel => ?_⟩
  obtain ⟨k, rfl⟩ : ∃ k, fuel = k + 2 := ⟨fuel - 2, by omega⟩
  obtain ⟨rem, hr⟩ := h (k + 2) (by omega)
  have hi : resolveIpns mb s.txt (k + 2) ⟨.ipld top, segs⟩ true = some (.ok ⟨.ipld top, segs⟩) := C55_ipld mb s.txt k top segs true
  unfold locate resolveAny
  have ht' : Served.timedOut { s with fuel := k + 2 } timeout = false := ht
  simp only [servedGraph] at hr
  simp only [ht', Bool.false_eq_true, if_false, hi, hr]
  have hb : intoUnixfsBlock (.block d data) = .ok (d, data) := by
    unfold intoUnixfsBlock nodeSource
    simp [hc]
  simp only [hb]

/-- The request for a cid. -/
theorem getQuery_cid (q : QueryEnv) (hl : ∀ s, utf8Ok s = true → q.lossy s = s) (esc : UInt8 → Bool) (h37 : esc 37 = true)
    (h38 : esc 38 = true) (h43 : esc 43 = true) {c : Cid} (hv : c.Valid) :
    getQuery q (catUrl esc ("/ipfs/".toUTF8.toList ++ c.toText) none) = .ok (⟨.ipld c, []⟩, none) := by
  have e1 : "/ipfs/".toUTF8.toList = 47 :: sIpfs ++ [47] := by decide +kernel
  have hparse : IpfsPath.parse q.mb ("/ipfs/".toUTF8.toList ++ c.toText) = some ⟨.ipld c, []⟩ := by
    have he : "/ipfs/".toUTF8.toList ++ c.toText = IpfsPath.text ⟨.ipld c, []⟩ := by
      unfold IpfsPath.text
      simp only [PathRoot.text]
      rw [e1]
      simp
    rw [he]
    refine parse_text_of (ty := sIpfs) (key := c.toText) (by decide) (Cid.toText_no_slash c) (by simp) rfl ?_
    simp only [parseRoot, ne_eq, not_true_eq_false, if_false, true_or, if_true, Cid.ofText_toText q.mb c hv, Option.map_some]
  have hu : utf8Ok ("/ipfs/".toUTF8.toList ++ c.toText) = true := by
    rw [utf8Ok_append (by decide +kernel)]; exact utf8Ok_ascii (toText_ascii c)
  exact getQuery_of_cat (C66_url q hl esc h37 h38 h43 _ hu _ hparse none (by simp))

theorem utf8Ok_joinSlash {l : List Bytes} (h : ∀ x ∈ l, utf8Ok x = true) : utf8Ok (joinSlash l) = true := by
  induction l with
  | nil => rfl
  | cons x l ih =>
    cases l with
    | nil => simpa [joinSlash] using h x (by simp)
    | cons y l =>
      have := ih (fun z hz => h z (List.mem_cons_of_mem _ hz))
      simp only [joinSlash] at this ⊢
      rw [utf8Ok_append (h x (by simp))]
      have e : ∀ t : Bytes, utf8Ok (47 :: t) = utf8Ok t := fun t => utf8Ok_append (a := [47]) (by decide +kernel)
      rw [e]
      exact this

/-- The line for a file that was sent. -/
theorem Answers.line_of {args : AddArgs} {stored : List Block} {parts : List FormPart} {ops : List DirOp} {lines : List AddLine}
    (ha : Answers args stored parts ops lines) {p : FormPart} {path : Bytes} (hsent : SentTo parts p path)
    (hct : p.contentType = some octetStream) (hne : path ≠ []) :
    ∃ file size, .put path file size ∈ ops ∧ .added path file size ∈ lines ∧ file.Valid ∧ file.toBytes.length = 34 ∧
      StoredAs stored file p.chunks.flatten size := by
  obtain ⟨hp, raw, hraw, hpath⟩ := hsent
  induction ha with
  | nil => cases hp
  | file h1 h2 h3 h4 h5 h6 h7 h8 h9 h10 _ ih =>
    rcases List.mem_cons.mp hp with rfl | hp
    · rw [hraw] at h3; cases h3
      rw [hpath] at h4; cases h4
      exact ⟨_, _, List.mem_cons_self, by simp [hne], h8, h9, h6⟩
    · obtain ⟨b, c, d, e, f⟩ := ih hp
      exact ⟨b, c, by simp [d], by simp [e], f⟩
  | dir h1 h2 h3 h4 h5 _ ih =>
    rcases List.mem_cons.mp hp with rfl | hp
    · rw [hct] at h5
      exact absurd (Option.some.inj h5) (by decide +kernel)
    · obtain ⟨b, c, d, e, f⟩ := ih hp
      exact ⟨b, c, by simp [d], e, f⟩

/-! ### The properties -/

/-- **C95**: whatever the tree at the end of a path — files, symlinks, directories and directories in buckets, in any
combination, below names taken one at a time through documents of any kind — `get` answers with an archive of exactly that tree:
one entry for each place of it, in order, below the name of its cid; unless a bucket follows a plain directory, right before
which the archive breaks off. -/
theorem C95_tree (q : QueryEnv) (s : Served) {query : Bytes} {top d : Cid} {segs : List Bytes} {timeout : Option Nat} {rs : List Rep}
    (hq : getQuery q query = .ok (⟨.ipld top, segs⟩, timeout)) (ht : s.timedOut timeout = false) (hne : ∀ x ∈ segs, x ≠ [])
    (hs : Steps (Taking (servedGraph s) (NamedOp s.fetch)) (.doc top) segs (.doc d) []) (hc : d.codec = codecDagPb)
    (h : Lays s.fetch d [d.toText] rs) (hfit : ∀ r ∈ (untilClash false rs).1, r.TarFits) :
    ∃ fuel0 chunks, tarEntries chunks.flatten = some ((untilClash false rs).1.flatMap Rep.tarEntries) ∧
      ∀ fuel, fuel0 ≤ fuel → getRequest q { s with fuel := fuel } query =
        .stream chunks (if (untilClash false rs).2 then .walk (.failed .panic) else .done) := by
  obtain ⟨⟨data, hd⟩, -⟩ := h.head
  obtain ⟨fuel1, hloc⟩ := locate_steps q.mb s ht hne hs hd hc
  refine get_lays q s hq (fuel1 := fuel1) ?_ h hfit
  intro data' hd'
  rw [hd] at hd'
  cases hd'
  exact hloc

/-- **C95**: the cid in the line for a file that was added, with or without a wrapping directory, gives an archive with that file
alone, named by its cid. -/
theorem C95_file {sha : Bytes → Bytes} (hsha : Digest32 sha) {put : Block → Bool} {args : AddArgs}
    {parts : List FormPart} {broken : Bool} {ev : List AddEvent}
    (hfit : ∀ p ∈ parts, Fits args.chunk args.bf p.chunks.flatten)
    (h : addStream sha put args parts broken = (ev, .ok ()))
    (q : QueryEnv) (hl : ∀ s, utf8Ok s = true → q.lossy s = s) (s : Served)
    (hf : ∀ b ∈ putsOf ev, s.fetch b.1 = some b.2)
    (esc : UInt8 → Bool) (h37 : esc 37 = true) (h38 : esc 38 = true) (h43 : esc 43 = true)
    {p : FormPart} (hp : p ∈ parts) (hct : p.contentType = some octetStream) (hbig : p.chunks.flatten.length < 2 ^ 33) :
    ∃ name file size, .added name file size ∈ linesOf ev ∧
      ∃ fuel0 chunks, tarEntries chunks.flatten = some [⟨file.toText, .file p.chunks.flatten, 0o644, 0⟩] ∧
        ∀ fuel, fuel0 ≤ fuel → getRequest q { s with fuel := fuel } (catUrl esc ("/ipfs/".toUTF8.toList ++ file.toText) none) =
          .stream chunks .done := by
  obtain ⟨ops, lines, nodes, ha, g1, g2, hlines, g3⟩ := C54_answer_partial hsha hfit h
  have key : ∃ name file size, .added name file size ∈ lines ∧ file.Valid ∧ file.toBytes.length = 34 ∧
      StoredAs (putsOf ev) file p.chunks.flatten size := by
    clear hlines hfit h g1 g2 g3
    induction ha with
    | nil => cases hp
    | file h1 h2 h3 h4 h5 h6 h7 h8 h9 h10 _ ih =>
      rcases List.mem_cons.mp hp with rfl | hp
      · exact ⟨_, _, _, by simp; left; rfl, h8, h9, h6⟩
      · obtain ⟨a, b, c, d, e⟩ := ih hp
        exact ⟨a, b, c, by simp [d], e⟩
    | dir h1 h2 h3 h4 h5 _ ih =>
      rcases List.mem_cons.mp hp with rfl | hp
      · rw [hct] at h5
        exact absurd (Option.some.inj h5) (by decide +kernel)
      · exact ih hp
  obtain ⟨name, file, size, k1, k2, k4, k3⟩ := key
  refine ⟨name, file, size, by rw [hlines]; simp [k1], ?_⟩
  have htar := text_tar k2 k4
  have hr := (k3 s.fetch hf).2
  have hq := getQuery_cid q hl esc h37 h38 h43 k2
  have hlay : Lays s.fetch file [file.toText] [⟨[file.toText], file, .leaf (.file p.chunks.flatten p.chunks.flatten.length {})⟩] :=
    .leaf hr.leafIs
  have := get_lays q s hq (fuel1 := 2) (rs := [⟨[file.toText], file, .leaf (.file p.chunks.flatten p.chunks.flatten.length {})⟩])
    (fun data hd fuel hfuel => locate_follow q.mb { s with fuel := fuel } (top := file) (segs := []) hd hr.1 rfl (by simpa using hfuel))
    hlay (by
      intro r hr'
      simp only [untilClash, Bool.false_and, Bool.false_eq_true, if_false, List.mem_singleton] at hr'
      subst hr'
      exact ⟨htar, rfl, hbig, by decide⟩)
  exact this

/-- **C95**: the same for the path of a file in the wrapping directory. -/
theorem C95_named {sha : Bytes → Bytes} (hsha : Digest32 sha) {put : Block → Bool} {args : AddArgs}
    (hw : args.wrap = true) {parts : List FormPart} {broken : Bool} {ev : List AddEvent}
    (hfit : ∀ p ∈ parts, Fits args.chunk args.bf p.chunks.flatten)
    (hs : ∀ p ∈ parts, ∀ raw, p.filename = some raw → raw.length < 2 ^ 30)
    (htot : FormTotals sha args parts)
    (h : addStream sha put args parts broken = (ev, .ok ()))
    (q : QueryEnv) (hl : ∀ s, utf8Ok s = true → q.lossy s = s) (s : Served)
    (hf : ∀ b ∈ putsOf ev, s.fetch b.1 = some b.2)
    (esc : UInt8 → Bool) (h37 : esc 37 = true) (h38 : esc 38 = true) (h43 : esc 43 = true) :
    ∃ top total, (linesOf ev).getLast? = some (.added [] top total) ∧
      ∀ p path, SentTo parts p path → p.contentType = some octetStream → path ≠ [] → p.chunks.flatten.length < 2 ^ 33 →
        ∃ file size, .added path file size ∈ linesOf ev ∧
        ∃ fuel0 chunks, tarEntries chunks.flatten = some [⟨file.toText, .file p.chunks.flatten, 0o644, 0⟩] ∧
          ∀ fuel, fuel0 ≤ fuel → getRequest q { s with fuel := fuel } (catUrl esc (ipfsText top path) none) = .stream chunks .done := by
  obtain ⟨ops, lines, nodes, puts, ha, hacc, hrun, hlines, hfd, hputs⟩ := addStream_inv hsha hfit h
  have hst : ∀ n ∈ nodes, (n.cid, n.block) ∈ putsOf ev := fun n hn => by
    rw [hputs]; exact List.mem_append_right _ (List.mem_map.mpr ⟨n, hn, rfl⟩)
  have htot := htot ops puts hfd
  have hops := ha.fits hs
  obtain ⟨front, root, hfr, hroot, _⟩ := C12_root_last hsha args.tree ops hops htot hw hrun
  obtain ⟨qs, node, _, _, _, hout, hnode⟩ := C12_nodes hsha args.tree ops hops htot hrun
  have hv0 : ∀ n ∈ nodes, n.cid = Cid.v0 (sha n.block) := by
    intro n hn
    rw [hout] at hn
    obtain ⟨x, hx, rfl⟩ := List.mem_map.mp hn
    exact (hnode x hx).cid
  subst hfr
  refine ⟨root.cid, root.total, by rw [hlines, ← hroot]; simp, ?_⟩
  intro p path hsent hct hne hbig
  obtain ⟨hp, raw, hraw, hpath⟩ := hsent
  obtain ⟨file, size, k0, k1, k2, k4, k3⟩ := ha.line_of ⟨hp, raw, hraw, hpath⟩ hct hne
  refine ⟨file, size, by rw [hlines]; simp [k1], ?_⟩
  have htar := text_tar k2 k4
  have hr := (k3 s.fetch hf).2
  have hne : ∀ x ∈ splitSlash path, x ≠ [] := (accepted_segments args.tree ops (.put path file size) (by rw [hacc]; exact k0)).resolve_left hne
  have hserve : Serves (pbOnly s.fetch) (front ++ [root]) := by
    intro n hn
    unfold pbOnly
    rw [if_pos (by rw [hv0 n hn]; rfl)]
    exact hf _ (hst n hn)
  have hfol := C10_found hsha args.tree ops hops htot hw hrun hserve (by rw [hacc]; exact k0)
  have htop : root.cid.Valid := by
    rw [hv0 root (by simp)]; exact Cid.v0_valid _ (hsha _)
  have hq := getQuery_of_cat (C66_url q hl esc h37 h38 h43 _ (ipfsText_utf8 root.cid (addPath_spec hpath).1) _
    (ipfsText_parse q.mb htop hne) none (by simp))
  exact get_lays q s hq (fuel1 := (splitSlash path).length + 2)
    (rs := [⟨[file.toText], file, .leaf (.file p.chunks.flatten p.chunks.flatten.length {})⟩])
    (fun data hd fuel hfuel => locate_follow q.mb { s with fuel := fuel } hd hr.1 hfol hfuel)
    (.leaf hr.leafIs) (by
      intro r hr'
      simp only [untilClash, Bool.false_and, Bool.false_eq_true, if_false, List.mem_singleton] at hr'
      subst hr'
      exact ⟨htar, rfl, hbig, by decide⟩)

/-- **C95**: every directory of what was added, with or without a wrapping directory, has a line in the answer, and the cid in it gives
an archive of exactly what was sent below that directory, each thing once, under the name of the cid; with a wrapping directory so does
its path. -/
theorem C95_part {sha : Bytes → Bytes} (hsha : Digest32 sha) {put : Block → Bool} {args : AddArgs}
    {parts : List FormPart} {broken : Bool} {ev : List AddEvent}
    (hfit : ∀ p ∈ parts, Fits args.chunk args.bf p.chunks.flatten)
    (hs : ∀ p ∈ parts, ∀ raw, p.filename = some raw → raw.length < 2 ^ 30)
    (hbig : ∀ p ∈ parts, p.chunks.flatten.length < 2 ^ 33)
    (htot : FormTotals sha args parts) (hnames : NamesFit parts)
    (h : addStream sha put args parts broken = (ev, .ok ()))
    (q : QueryEnv) (hl : ∀ s, utf8Ok s = true → q.lossy s = s) (s : Served)
    (hf : ∀ b ∈ putsOf ev, s.fetch b.1 = some b.2)
    (esc : UInt8 → Bool) (h37 : esc 37 = true) (h38 : esc 38 = true) (h43 : esc 43 = true)
    {start : List Bytes} (hne : start ≠ []) (hdir : MadeDir parts start) :
    ∃ d total, .added (joinSlash start) d total ∈ linesOf ev ∧
      (PathsFitBelow start d.toText parts → ∃ fuel0 chunks es,
        tarEntries chunks.flatten = some es ∧ (es.map TarEntry.path).Nodup ∧ (∀ e, e ∈ es ↔ ArchivedBelow start d.toText parts e) ∧
        ∀ fuel, fuel0 ≤ fuel →
          getRequest q { s with fuel := fuel } (catUrl esc ("/ipfs/".toUTF8.toList ++ d.toText) none) = .stream chunks .done ∧
          (args.wrap = true → ∃ top total, (linesOf ev).getLast? = some (.added [] top total) ∧
            getRequest q { s with fuel := fuel } (catUrl esc (ipfsText top (joinSlash start)) none) = .stream chunks .done)) := by
  obtain ⟨ops, lines, nodes, puts, ha, hacc, hrun, hlines, hfd, hputs⟩ := addStream_inv hsha hfit h
  have hst : ∀ n ∈ nodes, (n.cid, n.block) ∈ putsOf ev := fun n hn => by
    rw [hputs]; exact List.mem_append_right _ (List.mem_map.mpr ⟨n, hn, rfl⟩)
  have htot := htot ops puts hfd
  have hops := ha.fits hs
  have hserve : Serves s.fetch nodes := fun n hn => hf _ (hst n hn)
  have hsent : ∀ op ∈ ops, ∃ p, SentTo parts p op.path := by
    intro op ho
    obtain ⟨p, hp, _⟩ := ha.sent_of ho
    exact ⟨p, hp⟩
  have hplain : ∀ op ∈ acceptedOps (Builder.new args.tree) ops, ∀ x ∈ splitSlash op.path, x ≠ [] ∧ x ≠ [46] := by
    intro op ho x hx
    rw [hacc] at ho
    obtain ⟨p, hp⟩ := hsent op ho
    exact hnames p _ hp x hx
  have hop : ∀ p path, SentTo parts p path → ∃ op ∈ ops, op.path = path ∧ (p.contentType = some xDirectory → op.kind = .dir) := by
    intro p path hp
    rcases ha.op_of hp with ⟨hct, c, n, ho, _⟩ | ⟨_, ho⟩
    · refine ⟨_, ho, rfl, fun h0 => ?_⟩
      rw [hct] at h0
      exact absurd (Option.some.inj h0) (by decide +kernel)
    · exact ⟨_, ho, rfl, fun _ => rfl⟩
  have hstart : entryAt (builderAfter args.tree ops).root start = some .dir := by
    rw [(C11_tree args.tree ops start).2, hacc]
    obtain ⟨p, path, hp, hcase⟩ := hdir
    obtain ⟨op, ho, rfl, hk⟩ := hop p path hp
    refine Or.inr ⟨op, ho, ?_⟩
    rcases hcase with h1 | ⟨h1, h2⟩
    · exact Or.inl h1
    · exact Or.inr ⟨h1, hk h2⟩
  obtain ⟨node, hnode, hroot, _⟩ := start_node hsha args.tree ops hops htot hrun hserve
  obtain ⟨n1, n2, n3⟩ := hnode start hstart (Or.inr hne)
  have hmem : AddLine.added (joinSlash start) (node start).cid (node start).total ∈ linesOf ev := by
    rw [hlines]
    refine List.mem_append_right _ (List.mem_map.mpr ⟨_, n2, by rw [n1.path]⟩)
  refine ⟨(node start).cid, (node start).total, hmem, ?_⟩
  intro hpaths
  have hname : PlainName (node start).cid.toText := by rw [n1.cid]; exact v0_text_plain _ (hsha _)
  have hvalid : (node start).cid.Valid := by rw [n1.cid]; exact Cid.v0_valid _ (hsha _)
  have hcodec : (node start).cid.codec = codecDagPb := by rw [n1.cid]; rfl
  generalize hdn : (node start).cid = d at *
  have hreads : ∀ path c n, .put path c n ∈ ops → ∃ p, SentTo parts p path ∧ p.contentType = some octetStream ∧
      ReadsAs s.fetch c p.chunks.flatten := by
    intro path c n ho
    obtain ⟨p, hp, hcase⟩ := ha.sent_of ho
    rcases hcase with ⟨c', n', he, hct, hsto⟩ | ⟨he, _⟩
    · cases he
      exact ⟨p, hp, hct, (hsto s.fetch hf).2⟩
    · cases he
  have hleaf : ∀ path c n, .put path c n ∈ acceptedOps (Builder.new args.tree) ops → LeafIs s.fetch c (readContent s.fetch c) := by
    intro path c n ho
    rw [hacc] at ho
    obtain ⟨p, _, _, hr⟩ := hreads path c n ho
    rw [readContent_eq hr]
    exact hr.leafIs
  obtain ⟨groups, hrep, hfeed⟩ := walk_reports hsha args.tree ops hops hnode hplain hleaf hstart (Or.inr hne) s.debug (Or.inr hname)
  rw [hdn] at hfeed
  obtain ⟨out, es, t1, t2, t3, t4⟩ := C53_tree_partial (16 * 1024) hname.nonempty hrep
    (by
      intro x hx
      refine hpaths x ?_
      rcases hx with rfl | ⟨op, ho, hpre⟩
      · exact Or.inl rfl
      · rw [hacc] at ho
        obtain ⟨p, hp⟩ := hsent op ho
        exact Or.inr ⟨p, _, hp, hpre⟩)
    (by
      intro path c n ho
      rw [hacc] at ho
      obtain ⟨p, hp, _, hr⟩ := hreads path c n ho
      rw [readContent_eq hr]
      exact ⟨rfl, hbig p hp.1, by decide⟩)
  rw [hacc] at hrep t4
  have hlen : (groups.map Prod.fst).length = es.length := by
    have := congrArg List.length t3
    simpa using this.symm
  have hall : ∀ x, x ∈ groups.map Prod.fst ↔ x = [] ∨ ∃ op ∈ ops, start ++ x <+: splitSlash op.path := hrep.all
  have hone : ∀ x path c n path' c' n', .put path c n ∈ ops → .put path' c' n' ∈ ops → splitSlash path = x → splitSlash path' = x → c = c' := by
    intro x path c n path' c' n' h1 h2 e1 e2
    have a := ((C11_tree args.tree ops x).1 ⟨c, n⟩).mpr ⟨.put path c n, by rw [hacc]; exact h1, e1, rfl⟩
    have b := ((C11_tree args.tree ops x).1 ⟨c', n'⟩).mpr ⟨.put path' c' n', by rw [hacc]; exact h2, e2, rfl⟩
    rw [a] at b
    exact congrArg Leaf.link (Kind.leaf.inj (Option.some.inj b))
  have hdirno : ∀ x, entryAt (builderAfter args.tree ops).root x = some .dir → ∀ path c n, .put path c n ∈ ops → splitSlash path ≠ x := by
    intro x b path c n h1 e1
    have a := ((C11_tree args.tree ops x).1 ⟨c, n⟩).mpr ⟨.put path c n, by rw [hacc]; exact h1, e1, rfl⟩
    rw [a] at b
    cases b
  have hmk : ∀ x, (∃ op ∈ ops, (x <+: splitSlash op.path ∧ x ≠ splitSlash op.path) ∨ (x = splitSlash op.path ∧ op.kind = .dir)) →
      entryAt (builderAfter args.tree ops).root x = some .dir := fun x hx => by
    rw [(C11_tree args.tree ops x).2, hacc]; exact Or.inr hx
  refine ⟨max (groups.map Prod.snd).flatten.length (start.length + 2), out, es, t2, ?_, ?_, ?_⟩
  · rw [t3]
    rw [show groups.map (fun g => joinSlash (d.toText :: g.1)) = (groups.map Prod.fst).map (fun x => joinSlash (d.toText :: x)) by
      rw [List.map_map]; rfl]
    refine nodup_map_of hrep.once ?_
    have hno : ∀ a ∈ groups.map Prod.fst, ∀ y ∈ d.toText :: a, NoSlash y := by
      intro a ha' y hy
      rcases List.mem_cons.mp hy with rfl | hy
      · exact hname.noSlash
      · rcases (hall a).mp ha' with rfl | ⟨op, ho, hpre⟩
        · cases hy
        · exact splitSlash_noSlash op.path y (hpre.subset (by simp [hy]))
    intro a ha' b hb he
    have := congrArg splitSlash he
    rw [splitSlash_join (by simp) (hno a ha'), splitSlash_join (by simp) (hno b hb)] at this
    exact (List.cons.inj this).2
  · intro e
    constructor
    · intro he
      obtain ⟨x, hx⟩ := zip_right hlen he
      have hxm : x ∈ groups.map Prod.fst := (List.of_mem_zip hx).1
      rcases t4 _ hx with ⟨path, c, n, ho, hsp, he'⟩ | ⟨hno, he'⟩
      · simp only at he'
        subst he'
        obtain ⟨p, hp, hct, hr⟩ := hreads path c n ho
        rw [readContent_eq hr]
        exact .file hp hct hsp
      · simp only at he' hno
        subst he'
        rcases (hall x).mp hxm with rfl | ⟨op, ho, hpre⟩
        · exact .root
        · obtain ⟨p, hp, hcase⟩ := ha.sent_of ho
          by_cases hxe : start ++ x = splitSlash op.path
          · rcases hcase with ⟨c, n, he, _⟩ | ⟨_, hct⟩
            · rw [he] at ho
              exact absurd hxe.symm (hno _ _ _ ho)
            · exact .dir hp hct hxe.symm
          · exact .above hp hpre hxe
    · intro he
      have dirs : ∀ x, x ∈ groups.map Prod.fst → entryAt (builderAfter args.tree ops).root (start ++ x) = some .dir →
          (⟨joinSlash (d.toText :: x), .dir, 0o755, 0⟩ : TarEntry) ∈ es := by
        intro x hxm hx
        obtain ⟨e', hz⟩ := zip_left hlen hxm
        rcases t4 _ hz with ⟨path, c, n, ho, hsp, _⟩ | ⟨_, he'⟩
        · exact absurd hsp (hdirno _ hx path c n ho)
        · have := (List.of_mem_zip hz).2
          simp only at he'
          rw [he'] at this
          exact this
      cases he with
      | root => exact dirs [] ((hall []).mpr (Or.inl rfl)) (by rw [List.append_nil]; exact hstart)
      | @file p path x hp hct hsp =>
        rcases ha.op_of hp with ⟨_, c, n, ho, hsto⟩ | ⟨hct', _⟩
        · obtain ⟨e', hz⟩ := zip_left hlen ((hall x).mpr (Or.inr ⟨_, ho, by rw [← hsp]; exact List.prefix_refl _⟩))
          rcases t4 _ hz with ⟨path', c', n', ho', hsp', he'⟩ | ⟨hno, _⟩
          · have hc := hone _ _ _ _ _ _ _ ho ho' hsp hsp'
            subst hc
            rw [readContent_eq (hsto s.fetch hf).2] at he'
            have := (List.of_mem_zip hz).2
            simp only at he'
            rw [he'] at this
            exact this
          · exact absurd hsp (hno _ _ _ ho)
        · rw [hct] at hct'
          exact absurd (Option.some.inj hct') (by decide +kernel)
      | @dir p path x hp hct hsp =>
        obtain ⟨op, ho, rfl, hk⟩ := hop p path hp
        exact dirs x ((hall x).mpr (Or.inr ⟨op, ho, by rw [← hsp]; exact List.prefix_refl _⟩))
          (hmk _ ⟨op, ho, Or.inr ⟨hsp.symm, hk hct⟩⟩)
      | @above p path x hp hpre hne' =>
        obtain ⟨op, ho, rfl, _⟩ := hop p path hp
        exact dirs x ((hall x).mpr (Or.inr ⟨op, ho, hpre⟩)) (hmk _ ⟨op, ho, Or.inl ⟨hpre, hne'⟩⟩)
  · intro fuel hfuel
    have hstream : ∀ query arg, getQuery q query = .ok (arg, none) →
        locate q.mb { s with fuel := fuel } arg none = .at d (node start).block → getRequest q { s with fuel := fuel } query = .stream out .done := by
      intro query arg hq hloc
      unfold getRequest
      rw [hq]
      simp only [getInner, hloc, getStream]
      rw [walkFrom_eq fuel s.debug d.toText n3, hfeed (fuel + 1) (by omega)]
      simp only [t1, if_true]
    refine ⟨hstream _ _ (getQuery_cid q hl esc h37 h38 h43 hvalid)
      (locate_follow q.mb { s with fuel := fuel } (top := d) (segs := []) n3 hcodec rfl (by simp only [List.length_nil]; omega)), ?_⟩
    intro hw
    obtain ⟨front, root, hfr, hroot', _⟩ := C12_root_last hsha args.tree ops hops htot hw hrun
    have hr := hroot front root hfr hw
    have hrv : root.cid = Cid.v0 (sha root.block) := by
      rw [hr]; exact (hnode [] (by rw [entryAt]) (Or.inl hw)).1.cid
    refine ⟨root.cid, root.total, by rw [hlines, hfr, ← hroot']; simp, ?_⟩
    have hseg : ∀ x ∈ start, x ≠ [] ∧ NoSlash x ∧ utf8Ok x = true := by
      obtain ⟨p, path, hp, hcase⟩ := hdir
      have hpre : start <+: splitSlash path := by
        rcases hcase with h1 | h1
        · exact h1.1
        · exact h1.1 ▸ List.prefix_refl _
      intro x hx
      obtain ⟨_, raw, _, hpath⟩ := id hp
      exact ⟨(hnames p path hp x (hpre.subset hx)).1, splitSlash_noSlash path x (hpre.subset hx),
        utf8Ok_split (addPath_spec hpath).1 x (hpre.subset hx)⟩
    have hsplit : splitSlash (joinSlash start) = start := splitSlash_join hne (fun x hx => (hseg x hx).2.1)
    have hserve' : Serves (pbOnly s.fetch) nodes := by
      intro n hn
      have : n.cid.codec = codecDagPb := by
        obtain ⟨qs, node', _, _, _, hout, hnode'⟩ := C12_nodes hsha args.tree ops hops htot hrun
        rw [hout] at hn
        obtain ⟨x, hx, rfl⟩ := List.mem_map.mp hn
        rw [(hnode' x hx).cid]; rfl
      unfold pbOnly
      rw [if_pos this]
      exact hserve n hn
    have hfol : followNames (pbOnly s.fetch) root.cid start = .reached d := by
      have hpb : ∀ q, entryAt (builderAfter args.tree ops).root q = some .dir →
          NodeFor sha (entryAt (builderAfter args.tree ops).root) node q (node q) ∧ pbOnly s.fetch (node q).cid = some (node q).block :=
        fun q hq => ⟨(hnode q hq (Or.inl hw)).1, hserve' _ (hnode q hq (Or.inl hw)).2.1⟩
      obtain ⟨m1, m2⟩ := hpb [] (by rw [entryAt])
      have := (follow_tree (fun q hd _ => hpb q hd)
        (fun q k hq hk => kindCid_valid hops hsha (fun q hd _ => (hpb q hd).1.cid) q hq k hk)
        (fun q r => above_dir) start [] m1 m2).1 _ hstart (Or.inl rfl)
      rw [hr, this]
      simp only [kindCid, List.nil_append, hdn]
    have hq := getQuery_of_cat (C66_url q hl esc h37 h38 h43 _
      (ipfsText_utf8 root.cid (utf8Ok_joinSlash (fun x hx => (hseg x hx).2.2))) _
      (ipfsText_parse q.mb (by rw [hrv]; exact Cid.v0_valid _ (hsha _)) (by rw [hsplit]; exact fun x hx => (hseg x hx).1)) none (by simp))
    rw [hsplit] at hq
    exact hstream _ _ hq (locate_follow q.mb { s with fuel := fuel } n3 hcodec hfol (by
      show start.length + 2 ≤ fuel
      omega))

/-! #### What does not hold -/

def exTreeServed : Served := { exServed with fetch := exTreeFetch }

def exTreeUrl (x : UInt8) : Bytes := catUrl exEsc ("/ipfs/".toUTF8.toList ++ (exTreeCid x).toText) none

/-- A well-formed directory in buckets, with an empty directory before a bucket: the answer is a success, but the archive breaks off
after that directory, without the directory, the file and the symlink that follow. -/
theorem C95_clash : ∃ rs chunks es, Lays exTreeServed.fetch (exTreeCid 6) [(exTreeCid 6).toText] rs ∧
    (rs.flatMap Rep.tarEntries).length = 5 ∧
    getRequest exQueryEnv exTreeServed (exTreeUrl 6) = .stream chunks (.walk (.failed .panic)) ∧
    tarEntries chunks.flatten = some es ∧ es.map TarEntry.path = [(exTreeCid 6).toText, (exTreeCid 6).toText ++ "/d".toUTF8.toList] := by
  have key : (match getRequest exQueryEnv exTreeServed (exTreeUrl 6) with
      | .stream chunks (.walk (.failed .panic)) => (tarEntries chunks.flatten).map (List.map TarEntry.path)
      | _ => none) = some [(exTreeCid 6).toText, (exTreeCid 6).toText ++ "/d".toUTF8.toList] := by decide +kernel
  have hl : ∃ rs, Lays exTreeServed.fetch (exTreeCid 6) [(exTreeCid 6).toText] rs ∧ (rs.flatMap Rep.tarEntries).length = 5 := by
    refine ⟨_, .shard (flat := exTreeShard [exTreeLink 7 [48, 65, 100], exTreeLink 2 [48, 66]])
      (block := (exTreeShard [exTreeLink 7 [48, 65, 100], exTreeLink 2 [48, 66]]).write)
      (by decide +kernel) (by decide +kernel) ⟨rfl, rfl, rfl, rfl, rfl⟩
      (.entry (c := exTreeCid 7) (x := 100) (n := []) (by decide +kernel) rfl (by decide) (exTree_name _ (by decide))
        (.dir (flat := exTreeDir []) (block := (exTreeDir []).write)
          (by decide +kernel) (by decide +kernel) ⟨rfl, rfl, rfl, rfl, rfl, rfl⟩ .nil)
      (.bucket (c := exTreeCid 2) (flat := exTreeShard exTreeSlots) (block := (exTreeShard exTreeSlots).write)
        (by decide +kernel) rfl (by decide +kernel) (by decide +kernel) ⟨rfl, rfl, rfl, rfl, rfl⟩ (exTree_bucket _) .nil)), rfl⟩
  obtain ⟨rs, h1, h2⟩ := hl
  split at key
  · rename_i chunks hg
    obtain ⟨es, h3, h4⟩ := Option.map_eq_some_iff.mp key
    exact ⟨rs, chunks, es, h1, h2, hg, h3, h4⟩
  · cases key

/-! ### Examples -/

/-- The archive of the directory in buckets of C61. -/
example : archiveOf (getRequest exQueryEnv exTreeServed (exTreeUrl 1)) = some ((exTreeReps [(exTreeCid 1).toText]).flatMap Rep.tarEntries) ∧
    ((exTreeReps [(exTreeCid 1).toText]).flatMap Rep.tarEntries).length = 5 := by decide +kernel

/-- The archives of a directory in it and of the file in that, by their paths through the buckets. -/
example : archiveOf (getRequest exQueryEnv exTreeServed (catUrl exEsc (ipfsText (exTreeCid 1) "d".toUTF8.toList) none)) =
      some [⟨(exTreeCid 3).toText, .dir, 0o755, 0⟩, ⟨(exTreeCid 3).toText ++ "/f".toUTF8.toList, .file [104, 105], 0o644, 0⟩] ∧
    archiveOf (getRequest exQueryEnv exTreeServed (catUrl exEsc (ipfsText (exTreeCid 1) "d/f".toUTF8.toList) none)) =
      some [⟨(exTreeCid 5).toText, .file [104, 105], 0o644, 0⟩] := by decide +kernel

/-- Its hypotheses. -/
example : ∀ r ∈ (untilClash false (exTreeReps [(exTreeCid 1).toText])).1, r.TarFits := by
  have key : ∀ r ∈ exTreeReps [(exTreeCid 1).toText], TarPath (joinSlash r.path) := by decide +kernel
  have e : (untilClash false (exTreeReps [(exTreeCid 1).toText])).1 = exTreeReps [(exTreeCid 1).toText] := rfl
  rw [e]
  intro r hr
  have := key r hr
  simp only [exTreeReps, List.cons_append, List.nil_append, List.mem_cons, List.not_mem_nil, or_false, List.append_nil] at hr
  rcases hr with rfl | rfl | rfl | rfl | rfl | rfl
  · exact ⟨this, by decide⟩
  · trivial
  · exact ⟨this, by decide⟩
  · exact ⟨this, rfl, by decide, by decide⟩
  · exact ⟨this, by decide, by decide, by decide, by decide, by decide⟩
  · exact ⟨this, rfl, by decide, by decide⟩

/-- The form of C54 without a wrapping directory. -/
def exBareArgs : AddArgs := { exAddArgs with wrap := false }

def exBareAdded : List AddEvent := ((addRounds exDirHash (fun _ => true) exBareArgs exForm false 20).map Prod.fst).getD []

def exBareServed : Served := { exServed with fetch := fun c => (putsOf exBareAdded).lookup c }

/-- The cids in the lines for the directories and what `get` gives for them. -/
def exBareArchives : List (Bytes × Option (List TarEntry)) :=
  (linesOf exBareAdded).filterMap (fun l =>
    match l with
    | .added name c _ => some (name, (archiveOf (getRequest exQueryEnv exBareServed (catUrl exEsc ("/ipfs/".toUTF8.toList ++ c.toText) none))).map
        (List.map (fun e => { e with path := e.path.drop c.toText.length })))
    | _ => none)

example : (addRounds exDirHash (fun _ => true) exBareArgs exForm false 20).map (fun r => (r.2 matches .ok ())) = some true := by decide +kernel

/-- Everything that was added can be had on its own. -/
example : exBareArchives = [("x/a b".toUTF8.toList, some [⟨[], .file [1, 2, 3, 4, 5], 0o644, 0⟩]),
    ("x/d".toUTF8.toList, some [⟨[], .dir, 0o755, 0⟩]),
    ("x".toUTF8.toList, some [⟨[], .dir, 0o755, 0⟩, ⟨"/a b".toUTF8.toList, .file [1, 2, 3, 4, 5], 0o644, 0⟩,
      ⟨"/d".toUTF8.toList, .dir, 0o755, 0⟩])] := by decide +kernel

/-- The paths of that form. -/
theorem exForm_paths {p : FormPart} {path : Bytes} (h : SentTo exForm p path) :
    path = "x/a b".toUTF8.toList ∨ path = "x/d".toUTF8.toList := by
  obtain ⟨hp, raw, hr, hpath⟩ := h
  simp only [exForm, List.mem_cons, List.not_mem_nil, or_false] at hp
  rcases hp with rfl | rfl
  · have := Option.some.inj hr
    subst this
    have e : addPath "/x/a%20b".toUTF8.toList = .ok "x/a b".toUTF8.toList := by decide +kernel
    rw [e] at hpath
    cases hpath
    exact Or.inl rfl
  · have := Option.some.inj hr
    subst this
    have e : addPath "x/d".toUTF8.toList = .ok "x/d".toUTF8.toList := by decide +kernel
    rw [e] at hpath
    cases hpath
    exact Or.inr rfl

/-- The hypotheses of `C95_part` about names hold for it, and for the cid of the form of C67 those about paths. -/
example : NamesFit exForm ∧ MadeDir exForm ["x".toUTF8.toList] ∧ PathsFitBelow ["x".toUTF8.toList] exTop.toText exForm := by
  refine ⟨?_, ?_, ?_⟩
  · have key : ∀ path ∈ ["x/a b".toUTF8.toList, "x/d".toUTF8.toList], ∀ x ∈ splitSlash path, x ≠ [] ∧ x ≠ [46] := by decide +kernel
    intro p path h
    refine key path ?_
    rcases exForm_paths h with rfl | rfl <;> simp
  · exact ⟨_, "x/d".toUTF8.toList, ⟨List.mem_cons_of_mem _ List.mem_cons_self, "x/d".toUTF8.toList, rfl, by decide +kernel⟩,
      Or.inl ⟨⟨["d".toUTF8.toList], by decide +kernel⟩, by decide +kernel⟩⟩
  · have key : ∀ path ∈ ["x/a b".toUTF8.toList, "x/d".toUTF8.toList], ∀ n < 2,
        TarPath (joinSlash (exTop.toText :: ((splitSlash path).drop 1).take n)) := by decide +kernel
    intro q hq
    rcases hq with rfl | ⟨p, path, h, hpre⟩
    · exact key "x/d".toUTF8.toList (by simp) 0 (by decide)
    · have hm : path ∈ ["x/a b".toUTF8.toList, "x/d".toUTF8.toList] := by rcases exForm_paths h with rfl | rfl <;> simp
      have hl : ∀ path ∈ ["x/a b".toUTF8.toList, "x/d".toUTF8.toList], (splitSlash path).length = 2 := by decide +kernel
      have hle := hpre.length_le
      rw [hl path hm] at hle
      simp only [List.length_append, List.length_cons, List.length_nil] at hle
      have hpre' : q <+: (splitSlash path).drop 1 := by
        obtain ⟨t, ht⟩ := hpre
        exact ⟨t, by rw [← ht]; rfl⟩
      have := key path hm q.length (by omega)
      rw [← List.prefix_iff_eq_take.mp hpre'] at this
      exact this

end Verif.Props
