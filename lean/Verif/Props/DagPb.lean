import Verif.Ipld.Codec
import Verif.Props.DagCbor

/-!
# C23: dag-pb documents; C24: validation and storing of documents
-/

namespace Verif.Props

open Verif Verif.Ipld Verif.Prost

/-! ### Specification -/

/-- The dag-pb nodes that can exist in memory: names are UTF-8, sizes are `u64`, cids are real. -/
def PbOk (n : DagPbNode) : Prop :=
  n.data.length < 2 ^ 32 ∧ ∀ l ∈ n.links, l.cid.Valid ∧ l.cid.digest.length < 2 ^ 32 ∧
    l.name.length < 2 ^ 32 ∧ utf8Ok l.name = true ∧ l.size < 2 ^ 64

/-- The document is a map with this entry. -/
def HasField (d : Ipld) (k : Bytes) (v : Ipld) : Prop := ∃ m, d = .map m ∧ (k, v) ∈ m

/-- The document has everything a dag-pb link has, with the right types. -/
def LinkShape (d : Ipld) (l : DagPbLink) : Prop :=
  HasField d "Hash".toUTF8.toList (.link l.cid) ∧ HasField d "Name".toUTF8.toList (.str l.name) ∧
  ∃ i : Int, HasField d "Tsize".toUTF8.toList (.int i) ∧ (l.size : Int) = i % 2 ^ 64

/-- The document has everything a dag-pb node has, with the right types. -/
def NodeShape (d : Ipld) (n : DagPbNode) : Prop :=
  (∃ ds, HasField d "Links".toUTF8.toList (.list ds) ∧ ds.length = n.links.length ∧
    ∀ p ∈ ds.zip n.links, LinkShape p.1 p.2) ∧
  HasField d "Data".toUTF8.toList (.bytes n.data)

/-! ### Helpers -/

theorem key_hash : "Hash".toUTF8.toList = kHash := by decide +kernel
theorem key_name : "Name".toUTF8.toList = kName := by decide +kernel
theorem key_tsize : "Tsize".toUTF8.toList = kTsize := by decide +kernel
theorem key_links : "Links".toUTF8.toList = kLinks := by decide +kernel
theorem key_data : "Data".toUTF8.toList = kData := by decide +kernel

theorem get_iff {d : Ipld} (h : d.WF) (k : Bytes) (v : Ipld) : d.get k = some v ↔ HasField d k v := by
  cases d with
  | map m =>
    simp only [Ipld.WF] at h
    simp only [Ipld.get, HasField, Ipld.map.injEq, exists_eq_left']
    exact (AMap.mem_iff_get h.1.uniq k v).symm
  | _ => simp [Ipld.get, HasField]

theorem field_wf {d : Ipld} (h : d.WF) {k : Bytes} {v : Ipld} (hf : HasField d k v) : v.WF := by
  obtain ⟨m, rfl, hm⟩ := hf
  simp only [Ipld.WF, WFMap_iff] at h
  exact (h.2 _ hm).2

theorem linkHash_ok {d : Ipld} {c : Cid} : linkHash d = .ok c ↔ d.get kHash = some (.link c) := by
  unfold linkHash
  split <;> simp_all

theorem linkName_ok {d : Ipld} {s : Bytes} : linkName d = .ok s ↔ d.get kName = some (.str s) := by
  unfold linkName
  split <;> simp_all

theorem linkSize_ok {d : Ipld} {n : Nat} :
    linkSize d = .ok n ↔ ∃ i : Int, d.get kTsize = some (.int i) ∧ (n : Int) = i % 2 ^ 64 := by
  have hi : ∀ i : Int, ((toU64 i : Nat) : Int) = i % 2 ^ 64 := by intro i; unfold toU64; omega
  unfold linkSize
  split
  · simp_all
  · rename_i i h
    rw [h]
    constructor
    · intro h1
      simp only [Except.ok.injEq] at h1
      exact ⟨i, rfl, by rw [← h1, hi]⟩
    · rintro ⟨j, h1, h2⟩
      simp only [Option.some.injEq, Ipld.int.injEq] at h1
      subst h1
      have := hi i
      simp only [Except.ok.injEq]
      omega
  · rename_i v h1 h2
    constructor
    · intro h; cases h
    · rintro ⟨j, h3, _⟩
      rw [h2] at h3
      exact absurd (Option.some.inj h3) (h1 j)

theorem bind_ok {ε α β : Type} {x : Except ε α} {f : α → Except ε β} {b : β} :
    (x >>= f) = .ok b ↔ ∃ a, x = .ok a ∧ f a = .ok b := by
  cases x with
  | error e => simp [bind, Except.bind]
  | ok a => simp [bind, Except.bind]

theorem linkOf_ok {d : Ipld} (h : d.WF) (l : DagPbLink) : DagPbLink.ofIpld d = .ok l ↔ LinkShape d l := by
  unfold DagPbLink.ofIpld LinkShape
  rw [key_hash, key_name, key_tsize]
  simp only [bind_ok, linkHash_ok, linkName_ok, linkSize_ok, ← get_iff h]
  constructor
  · rintro ⟨c, h1, s, h2, n, ⟨i, h3, h4⟩, h5⟩
    have h5' : Except.ok (⟨c, s, n⟩ : DagPbLink) = (.ok l : Except IpldErr DagPbLink) := h5
    simp only [Except.ok.injEq] at h5'
    subst h5'
    exact ⟨h1, h2, i, h3, h4⟩
  · rintro ⟨h1, h2, i, h3, h4⟩
    exact ⟨_, h1, _, h2, _, ⟨i, h3, h4⟩, rfl⟩

theorem linksOf_ok {ds : List Ipld} (h : ∀ d ∈ ds, d.WF) (ls : List DagPbLink) :
    linksOf ds = .ok ls ↔ ds.length = ls.length ∧ ∀ p ∈ ds.zip ls, LinkShape p.1 p.2 := by
  induction ds generalizing ls with
  | nil => cases ls <;> simp [linksOf]
  | cons d ds ih =>
    simp only [linksOf, bind_ok, linkOf_ok (h d (by simp)),
      ih (fun x hx => h x (by simp [hx]))]
    constructor
    · rintro ⟨l, h1, ls', ⟨h2, h3⟩, h4⟩
      have h4' : Except.ok (l :: ls') = (.ok ls : Except IpldErr (List DagPbLink)) := h4
      simp only [Except.ok.injEq] at h4'
      subst h4'
      refine ⟨by simp [h2], ?_⟩
      intro p hp
      simp only [List.zip_cons_cons, List.mem_cons] at hp
      rcases hp with rfl | hp
      · exact h1
      · exact h3 p hp
    · rintro ⟨h1, h2⟩
      cases ls with
      | nil => simp at h1
      | cons l ls' =>
        exact ⟨l, h2 (d, l) (by simp), ls', ⟨by simpa using h1, fun p hp => h2 p (by simp [hp])⟩, rfl⟩

theorem writeVarint_le (n : Nat) (h : n < 2 ^ 64) : (writeVarint n).length ≤ 10 := by
  rw [writeVarint_length n h]
  unfold sizeofVarint
  repeat' split
  all_goals omega

theorem cid_toBytes_le {c : Cid} (hv : c.Valid) : c.toBytes.length ≤ c.digest.length + 40 := by
  obtain ⟨h0, hk, hc, hd⟩ := hv
  have h1 := writeVarint_le c.mhCode hc
  have h2 := writeVarint_le c.digest.length hd
  have h3 := writeVarint_le c.codec (knownCodec_lt hk)
  have h4 := writeVarint_le 1 (by decide)
  unfold Cid.toBytes mhBytes
  split <;> simp only [List.length_append] <;> omega

theorem bytesField_le (n : Nat) (b : Bytes) (hn : n < 2 ^ 29) (hb : b.length < 2 ^ 64) :
    (bytesField n b).length ≤ b.length + 20 := by
  unfold bytesField lenField
  have h1 := writeVarint_le (n * 8 + 2) (by omega)
  have h2 := writeVarint_le b.length hb
  split
  · simp
  · simp only [List.length_append]; omega

theorem varField_le (n v : Nat) (hn : n < 2 ^ 29) (hv : v < 2 ^ 64) : (varField n v).length ≤ 20 := by
  unfold varField varintField
  have h1 := writeVarint_le (n * 8) (by omega)
  have h2 := writeVarint_le v hv
  split
  · simp
  · simp only [List.length_append]; omega

theorem linkMsg_round {l : PbLinkMsg} (hh : l.hash.length < 2 ^ 64) (hn : l.name.length < 2 ^ 64)
    (hu : utf8Ok l.name = true) (ht : l.tsize < 2 ^ 64) : msg PbLinkMsg.step {} l.encode = some l := by
  obtain ⟨hash, name, tsize⟩ := l
  simp only at hh hn hu ht
  unfold PbLinkMsg.encode
  rw [msg_bytesField (s' := ⟨hash, [], 0⟩) (by decide) (by decide) hh
      (by rintro rfl; rfl) rfl,
    msg_bytesField (s' := ⟨hash, name, 0⟩) (by decide) (by decide) hn
      (by rintro rfl; rfl) (by simp [PbLinkMsg.step, hu])]
  have := msg_varField (step := PbLinkMsg.step) (s := ⟨hash, name, 0⟩) (s' := ⟨hash, name, tsize⟩) (n := 3)
    (v := tsize) (r := []) (by decide) (by decide) ht (by rintro rfl; rfl) rfl
  rw [List.append_nil] at this
  rw [this, msg_nil]

theorem foldl_links (ls : List PbLinkMsg) (s : PbNodeMsg) :
    ls.foldl (fun n l => { n with links := n.links ++ [l] }) s = ⟨s.links ++ ls, s.data⟩ := by
  induction ls generalizing s with
  | nil => simp
  | cons l ls ih => rw [List.foldl_cons, ih]; simp

theorem nodeMsg_round {n : PbNodeMsg} (hd : n.data.length < 2 ^ 64)
    (hl : ∀ l ∈ n.links, l.encode.length < 2 ^ 64 ∧ l.hash.length < 2 ^ 64 ∧ l.name.length < 2 ^ 64 ∧
      utf8Ok l.name = true ∧ l.tsize < 2 ^ 64) :
    PbNodeMsg.decode n.encode = some n := by
  obtain ⟨links, data⟩ := n
  simp only at hd hl
  unfold PbNodeMsg.decode PbNodeMsg.encode
  rw [msg_bytesField (s' := ⟨[], data⟩) (by decide) (by decide) hd (by rintro rfl; rfl) rfl]
  have := msg_repeated (step := PbNodeMsg.step) (n := 2) (s := ⟨[], data⟩) (r := []) PbLinkMsg.encode
    (fun n l => { n with links := n.links ++ [l] }) links (by decide) (by decide)
    (fun l h => (hl l h).1)
    (fun l h s => by
      simp only [PbNodeMsg.step, linkMsg_round (hl l h).2.1 (hl l h).2.2.1 (hl l h).2.2.2.1 (hl l h).2.2.2.2]
      rfl)
  rw [List.append_nil] at this
  simp only at this ⊢
  rw [this, msg_nil, foldl_links]
  simp

theorem mapM_ofMsg (ls : List DagPbLink) (h : ∀ l ∈ ls, l.cid.Valid) :
    (ls.map (fun l => (⟨l.cid.toBytes, l.name, l.size⟩ : PbLinkMsg))).mapM DagPbLink.ofMsg = some ls := by
  induction ls with
  | nil => rfl
  | cons l ls ih =>
    simp only [List.map_cons, List.mapM_cons, DagPbLink.ofMsg, Cid.ofBytes_toBytes _ (h l (by simp)),
      Option.map_some]
    have := ih (fun x hx => h x (by simp [hx]))
    simp only [this]
    rfl

/-! ### C23 -/

/-- **C23**: a dag-pb node written to bytes and read back is unchanged. -/
theorem C23_bytes (n : DagPbNode) (h : PbOk n) : DagPbNode.ofBytes n.toBytes = some n := by
  obtain ⟨hd, hl⟩ := h
  unfold DagPbNode.ofBytes DagPbNode.toBytes
  rw [nodeMsg_round]
  · simp only [Option.bind_some]
    rw [mapM_ofMsg _ (fun l h => (hl l h).1)]
    rfl
  · simp only; omega
  · intro m hm
    obtain ⟨l, hlm, rfl⟩ := List.mem_map.mp hm
    obtain ⟨h1, h2, h3, h4, h5⟩ := hl l hlm
    have hc := cid_toBytes_le h1
    refine ⟨?_, by simp only; omega, by simp only; omega, h4, h5⟩
    unfold PbLinkMsg.encode
    simp only [List.length_append]
    have a1 := bytesField_le 1 l.cid.toBytes (by decide) (by omega)
    have a2 := bytesField_le 2 l.name (by decide) (by omega)
    have a3 := varField_le 3 l.size (by decide) h5
    omega

theorem toIpld_link (l : DagPbLink) : l.toIpld.get kHash = some (.link l.cid) ∧
    l.toIpld.get kName = some (.str l.name) ∧ l.toIpld.get kTsize = some (.int l.size) := by
  simp only [DagPbLink.toIpld, Ipld.get, BMap.get_insert]
  refine ⟨?_, ?_, ?_⟩
  · rw [if_neg (by decide), if_neg (by decide), if_pos trivial]
  · rw [if_neg (by decide), if_pos trivial]
  · rw [if_pos trivial]

theorem ofIpld_toIpld_link (l : DagPbLink) (h : l.size < 2 ^ 64) : DagPbLink.ofIpld l.toIpld = .ok l := by
  obtain ⟨h1, h2, h3⟩ := toIpld_link l
  have e1 : linkHash l.toIpld = .ok l.cid := linkHash_ok.mpr h1
  have e2 : linkName l.toIpld = .ok l.name := linkName_ok.mpr h2
  have e3 : linkSize l.toIpld = .ok l.size := linkSize_ok.mpr ⟨_, h3, by omega⟩
  simp only [DagPbLink.ofIpld, e1, e2, e3]
  rfl

/-- **C23**: a dag-pb node converted to a document and back is unchanged. -/
theorem C23_ipld (n : DagPbNode) (h : ∀ l ∈ n.links, l.size < 2 ^ 64) :
    DagPbNode.ofIpld n.toIpld = .ok n := by
  have hl : ∀ ls : List DagPbLink, (∀ l ∈ ls, l.size < 2 ^ 64) → linksOf (ls.map DagPbLink.toIpld) = .ok ls := by
    intro ls
    induction ls with
    | nil => intro _; rfl
    | cons l ls ih =>
      intro h
      simp only [List.map_cons, linksOf, ofIpld_toIpld_link l (h l (by simp)),
        ih (fun x hx => h x (by simp [hx]))]
      rfl
  have e1 : nodeLinks n.toIpld = .ok n.links := by
    unfold nodeLinks
    simp only [DagPbNode.toIpld, Ipld.get, BMap.get_insert]
    rw [if_neg (by decide), if_pos trivial]
    exact hl _ h
  have e2 : nodeData n.toIpld = .ok n.data := by
    unfold nodeData
    simp only [DagPbNode.toIpld, Ipld.get, BMap.get_insert]
    rw [if_pos trivial]
  simp only [DagPbNode.ofIpld, e1, e2]
  rfl

/-- **C23**: a document is accepted exactly if it has all the fields of a dag-pb node with the right
types, and rejected with an error otherwise. -/
theorem C23_accepts (d : Ipld) (h : d.WF) (n : DagPbNode) :
    DagPbNode.ofIpld d = .ok n ↔ NodeShape d n := by
  have e1 : ∀ ls, nodeLinks d = .ok ls ↔ ∃ ds, d.get kLinks = some (.list ds) ∧ linksOf ds = .ok ls := by
    intro ls
    unfold nodeLinks
    split <;> simp_all
  have e2 : ∀ b, nodeData d = .ok b ↔ d.get kData = some (.bytes b) := by
    intro b
    unfold nodeData
    split <;> simp_all
  unfold DagPbNode.ofIpld NodeShape
  rw [key_links, key_data]
  simp only [bind_ok, e1, e2]
  have hds : ∀ ds, d.get kLinks = some (.list ds) → ∀ x ∈ ds, x.WF := by
    intro ds hg
    have := field_wf h ((get_iff h _ _).mp hg)
    simp only [Ipld.WF, WFList_iff] at this
    exact this
  constructor
  · rintro ⟨ls, ⟨ds, h1, h2⟩, b, h3, h4⟩
    have h4' : Except.ok (⟨ls, b⟩ : DagPbNode) = (.ok n : Except IpldErr DagPbNode) := h4
    simp only [Except.ok.injEq] at h4'
    subst h4'
    have := (linksOf_ok (hds ds h1) ls).mp h2
    exact ⟨⟨ds, (get_iff h _ _).mp h1, this⟩, (get_iff h _ _).mp h3⟩
  · rintro ⟨⟨ds, h1, h2⟩, h3⟩
    have h1' := (get_iff h _ _).mpr h1
    exact ⟨n.links, ⟨ds, h1', (linksOf_ok (hds ds h1') _).mpr h2⟩, n.data, (get_iff h _ _).mpr h3, rfl⟩

/-! ### C24 -/

/-- **C24**: a block is valid exactly if it is not above 1 MiB and hashes to the digest of its cid. -/
theorem C24_validate (e : Env) (c : Cid) (data : Bytes) (hc : c.mhCode < 2 ^ 64)
    (hd : c.digest.length < 2 ^ 64) (hh : (e.hash c.mhCode data).length < 2 ^ 64) :
    validate e c data = .ok () ↔ data.length ≤ 1024 * 1024 ∧ e.hash c.mhCode data = c.digest := by
  have hinj : mhBytes c.mhCode (e.hash c.mhCode data) = mhBytes c.mhCode c.digest ↔
      e.hash c.mhCode data = c.digest := by
    constructor
    · intro h
      have h1 := mhOfBytes_mhBytes hc hh
      rw [h, mhOfBytes_mhBytes hc hd] at h1
      simpa using h1.symm
    · intro h; rw [h]
  have hm : maxBlockSize = 1024 * 1024 := rfl
  simp only [validate]
  by_cases h : data.length > maxBlockSize
  · rw [if_pos h]
    constructor
    · intro h; cases h
    · intro h; omega
  · rw [if_neg h]
    by_cases h1 : e.hash c.mhCode data = c.digest
    · rw [if_neg (by rw [Ne, Classical.not_not]; exact hinj.mpr h1)]
      simp only [h1, and_true, true_iff]
      omega
    · rw [if_pos (by rw [Ne, hinj]; exact h1)]
      constructor
      · intro h; cases h
      · intro h; exact absurd h.2 h1

/-- The documents the codec keeps: for dag-cbor those within the limits of its reader, for dag-pb those
that come from a dag-pb node, for raw the byte strings. -/
def Kept (e : Env) (size : Nat) (codec : Nat) (d : Ipld) : Prop :=
  (codec = codecDagCbor ∧ d.WF ∧ CborFits size d) ∨
  (codec = codecDagPb ∧ ∃ n, PbOk n ∧ d = n.toIpld) ∨
  (codec = codecRaw ∧ ∃ b, d = .bytes b) ∨
  (codec = codecDagJson ∧ ∃ bs, e.jsonEnc d = some bs ∧ e.jsonDec bs = some d)

/-- **C24**: such a document is stored, its block decodes to it, and the block is valid if it is not
above 1 MiB. -/
theorem C24_put_then_decode_partial (e : Env) (size codec : Nat) (d : Ipld) (h : Kept e size codec d)
    (hh : ∀ b, (e.hash mhSha256 b).length = 32) :
    ∃ c bytes, dagPut e d codec = .ok (c, bytes) ∧ decodeIpld e size c bytes = .ok d ∧ c.Valid ∧
      (validate e c bytes = .ok () ↔ bytes.length ≤ 1024 * 1024) := by
  have fin : ∀ v, (v = Version.v0 → codec = codecDagPb) → knownCodec codec = true → ∀ bytes,
      (⟨v, codec, mhSha256, e.hash mhSha256 bytes⟩ : Cid).Valid ∧
      (validate e ⟨v, codec, mhSha256, e.hash mhSha256 bytes⟩ bytes = .ok () ↔ bytes.length ≤ 1024 * 1024) := by
    intro v hv hk bytes
    refine ⟨⟨fun h => ⟨hv h, rfl, hh _⟩, hk, by simp [mhSha256], by simp only [hh]; decide⟩, ?_⟩
    rw [C24_validate e _ _ (by simp [mhSha256]) (by simp only [hh]; decide) (by simp only [hh]; decide)]
    simp
  rcases h with ⟨rfl, hw, hf⟩ | ⟨rfl, n, hn, rfl⟩ | ⟨rfl, b, rfl⟩ | ⟨rfl, bs, h1, h2⟩
  · obtain ⟨bs, h1, h2⟩ := C21_round_trip_partial size d hw hf
    refine ⟨⟨.v1, codecDagCbor, mhSha256, e.hash mhSha256 bs⟩, bs, ?_, ?_,
      fin .v1 (by intro h; cases h) (by decide) bs⟩
    · simp [dagPut, encodeIpld, h1, codecDagCbor, codecDagPb, Cid.new]
    · simp [decodeIpld, h2]
  · have h1 := C23_ipld n (fun l hl => (hn.2 l hl).2.2.2.2)
    have h2 := C23_bytes n hn
    refine ⟨⟨.v0, codecDagPb, mhSha256, e.hash mhSha256 n.toBytes⟩, n.toBytes, ?_, ?_,
      fin .v0 (fun _ => rfl) (by decide) n.toBytes⟩
    · simp [dagPut, encodeIpld, h1, codecDagCbor, codecDagPb, Cid.new]
    · simp [decodeIpld, h2, codecDagCbor, codecDagPb]
  · refine ⟨⟨.v1, codecRaw, mhSha256, e.hash mhSha256 b⟩, b, ?_, ?_,
      fin .v1 (by intro h; cases h) (by decide) b⟩
    · simp [dagPut, encodeIpld, codecDagCbor, codecDagPb, codecDagJson, codecRaw, Cid.new]
    · simp [decodeIpld, codecDagCbor, codecDagPb, codecDagJson, codecRaw]
  · refine ⟨⟨.v1, codecDagJson, mhSha256, e.hash mhSha256 bs⟩, bs, ?_, ?_,
      fin .v1 (by intro h; cases h) (by decide) bs⟩
    · simp [dagPut, encodeIpld, h1, codecDagCbor, codecDagPb, codecDagJson, Cid.new]
    · simp [decodeIpld, h2, codecDagCbor, codecDagPb, codecDagJson]

/-- An environment for the witnesses. -/
def envEx : Env := ⟨fun _ b => (b ++ List.replicate 32 0).take 32, fun _ => none, fun _ => none⟩

/-- **C24 fails for dag-pb documents in general**: fields dag-pb does not know are dropped, and a
negative `Tsize` becomes another number; the stored document is not the given one. -/
theorem C24_put_changes :
    (let d : Ipld := .map [("Data".toUTF8.toList, .bytes [1]), ("Links".toUTF8.toList, .list []),
      ("extra".toUTF8.toList, .null)]
     match dagPut envEx d codecDagPb with
     | .ok (c, bytes) => decodeIpld envEx 32 c bytes =
        .ok (.map [("Data".toUTF8.toList, .bytes [1]), ("Links".toUTF8.toList, .list [])])
     | .error _ => False) ∧
    (DagPbLink.ofIpld (.map [("Hash".toUTF8.toList, .link (Cid.v0 [])), ("Name".toUTF8.toList, .str []),
      ("Tsize".toUTF8.toList, .int (-1))])).map (·.size) = .ok 18446744073709551615 := by
  constructor
  · have h : dagPut envEx (.map [("Data".toUTF8.toList, .bytes [1]), ("Links".toUTF8.toList, .list []),
        ("extra".toUTF8.toList, .null)]) codecDagPb =
        .ok (Cid.v0 (envEx.hash 0 [0x0A, 1, 1]), [0x0A, 1, 1]) := by decide +kernel
    simp only [h]
    decide +kernel
  · decide +kernel

/-! ### Examples -/

/-- A node with two links; the data come first in the bytes. -/
def exPb : DagPbNode := ⟨[⟨Cid.v0 (List.replicate 32 1), "a".toUTF8.toList, 5⟩,
  ⟨⟨.v1, codecRaw, mhSha256, List.replicate 32 2⟩, [], 300⟩], [7, 8]⟩

example : PbOk exPb ∧ exPb.toBytes.take 6 = [0x0A, 2, 7, 8, 0x12, 41] := by
  constructor
  · unfold PbOk; decide +kernel
  · decide +kernel

/-- Missing and mistyped fields. -/
example : DagPbNode.ofIpld (.map [(kData, .bytes [])]) = .error .keyNotFound ∧
    DagPbNode.ofIpld (.map [(kData, .bytes []), (kLinks, .null)]) = .error .notList ∧
    DagPbNode.ofIpld (.map [(kData, .str []), (kLinks, .list [])]) = .error .notBytes ∧
    DagPbNode.ofIpld .null = .error .keyNotFound := by decide +kernel

/-- Both answers of `validate`. -/
example : validate envEx ⟨.v1, codecRaw, mhSha256, 1 :: List.replicate 31 0⟩ [1] = .ok () ∧
    validate envEx ⟨.v1, codecRaw, mhSha256, List.replicate 32 0⟩ [1] =
      .error (.invalidHash mhSha256 (1 :: List.replicate 31 0)) := by decide +kernel

end Verif.Props
