import Verif.Bitswap.Message

/-!
# C41, C42, C43: bitswap messages and cid prefixes
-/

namespace Verif.Props

open Verif Verif.Prost Verif.Bitswap
open Verif.Repo (Block)

/-! ### Specification -/

/-- The digest of the cid is the hash of the data, or the beginning of it. -/
def Authentic (H : Hashes) (c : Cid) (data : Bytes) : Prop := ∃ h, H c.mhCode = some h ∧ c.digest <+: h data

/-- A message that can come up: no cid twice, all cids well formed, blocks that match their cids, priorities
of 32 bits. -/
structure MsgOk (H : Hashes) (m : Message) : Prop where
  wantUniq : (m.want.map Prod.fst).Nodup
  wantValid : ∀ e ∈ m.want, e.1.Valid
  priority : ∀ e ∈ m.want, -(2 : Int) ^ 31 ≤ e.2 ∧ e.2 < 2 ^ 31
  cancelUniq : m.cancel.Nodup
  cancelValid : ∀ c ∈ m.cancel, c.Valid
  blocks : ∀ b ∈ m.blocks, b.cid.Valid ∧ Authentic H b.cid b.data

/-! ### Helpers -/

theorem writeVarint_last : ∀ (n : Nat), 0 < n → (writeVarint n).getLast? ≠ some 0 := by
  intro n
  induction n using Nat.strongRecOn with
  | ind n ih =>
    intro hn
    rw [writeVarint]
    split
    · rename_i h
      simp only [List.getLast?_singleton, ne_eq, Option.some.injEq]
      intro e
      have := congrArg UInt8.toNat e
      simp [UInt8.toNat_ofNat'] at this
      omega
    · rename_i h
      have hne := writeVarint_ne_nil (n / 128)
      obtain ⟨a, t, hat⟩ : ∃ a t, writeVarint (n / 128) = a :: t := by
        cases hw : writeVarint (n / 128) with
        | nil => exact absurd hw hne
        | cons a t => exact ⟨a, t, rfl⟩
      have := ih (n / 128) (by omega) (by omega)
      rw [hat] at this ⊢
      simpa [List.getLast?_cons_cons] using this

theorem readMinVarint_write (n : Nat) (r : Bytes) (h : n < 2 ^ 64) : readMinVarint (writeVarint n ++ r) = some (n, r) := by
  unfold readMinVarint
  rw [readVarint_write n r h]
  simp only [List.length_append, Nat.add_sub_cancel]
  rw [if_neg]
  rw [List.take_left]
  rintro ⟨h1, h2⟩
  rcases Nat.eq_zero_or_pos n with rfl | hp
  · simp [writeVarint] at h1
  · exact writeVarint_last n hp h2

theorem isPrefix_take {a b : Bytes} (h : a <+: b) : a = b.take a.length := by
  obtain ⟨t, rfl⟩ := h; simp

/-! ### C43 -/

/-- **C43**: the prefix of a cid survives its encoding, whatever follows it. -/
theorem C43_roundtrip (H : Hashes) (c : Cid) (rest : Bytes) (hk : knownCodec c.codec = true) (hm : (H c.mhCode).isSome)
    (hc : c.mhCode < 2 ^ 64) (hd : c.digest.length < 2 ^ 64) :
    Prefix.new H ((Prefix.ofCid c).toBytes ++ rest) = some (Prefix.ofCid c) := by
  have hv : versionNum c.version < 2 ^ 64 := by cases c.version <;> decide
  have hvo : versionOf (versionNum c.version) = some c.version := by cases c.version <;> rfl
  unfold Prefix.new Prefix.toBytes Prefix.ofCid
  simp only [List.append_assoc]
  rw [readMinVarint_write _ _ hv]
  simp only [hvo]
  rw [readMinVarint_write _ _ (knownCodec_lt hk)]
  simp only [hk, if_true]
  rw [readMinVarint_write _ _ hc]
  simp only [hm, if_true]
  rw [readMinVarint_write _ _ hd]

/-- What a prefix makes of data. -/
theorem toCid_some {H : Hashes} {p : Prefix} {data : Bytes} {c : Cid} (h : p.toCid H data = some c) :
    ∃ f, H p.mhType = some f ∧ c = ⟨p.version, p.codec, p.mhType, (f data).take p.mhLen⟩ := by
  unfold Prefix.toCid at h
  split at h
  · cases h
  · rename_i f hf
    refine ⟨f, hf, ?_⟩
    have : (if p.mhLen < (f data).length then (f data).take p.mhLen else f data) = (f data).take p.mhLen := by
      split
      · rfl
      · rw [List.take_of_length_le (by omega)]
    simp only [this, Cid.new] at h
    cases hv : p.version <;> rw [hv] at h <;> simp only at h
    · split at h
      · cases h; rfl
      · cases h
    · cases h; rfl

/-- **C43**: applied to data with the digest of the cid, or with one it is the beginning of, it rebuilds the
cid, and to any other data it does not. -/
theorem C43_rebuild (H : Hashes) (c : Cid) (data : Bytes) (hv : c.version = .v0 → c.codec = codecDagPb ∧ c.mhCode = mhSha256) :
    (Prefix.ofCid c).toCid H data = some c ↔ Authentic H c data := by
  constructor
  · intro h
    obtain ⟨f, hf, hc⟩ := toCid_some h
    refine ⟨f, hf, ?_⟩
    have : c.digest = (f data).take c.digest.length := congrArg Cid.digest hc
    rw [this]
    exact List.take_prefix _ _
  · rintro ⟨f, hf, hp⟩
    have ht := isPrefix_take hp
    have hle : c.digest.length ≤ (f data).length := hp.length_le
    unfold Prefix.toCid Prefix.ofCid
    simp only [hf]
    have : (if c.digest.length < (f data).length then (f data).take c.digest.length else f data) = c.digest := by
      split
      · exact ht.symm
      · rw [ht, List.take_of_length_le (by omega)]
    simp only [this, Cid.new]
    obtain ⟨version, codec, code, digest⟩ := c
    simp only at hv
    cases version <;> simp only
    rw [if_pos (hv rfl)]

/-! ### C42 -/

theorem addEntries_blocks (m : Message) (es : List PbEntry) (m' : Message) (h : addEntries m es = some m') :
    m'.blocks = m.blocks := by
  induction es generalizing m with
  | nil => simp only [addEntries, Option.some.injEq] at h; rw [h]
  | cons e es ih =>
    simp only [addEntries] at h
    split at h
    · cases h
    · rw [ih _ h]; split <;> rfl

theorem addPayload_blocks (H : Hashes) (bs : List PbBlock) : ∀ (m m' : Message), addPayload H m bs = some m' →
    m'.want = m.want ∧ m'.cancel = m.cancel ∧ m'.full = m.full ∧
    ∃ l, m'.blocks = m.blocks ++ l ∧ l.length = bs.length ∧ ∀ i (h1 : i < l.length) (h2 : i < bs.length),
      l[i].data = bs[i].data ∧ ∃ p f, Prefix.new H bs[i].prefix_ = some p ∧ H p.mhType = some f ∧
        l[i].cid = ⟨p.version, p.codec, p.mhType, (f bs[i].data).take p.mhLen⟩ := by
  induction bs with
  | nil =>
    intro m m' h
    simp only [addPayload, Option.some.injEq] at h
    subst h
    exact ⟨rfl, rfl, rfl, [], by simp, rfl, fun i h => by simp at h⟩
  | cons b bs ih =>
    intro m m' h
    simp only [addPayload] at h
    split at h
    · cases h
    · rename_i p hp
      split at h
      · cases h
      · rename_i c hc
        obtain ⟨h1, h2, h3, l, h4, h5, h6⟩ := ih _ _ h
        obtain ⟨f, hf, hcc⟩ := toCid_some hc
        refine ⟨h1, h2, h3, ⟨c, b.data⟩ :: l, by simp [h4, Message.addBlock], by simp [h5], ?_⟩
        intro i hi1 hi2
        cases i with
        | zero => exact ⟨rfl, p, f, hp, hf, hcc⟩
        | succ i => exact h6 i (by simpa using hi1) (by simpa using hi2)

/-- **C42**: whatever the bytes, the blocks of the message are those of the payload, with the data received and
cids made of the announced prefixes and the hash of that data, cut to the announced length. -/
theorem C42_blocks (H : Hashes) (bs : Bytes) (m : Message) (h : Message.ofBytes H bs = some m) :
    ∃ pb, PbMessage.decode bs = some pb ∧ m.blocks.length = pb.payload.length ∧
    ∀ i (h1 : i < m.blocks.length) (h2 : i < pb.payload.length),
      m.blocks[i].data = pb.payload[i].data ∧
      ∃ p f, Prefix.new H pb.payload[i].prefix_ = some p ∧ H p.mhType = some f ∧
        m.blocks[i].cid = ⟨p.version, p.codec, p.mhType, (f m.blocks[i].data).take p.mhLen⟩ := by
  unfold Message.ofBytes at h
  split at h
  · cases h
  · rename_i pb hpb
    split at h
    · cases h
    · rename_i m0 hm0
      obtain ⟨-, -, -, l, h4, h5, h6⟩ := addPayload_blocks H _ _ _ h
      rw [addEntries_blocks _ _ _ hm0, List.nil_append] at h4
      refine ⟨pb, hpb, by rw [h4, h5], ?_⟩
      obtain ⟨w, c, fl, bl⟩ := m
      simp only at h4 ⊢
      subst h4
      intro i h1 h2
      obtain ⟨a, p, f, b, c, d⟩ := h6 i h1 h2
      exact ⟨a, p, f, b, c, by rw [a]; exact d⟩

/-- **C42**: every block matches its cid. -/
theorem C42_authentic (H : Hashes) (bs : Bytes) (m : Message) (h : Message.ofBytes H bs = some m) (b : Block)
    (hb : b ∈ m.blocks) : Authentic H b.cid b.data := by
  obtain ⟨pb, -, hlen, hall⟩ := C42_blocks H bs m h
  obtain ⟨i, hi, rfl⟩ := List.mem_iff_getElem.mp hb
  obtain ⟨-, p, f, -, hf, hc⟩ := hall i hi (by rw [← hlen]; exact hi)
  refine ⟨f, ?_, ?_⟩
  · rw [hc]; exact hf
  · rw [hc]; exact List.take_prefix _ _

/-- **C42**: the same for what comes from the wire. -/
theorem C42_frame (H : Hashes) (bs : Bytes) (m : Message) (h : Message.unframe H bs = some m) (b : Block)
    (hb : b ∈ m.blocks) : Authentic H b.cid b.data := by
  unfold Message.unframe at h
  split at h
  · exact C42_authentic H _ m h b hb
  · split at h
    · cases h
    · split at h
      · cases h
      · split at h
        · cases h
        · exact C42_authentic H _ m h b hb

/-! ### C41 -/

theorem i32_roundtrip (p : Int) (h1 : -(2 : Int) ^ 31 ≤ p) (h2 : p < 2 ^ 31) : varToI32 (i32ToVar p) = p := by
  unfold varToI32 i32ToVar
  split <;> split <;> omega

theorem i32ToVar_lt (p : Int) (h1 : -(2 : Int) ^ 31 ≤ p) (h2 : p < 2 ^ 31) : i32ToVar p < 2 ^ 64 := by
  unfold i32ToVar
  split <;> omega

theorem i32ToVar_zero (p : Int) (h1 : -(2 : Int) ^ 31 ≤ p) (h : i32ToVar p = 0) : p = 0 := by
  unfold i32ToVar at h
  split at h <;> omega

theorem entry_roundtrip (e : PbEntry) (h1 : -(2 : Int) ^ 31 ≤ e.priority) (h2 : e.priority < 2 ^ 31)
    (hl : e.block.length < 2 ^ 64) : msg entryStep {} e.encode = some e := by
  obtain ⟨block, priority, cancel⟩ := e
  simp only at h1 h2 hl
  have hv : ∀ b : Bool, varField 3 (if b then 1 else 0) = varField 3 (if b then 1 else 0) ++ [] := by intro b; simp
  unfold PbEntry.encode
  simp only [List.append_assoc]
  rw [hv, msg_bytesField (s' := ⟨block, 0, false⟩) (by decide) (by decide) hl (by intro h; simp [h]) (by simp [entryStep]),
    msg_varField (s' := ⟨block, priority, false⟩) (by decide) (by decide) (i32ToVar_lt _ h1 h2)
      (by intro h; rw [i32ToVar_zero _ h1 h]) (by simp [entryStep, i32_roundtrip _ h1 h2]),
    msg_varField (s' := ⟨block, priority, cancel⟩) (by decide) (by decide) (by cases cancel <;> decide)
      (by cases cancel <;> simp) (by cases cancel <;> simp [entryStep]), msg_nil]

theorem block_roundtrip (b : PbBlock) (h1 : b.prefix_.length < 2 ^ 64) (h2 : b.data.length < 2 ^ 64) :
    msg blockStep {} b.encode = some b := by
  obtain ⟨p, d⟩ := b
  simp only at h1 h2
  unfold PbBlock.encode
  simp only
  rw [msg_bytesField (s' := ⟨p, []⟩) (by decide) (by decide) h1 (by intro h; simp [h]) (by simp [blockStep]),
    ← List.append_nil (bytesField 2 d),
    msg_bytesField (s' := ⟨p, d⟩) (by decide) (by decide) h2 (by intro h; simp [h]) (by simp [blockStep]), msg_nil]

theorem length_le_flatMap {α : Type} (f : α → Bytes) (l : List α) (a : α) (h : a ∈ l) :
    (f a).length ≤ (l.flatMap f).length := by
  induction l with
  | nil => cases h
  | cons x l ih =>
    rw [List.flatMap_cons, List.length_append]
    rcases List.mem_cons.mp h with rfl | h
    · omega
    · have := ih h; omega

theorem length_le_subField (n : Nat) (b : Bytes) : b.length ≤ (subField n b).length := by
  unfold subField lenField; simp; omega

theorem length_le_bytesField (n : Nat) (b : Bytes) : b.length ≤ (bytesField n b).length := by
  unfold bytesField
  split
  · rename_i h; simp [h]
  · unfold lenField; simp; omega

/-- The protobuf message survives. -/
theorem pb_roundtrip (m : PbMessage) (hp : ∀ e ∈ m.entries.getD [], -(2 : Int) ^ 31 ≤ e.priority ∧ e.priority < 2 ^ 31)
    (hl : m.encode.length < 2 ^ 64) : PbMessage.decode m.encode = some m := by
  obtain ⟨entries, payload⟩ := m
  have hpay : ∀ b ∈ payload, b.encode.length < 2 ^ 64 := by
    intro b hb
    have h1 := length_le_flatMap (fun b : PbBlock => subField 3 b.encode) payload b hb
    have h2 := length_le_subField 3 b.encode
    simp only [PbMessage.encode, List.length_append] at hl
    omega
  have hblk : ∀ b ∈ payload, msg blockStep {} b.encode = some b := by
    intro b hb
    have h := hpay b hb
    unfold PbBlock.encode at h
    rw [List.length_append] at h
    have h1 := length_le_bytesField 1 b.prefix_
    have h2 := length_le_bytesField 2 b.data
    exact block_roundtrip b (by omega) (by omega)
  have tail : ∀ s : PbMessage, msg messageStep s (payload.flatMap (fun b => subField 3 b.encode)) =
      some { s with payload := s.payload ++ payload } := by
    intro s
    rw [← List.append_nil (payload.flatMap _), msg_repeated PbBlock.encode
      (fun s b => { s with payload := s.payload ++ [b] }) payload (by decide) (by decide) hpay
      (fun b hb s => by simp [messageStep, hblk b hb]), msg_nil]
    clear hl hp hpay hblk
    congr 1
    induction payload generalizing s with
    | nil => simp
    | cons b l ih => rw [List.foldl_cons, ih]; simp
  unfold PbMessage.decode PbMessage.encode
  cases entries with
  | none =>
    simp only [List.nil_append]
    rw [tail]; rfl
  | some es =>
    simp only [Option.getD_some] at hp
    have hwl : (encodeWantlist es).length < 2 ^ 64 := by
      have := length_le_subField 1 (encodeWantlist es)
      simp only [PbMessage.encode, List.length_append] at hl
      omega
    have hent : ∀ e ∈ es, e.encode.length < 2 ^ 64 := by
      intro e he
      have h1 := length_le_flatMap (fun e : PbEntry => subField 1 e.encode) es e he
      have h2 := length_le_subField 1 e.encode
      unfold encodeWantlist at hwl
      omega
    have hone : ∀ e ∈ es, msg entryStep {} e.encode = some e := by
      intro e he
      have h := hent e he
      unfold PbEntry.encode at h
      simp only [List.length_append] at h
      have h1 := length_le_bytesField 1 e.block
      exact entry_roundtrip e (hp e he).1 (hp e he).2 (by omega)
    have hw : msg wantlistStep [] (encodeWantlist es) = some es := by
      unfold encodeWantlist
      rw [← List.append_nil (es.flatMap _), msg_repeated PbEntry.encode (fun s e => s ++ [e]) es (by decide) (by decide)
        hent (fun e he s => by simp [wantlistStep, hone e he]), msg_nil]
      congr 1
      have : ∀ (l s : List PbEntry), l.foldl (fun s e => s ++ [e]) s = s ++ l := by
        intro l
        induction l with
        | nil => intro s; simp
        | cons a l ih => intro s; rw [List.foldl_cons, ih]; simp
      rw [this]; rfl
    simp only
    rw [msg_subField (by decide) (by decide) hwl]
    simp only [messageStep, if_true, Option.getD_none, hw, Option.map_some, Option.bind_some]
    rw [tail]; rfl

theorem foldl_set_append (b : AMap Cid Int) : ∀ a : AMap Cid Int, AMap.Uniq (a ++ b) →
    b.foldl (fun m e => m.set e.1 e.2) a = a ++ b := by
  have hset : ∀ (a : AMap Cid Int) k v, k ∉ AMap.keys a → a.set k v = a ++ [(k, v)] := by
    intro a k v
    induction a with
    | nil => intro _; rfl
    | cons e a ih =>
      intro h
      obtain ⟨k', v'⟩ := e
      simp only [AMap.keys, List.map_cons, List.mem_cons, not_or] at h
      simp only [AMap.set]
      rw [if_neg (fun e => h.1 e.symm), ih h.2]; rfl
  induction b with
  | nil => intro a _; simp
  | cons e b ih =>
    intro a hu
    have hk : e.1 ∉ AMap.keys a := by
      simp only [AMap.Uniq, AMap.keys, List.map_append, List.map_cons, List.nodup_append] at hu
      intro hm
      exact hu.2.2 e.1 hm e.1 (by simp) rfl
    rw [List.foldl_cons, hset a _ _ hk, ih (a ++ [(e.1, e.2)]) (by simpa using hu)]
    simp

theorem addEntries_append (es fs : List PbEntry) : ∀ m, addEntries m (es ++ fs) = (addEntries m es).bind (fun m => addEntries m fs) := by
  induction es with
  | nil => intro m; rfl
  | cons e es ih =>
    intro m
    simp only [List.cons_append, addEntries]
    split
    · rfl
    · exact ih _

theorem addEntries_want (ws : AMap Cid Int) (h : ∀ e ∈ ws, e.1.Valid) : ∀ m : Message,
    addEntries m (ws.map (fun e => { block := e.1.toBytes, priority := e.2 })) =
      some { m with want := ws.foldl (fun m e => m.set e.1 e.2) m.want } := by
  induction ws with
  | nil => intro m; rfl
  | cons e ws ih =>
    intro m
    simp only [List.map_cons, addEntries]
    rw [Cid.ofBytes_toBytes _ (h e (by simp))]
    simp only [Bool.false_eq_true, if_false]
    rw [ih (fun x hx => h x (by simp [hx]))]
    rfl

theorem addEntries_cancel (cs : List Cid) (h : ∀ c ∈ cs, c.Valid) : ∀ m : Message, (m.cancel ++ cs).Nodup →
    addEntries m (cs.map (fun c => { block := c.toBytes, cancel := true })) = some { m with cancel := m.cancel ++ cs } := by
  induction cs with
  | nil => intro m _; simp [addEntries]
  | cons c cs ih =>
    intro m hn
    simp only [List.map_cons, addEntries]
    rw [Cid.ofBytes_toBytes _ (h c (by simp))]
    simp only [if_true]
    have hc : c ∉ m.cancel := by
      rw [List.nodup_append] at hn
      intro hm; exact hn.2.2 c hm c (by simp) rfl
    rw [ih (fun x hx => h x (by simp [hx])) _ (by simp only [Message.cancelBlock, if_neg hc]; simpa using hn)]
    simp [Message.cancelBlock, hc]

theorem addPayload_all (H : Hashes) (bl : List Block) (h : ∀ b ∈ bl, b.cid.Valid ∧ Authentic H b.cid b.data) : ∀ m : Message,
    addPayload H m (bl.map (fun b => { prefix_ := (Prefix.ofCid b.cid).toBytes, data := b.data })) =
      some { m with blocks := m.blocks ++ bl } := by
  induction bl with
  | nil => intro m; simp [addPayload]
  | cons b bl ih =>
    intro m
    obtain ⟨hv, hauth⟩ := h b (by simp)
    obtain ⟨f, hf, hp⟩ := hauth
    simp only [List.map_cons, addPayload]
    have h1 := C43_roundtrip H b.cid [] hv.2.1 (by rw [hf]; rfl) hv.2.2.1 hv.2.2.2
    rw [List.append_nil] at h1
    rw [h1]
    simp only
    rw [(C43_rebuild H b.cid b.data (fun h0 => ⟨(hv.1 h0).1, (hv.1 h0).2.1⟩)).mpr ⟨f, hf, hp⟩]
    simp only
    rw [ih (fun x hx => h x (by simp [hx]))]
    simp [Message.addBlock]

/-- **C41**: encoding a message and decoding it gives the same wants with priorities, cancels and blocks. The
flag `full` is not written. -/
theorem C41_roundtrip (H : Hashes) (m : Message) (h : MsgOk H m) (hl : m.toBytes.length < 2 ^ 64) :
    Message.ofBytes H m.toBytes = some { m with full := false } := by
  unfold Message.ofBytes
  unfold Message.toBytes at hl ⊢
  have hpb := pb_roundtrip m.toPb (by
      intro e he
      have he' : e ∈ m.entries := by
        simp only [Message.toPb] at he
        split at he
        · cases he
        · exact he
      unfold Message.entries at he'
      rcases List.mem_append.mp he' with h1 | h1
      · obtain ⟨x, hx, rfl⟩ := List.mem_map.mp h1
        exact h.priority x hx
      · obtain ⟨x, hx, rfl⟩ := List.mem_map.mp h1
        exact ⟨(by decide : -(2 : Int) ^ 31 ≤ 0), (by decide : (0 : Int) < 2 ^ 31)⟩) hl
  rw [hpb]
  simp only [Message.toPb]
  have hget : (if m.entries.isEmpty then (none : Option (List PbEntry)) else some m.entries).getD [] = m.entries := by
    split
    · rename_i he; simpa using (List.isEmpty_iff.mp he).symm
    · rfl
  rw [hget]
  have hent : addEntries {} m.entries = some { want := m.want, cancel := m.cancel } := by
    unfold Message.entries
    rw [addEntries_append, addEntries_want _ h.wantValid]
    simp only [Option.bind_some]
    rw [foldl_set_append m.want [] (by simpa [AMap.Uniq, AMap.keys] using h.wantUniq),
      addEntries_cancel _ h.cancelValid _ (by simpa using h.cancelUniq)]
    simp
  rw [hent]
  simp only
  rw [addPayload_all H m.blocks h.blocks]
  simp

/-- **C41**: over the wire, with the length in front; messages beyond the limit are never accepted. -/
theorem C41_frame (H : Hashes) (m : Message) (h : MsgOk H m) (hl : m.toBytes.length < 2 ^ 64) :
    Message.unframe H m.frame = if m.toBytes.length ≤ maxBufSize then some { m with full := false } else none := by
  unfold Message.unframe Message.frame
  rw [if_neg (by simp [writeVarint_ne_nil]), readMinVarint_write _ _ hl]
  simp only
  by_cases hle : m.toBytes.length ≤ maxBufSize
  · rw [if_neg (by omega), if_pos hle, ← List.append_nil m.toBytes, takeExact_append' (by simp)]
    exact C41_roundtrip H m h hl
  · rw [if_pos (by omega), if_neg hle]

/-! ### Examples -/

/-- A hash function for the examples. -/
def exHashes : Hashes := fun n => if n = mhSha256 then some (fun d => List.replicate 32 (UInt8.ofNat d.length)) else none

def exMsg : Message :=
  { want := [(Cid.v0 (List.replicate 32 7), -5), (⟨.v1, codecRaw, mhSha256, [1, 2]⟩, 1)],
    cancel := [Cid.v0 (List.replicate 32 8)],
    blocks := [⟨Cid.v0 (List.replicate 32 3), [1, 2, 3]⟩, ⟨⟨.v1, codecRaw, mhSha256, List.replicate 20 0⟩, []⟩] }

theorem exMsg_ok : MsgOk exHashes exMsg := by
  refine ⟨by decide +kernel, by decide +kernel, by decide +kernel, by decide +kernel, by decide +kernel, ?_⟩
  intro b hb
  simp only [exMsg, List.mem_cons, List.not_mem_nil, or_false] at hb
  rcases hb with rfl | rfl
  · exact ⟨by decide +kernel, _, rfl, ⟨[], by decide +kernel⟩⟩
  · exact ⟨by decide +kernel, _, rfl, ⟨List.replicate 12 0, by decide +kernel⟩⟩

example : Message.ofBytes exHashes exMsg.toBytes = some exMsg := C41_roundtrip exHashes exMsg exMsg_ok (by decide +kernel)

/-- A prefix may announce a length of zero; the cid made of it has an empty digest and fits any data. -/
theorem C42_empty_digest : Message.ofBytes exHashes (PbMessage.encode { payload := [⟨[1, 0x55, 0x12, 0], [1, 2, 3]⟩] }) =
    some { blocks := [⟨⟨.v1, codecRaw, mhSha256, []⟩, [1, 2, 3]⟩] } := by decide +kernel

end Verif.Props
