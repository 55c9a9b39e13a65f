import Verif.Unixfs.Pb

/-! # Round-trip lemmas for the UnixFS messages -/

namespace Verif.Unixfs

open Verif

/-- Tokens of an optional field. -/
def optTok {α : Type} (x : Option α) (g : α → Token) : List Token :=
  match x with
  | none => []
  | some a => [g a]

theorem tokenize_optField {α : Type} {known : Nat → Bool} {x : Option α} {f : α → Bytes}
    {g : α → Token} (h : ∀ a, x = some a → Tok known (f a) (g a)) (r : Bytes) :
    tokenize known (optField x f ++ r) = (tokenize known r).map (optTok x g ++ ·) := by
  cases x with
  | none => simp [optField, optTok]
  | some a => simp only [optField, optTok, h a rfl r]; rfl

theorem tokenize_mapField {α : Type} {known : Nat → Bool} {xs : List α} {f : α → Bytes}
    {g : α → Token} (h : ∀ a ∈ xs, Tok known (f a) (g a)) (r : Bytes) :
    tokenize known ((xs.map f).flatten ++ r) = (tokenize known r).map (xs.map g ++ ·) := by
  induction xs with
  | nil => simp
  | cons a as ih =>
    simp only [List.map_cons, List.flatten_cons, List.append_assoc]
    rw [h a (by simp), ih (fun b hb => h b (by simp [hb]))]
    cases tokenize known r <;> simp

theorem tok_lenField {known : Nat → Bool} {tag : Nat} (ht : tag < 2 ^ 32) (hw : tag % 8 = 2)
    {b : Bytes} (hb : b.length < 2 ^ 32) : Tok known (lenField tag b) (tag, .len b) :=
  fun _ => tokenize_lenField ht hw hb

theorem tok_varintField {known : Nat → Bool} {tag : Nat} (ht : tag < 2 ^ 32) (hw : tag % 8 = 0)
    {v : Nat} (hv : v < 2 ^ 64) : Tok known (varintField tag v) (tag, .varint v) :=
  fun _ => tokenize_varintField ht hw hv

theorem tok_fixed32Field {known : Nat → Bool} {tag : Nat} (ht : tag < 2 ^ 32) (hw : tag % 8 = 5)
    {b : Bytes} (hb : b.length = 4) : Tok known (fixed32Field tag b) (tag, .fixed32 b) :=
  fun _ => tokenize_fixed32Field ht hw hb

/-! ## Well-formed messages: exactly what the Rust field types and the 32-bit length
prefixes of `quick_protobuf` can carry -/

/-- Predicate on an optional value. -/
def OptAll {α : Type} (p : α → Prop) (x : Option α) : Prop := ∀ a, x = some a → p a

structure PBLink.WF (l : PBLink) : Prop where
  hash : OptAll (fun b => b.length < 2 ^ 32) l.hash
  name : OptAll (fun b => b.length < 2 ^ 32 ∧ utf8Ok b = true) l.name
  tsize : OptAll (fun n => n < 2 ^ 64) l.tsize
  size : l.getSize < 2 ^ 32

structure UnixTime.WF (t : UnixTime) : Prop where
  secondsLo : -2 ^ 63 ≤ t.seconds
  secondsHi : t.seconds < 2 ^ 63
  nanos : OptAll (fun n => n < 2 ^ 32) t.nanos

structure UnixFs.WF (d : UnixFs) : Prop where
  data : OptAll (fun b => b.length < 2 ^ 32) d.data
  filesize : OptAll (fun n => n < 2 ^ 64) d.filesize
  blocksizes : ∀ n ∈ d.blocksizes, n < 2 ^ 64
  hashType : OptAll (fun n => n < 2 ^ 64) d.hashType
  fanout : OptAll (fun n => n < 2 ^ 64) d.fanout
  mode : OptAll (fun n => n < 2 ^ 32) d.mode
  mtime : OptAll UnixTime.WF d.mtime

structure Flat.WF (f : Flat) : Prop where
  links : ∀ l ∈ f.links, l.WF
  data : f.data.WF
  size : f.data.getSize < 2 ^ 32

structure PBNode.WF (n : PBNode) : Prop where
  links : ∀ l ∈ n.links, l.WF
  data : OptAll (fun b => b.length < 2 ^ 32) n.data

/-! ## Sizes -/

theorem lenField_length {tag : Nat} (ht : tag < 128) {b : Bytes} (hb : b.length < 2 ^ 64) :
    (lenField tag b).length = 1 + sizeofLen b.length := by
  have h1 : (writeVarint tag).length = 1 := by rw [writeVarint]; simp [ht]
  simp [lenField, h1, writeVarint_length _ hb, sizeofLen]

theorem varintField_length {tag : Nat} (ht : tag < 128) {v : Nat} (hv : v < 2 ^ 64) :
    (varintField tag v).length = 1 + sizeofVarint v := by
  have h1 : (writeVarint tag).length = 1 := by rw [writeVarint]; simp [ht]
  simp [varintField, h1, writeVarint_length _ hv]

theorem optField_length {α : Type} {x : Option α} {f : α → Bytes} {g : α → Nat}
    (h : ∀ a, x = some a → (f a).length = g a) : (optField x f).length = optSize x g := by
  cases x with
  | none => rfl
  | some a => exact h a rfl

theorem mapField_length {α : Type} {xs : List α} {f : α → Bytes} {g : α → Nat}
    (h : ∀ a ∈ xs, (f a).length = g a) : ((xs.map f).flatten).length = (xs.map g).sum := by
  induction xs with
  | nil => rfl
  | cons a as ih =>
    simp only [List.map_cons, List.flatten_cons, List.length_append, List.sum_cons]
    rw [h a (by simp), ih (fun b hb => h b (by simp [hb]))]

theorem PBLink.write_length (l : PBLink) (h : l.WF) : l.write.length = l.getSize := by
  simp only [PBLink.write, PBLink.getSize, List.length_append]
  rw [optField_length (g := fun m : Bytes => 1 + sizeofLen m.length)
        (fun a ha => lenField_length (by omega) (by have := h.hash a ha; omega)),
      optField_length (g := fun m : Bytes => 1 + sizeofLen m.length)
        (fun a ha => lenField_length (by omega) (by have := (h.name a ha).1; omega)),
      optField_length (g := fun m => 1 + sizeofVarint m)
        (fun a ha => varintField_length (by omega) (h.tsize a ha))]
  omega

theorem i64ToU64_lt (i : Int) : i64ToU64 i < 2 ^ 64 := by
  unfold i64ToU64; omega

theorem UnixTime.write_length (t : UnixTime) : t.write.length = t.getSize := by
  simp only [UnixTime.write, UnixTime.getSize, List.length_append]
  rw [varintField_length (by omega) (i64ToU64_lt _),
      optField_length (g := fun _ => 1 + 4)
        (fun a _ => by
          have h1 : (writeVarint 21).length = 1 := by rw [writeVarint]; simp
          simp [fixed32Field, h1, u32le])]

theorem UnixTime.getSize_lt (t : UnixTime) : t.getSize < 2 ^ 32 := by
  have h : ∀ n, sizeofVarint n ≤ 10 := by
    intro n; unfold sizeofVarint; repeat' split
    all_goals omega
  have := h (i64ToU64 t.seconds)
  unfold UnixTime.getSize optSize
  cases t.nanos <;> simp only [] <;> omega

theorem FsType.toWire_lt (t : FsType) : t.toWire < 6 := by cases t <;> decide

theorem UnixFs.write_length (d : UnixFs) (h : d.WF) : d.write.length = d.getSize := by
  have ht := FsType.toWire_lt d.type
  simp only [UnixFs.write, UnixFs.getSize, List.length_append]
  rw [varintField_length (by omega) (by omega),
      optField_length (g := fun m : Bytes => 1 + sizeofLen m.length)
        (fun a ha => lenField_length (by omega) (by have := h.data a ha; omega)),
      optField_length (g := fun m => 1 + sizeofVarint m)
        (fun a ha => varintField_length (by omega) (h.filesize a ha)),
      mapField_length (g := fun m => 1 + sizeofVarint m)
        (fun a ha => varintField_length (by omega) (h.blocksizes a ha)),
      optField_length (g := fun m => 1 + sizeofVarint m)
        (fun a ha => varintField_length (by omega) (h.hashType a ha)),
      optField_length (g := fun m => 1 + sizeofVarint m)
        (fun a ha => varintField_length (by omega) (h.fanout a ha)),
      optField_length (x := d.mode) (g := fun m => 1 + sizeofVarint m)
        (fun a ha => varintField_length (by omega) (by have := h.mode a ha; omega)),
      optField_length (g := fun t : UnixTime => 1 + sizeofLen t.getSize)
        (fun a _ => by
          rw [msgField_eq_lenField (UnixTime.write_length a).symm,
            lenField_length (by omega)
              (by rw [UnixTime.write_length]; have := UnixTime.getSize_lt a; omega),
            UnixTime.write_length])]
  omega

theorem Flat.write_length (f : Flat) (h : f.WF) : f.write.length = f.getSize := by
  simp only [Flat.write, Flat.getSize, List.length_append]
  rw [mapField_length (g := fun s : PBLink => 1 + sizeofLen s.getSize)
        (fun a ha => by
          have hw := h.links a ha
          have hs := PBLink.write_length a hw
          rw [msgField_eq_lenField hs.symm,
            lenField_length (by omega) (by rw [hs]; have := hw.size; omega), hs]),
      msgField_eq_lenField (UnixFs.write_length _ h.data).symm,
      lenField_length (by omega)
        (by rw [UnixFs.write_length _ h.data]; have := h.size; omega),
      UnixFs.write_length _ h.data]

theorem PBNode.write_length (n : PBNode) (h : n.WF) : n.write.length = n.getSize := by
  simp only [PBNode.write, PBNode.getSize, List.length_append]
  rw [mapField_length (g := fun s : PBLink => 1 + sizeofLen s.getSize)
        (fun a ha => by
          have hw := h.links a ha
          have hs := PBLink.write_length a hw
          rw [msgField_eq_lenField hs.symm,
            lenField_length (by omega) (by rw [hs]; have := hw.size; omega), hs]),
      optField_length (g := fun m : Bytes => 1 + sizeofLen m.length)
        (fun a ha => lenField_length (by omega) (by have := h.data a ha; omega))]

/-! ## Round trips -/

theorem PBLink.tokenize_write (l : PBLink) (h : l.WF) :
    tokenize PBLink.known l.write =
      some (optTok l.hash (fun b => (10, .len b)) ++ (optTok l.name (fun b => (18, .len b)) ++
        optTok l.tsize (fun n => (24, .varint n)))) := by
  simp only [PBLink.write]
  rw [tokenize_optField (g := fun b => (10, .len b))
        (fun a ha => tok_lenField (by omega) (by omega) (h.hash a ha)),
      tokenize_optField (g := fun b => (18, .len b))
        (fun a ha => tok_lenField (by omega) (by omega) (h.name a ha).1)]
  have := tokenize_optField (known := PBLink.known) (x := l.tsize) (f := varintField 24)
    (g := fun n => (24, .varint n))
    (fun a ha => tok_varintField (by omega) (by omega) (h.tsize a ha)) []
  simp only [List.append_nil, tokenize_nil, Option.map_some] at this
  rw [this]
  simp

theorem PBLink.parse_write (l : PBLink) (h : l.WF) : PBLink.parse l.write = some l := by
  rw [PBLink.parse, PBLink.tokenize_write l h]
  obtain ⟨hash, name, tsize⟩ := l
  have hn := h.name
  simp only at hn
  cases hash <;> cases name <;> cases tsize <;>
    simp [optTok, List.foldlM, PBLink.step] <;>
    simp [(hn _ rfl).2]

theorem u64ToI64_i64ToU64 {i : Int} (h1 : -2 ^ 63 ≤ i) (h2 : i < 2 ^ 63) :
    u64ToI64 (i64ToU64 i) = i := by
  unfold u64ToI64 i64ToU64
  split <;> omega

theorem ofU32le_u32le {n : Nat} (h : n < 2 ^ 32) : ofU32le (u32le n) = n := by
  simp [ofU32le, u32le, UInt8.toNat_ofNat']
  omega

theorem UnixTime.parse_write (t : UnixTime) (h : t.WF) : UnixTime.parse t.write = some t := by
  have : tokenize UnixTime.known t.write = some ((8, .varint (i64ToU64 t.seconds)) ::
      optTok t.nanos (fun n => (21, .fixed32 (u32le n)))) := by
    have h2 := tokenize_optField (known := UnixTime.known) (x := t.nanos)
      (f := fun n => fixed32Field 21 (u32le n))
      (g := fun n => (21, .fixed32 (u32le n)))
      (fun a _ => tok_fixed32Field (by omega) (by omega) (by simp [u32le])) []
    simp only [List.append_nil, tokenize_nil, Option.map_some] at h2
    simp only [UnixTime.write]
    rw [tokenize_varintField (by omega) (by omega) (i64ToU64_lt _), h2]
    rfl
  rw [UnixTime.parse, this]
  obtain ⟨s, n⟩ := t
  obtain ⟨h1, h2, h3⟩ := h
  simp only at h1 h2 h3
  cases n with
  | none => simp [optTok, List.foldlM, UnixTime.step, u64ToI64_i64ToU64 h1 h2]
  | some n =>
    simp [optTok, List.foldlM, UnixTime.step, u64ToI64_i64ToU64 h1 h2, ofU32le_u32le (h3 n rfl)]

theorem FsType.ofWire_toWire (t : FsType) : FsType.ofWire t.toWire = t := by
  cases t <;> rfl

theorem UnixFs.tokenize_write (d : UnixFs) (h : d.WF) :
    tokenize UnixFs.known d.write =
      some ((8, .varint d.type.toWire) ::
        (optTok d.data (fun b => (18, .len b)) ++
        (optTok d.filesize (fun n => (24, .varint n)) ++
        (d.blocksizes.map (fun n => (32, .varint n)) ++
        (optTok d.hashType (fun n => (40, .varint n)) ++
        (optTok d.fanout (fun n => (48, .varint n)) ++
        (optTok d.mode (fun n => (56, .varint n)) ++
        optTok d.mtime (fun t => (66, .len t.write))))))))) := by
  have ht := FsType.toWire_lt d.type
  have hm := tokenize_optField (known := UnixFs.known) (x := d.mtime)
    (f := fun t => msgField 66 t.getSize t.write) (g := fun t => (66, .len t.write))
    (fun a _ => by
      rw [msgField_eq_lenField (UnixTime.write_length a).symm]
      exact tok_lenField (by omega) (by omega)
        (by rw [UnixTime.write_length]; exact UnixTime.getSize_lt a)) []
  simp only [List.append_nil, tokenize_nil, Option.map_some] at hm
  simp only [UnixFs.write]
  rw [tokenize_varintField (by omega) (by omega) (by omega),
      tokenize_optField (g := fun b => (18, .len b))
        (fun a ha => tok_lenField (by omega) (by omega) (h.data a ha)),
      tokenize_optField (x := d.filesize) (g := fun n => (24, .varint n))
        (fun a ha => tok_varintField (by omega) (by omega) (h.filesize a ha)),
      tokenize_mapField (g := fun n => (32, .varint n))
        (fun a ha => tok_varintField (by omega) (by omega) (h.blocksizes a ha)),
      tokenize_optField (x := d.hashType) (g := fun n => (40, .varint n))
        (fun a ha => tok_varintField (by omega) (by omega) (h.hashType a ha)),
      tokenize_optField (x := d.fanout) (g := fun n => (48, .varint n))
        (fun a ha => tok_varintField (by omega) (by omega) (h.fanout a ha)),
      tokenize_optField (x := d.mode) (g := fun n => (56, .varint n))
        (fun a ha => tok_varintField (by omega) (by omega) (by have := h.mode a ha; omega)),
      hm]
  simp

/-- Folding a step over an optional token. -/
theorem foldlM_optTok {α β : Type} {step : β → Token → Option β} {x : Option α} {g : α → Token}
    {upd : α → β → β} (h : ∀ a m, x = some a → step m (g a) = some (upd a m)) (m : β) :
    (optTok x g).foldlM step m = some (match x with | none => m | some a => upd a m) := by
  cases x with
  | none => rfl
  | some a => simp [optTok, List.foldlM, h a m rfl]

theorem UnixFs.foldlM_blocksizes (bs : List Nat) (m : UnixFs) :
    (bs.map (fun n => ((32, WireVal.varint n) : Token))).foldlM UnixFs.step m =
      some { m with blocksizes := m.blocksizes ++ bs } := by
  induction bs generalizing m with
  | nil => simp
  | cons b bs ih =>
    simp only [List.map_cons, List.foldlM_cons, UnixFs.step, Option.bind_eq_bind,
      Option.bind_some]
    rw [ih]
    simp

theorem UnixFs.parse_write (d : UnixFs) (h : d.WF) : UnixFs.parse d.write = some d := by
  rw [UnixFs.parse, UnixFs.tokenize_write d h]
  simp only [List.foldlM_cons, List.foldlM_append]
  simp only [UnixFs.step, FsType.ofWire_toWire, Option.bind_eq_bind, Option.bind_some]
  rw [foldlM_optTok (upd := fun b m => { m with data := some b }) (fun a m _ => rfl)]
  simp only [Option.bind_some]
  rw [foldlM_optTok (upd := fun n m => { m with filesize := some n }) (fun a m _ => rfl)]
  simp only [Option.bind_some]
  rw [UnixFs.foldlM_blocksizes]
  simp only [Option.bind_some]
  rw [foldlM_optTok (upd := fun n m => { m with hashType := some n }) (fun a m _ => rfl)]
  simp only [Option.bind_some]
  rw [foldlM_optTok (upd := fun n m => { m with fanout := some n }) (fun a m _ => rfl)]
  simp only [Option.bind_some]
  rw [foldlM_optTok (upd := fun n m => { m with mode := some n })
    (fun a m ha => by simp [UnixFs.step, Nat.mod_eq_of_lt (h.mode a ha)])]
  simp only [Option.bind_some]
  rw [foldlM_optTok (upd := fun t m => { m with mtime := some t })
    (fun a m ha => by simp [UnixFs.step, UnixTime.parse_write a (h.mtime a ha)])]
  obtain ⟨ty, da, fi, bl, ha, fa, mo, mt⟩ := d
  cases da <;> cases fi <;> cases ha <;> cases fa <;> cases mo <;> cases mt <;> rfl

theorem PBNode.foldlM_links (ls : List PBLink) (h : ∀ l ∈ ls, l.WF) (m : PBNode) :
    (ls.map (fun l => ((18, WireVal.len l.write) : Token))).foldlM PBNode.step m =
      some { m with links := m.links ++ ls } := by
  induction ls generalizing m with
  | nil => simp
  | cons l ls ih =>
    simp only [List.map_cons, List.foldlM_cons, PBNode.step,
      PBLink.parse_write l (h l (by simp)), Option.bind_eq_bind, Option.bind_some]
    rw [ih (fun l' hl' => h l' (by simp [hl']))]
    simp

theorem tokenize_links {known : Nat → Bool} (ls : List PBLink) (h : ∀ l ∈ ls, l.WF) (r : Bytes) :
    tokenize known ((ls.map (fun s => msgField 18 s.getSize s.write)).flatten ++ r) =
      (tokenize known r).map ((ls.map (fun l => ((18, WireVal.len l.write) : Token))) ++ ·) :=
  tokenize_mapField (fun a ha => by
    have hs := PBLink.write_length a (h a ha)
    rw [msgField_eq_lenField hs.symm]
    exact tok_lenField (by omega) (by omega) (by rw [hs]; exact (h a ha).size)) r

theorem PBNode.parse_write (n : PBNode) (h : n.WF) : PBNode.parse n.write = some n := by
  have h2 := tokenize_optField (known := PBNode.known) (x := n.data) (f := lenField 10)
    (g := fun b => (10, .len b))
    (fun a ha => tok_lenField (by omega) (by omega) (h.data a ha)) []
  simp only [List.append_nil, tokenize_nil, Option.map_some] at h2
  rw [PBNode.parse, PBNode.write, tokenize_links _ h.links, h2]
  simp only [Option.map_some, List.foldlM_append, PBNode.foldlM_links _ h.links,
    Option.bind_eq_bind, Option.bind_some]
  rw [foldlM_optTok (upd := fun b m => { m with data := some b }) (fun a m _ => rfl)]
  obtain ⟨l, d⟩ := n
  cases d <;> simp

/-- The dag-pb view of a written `FlatUnixFs`: its links and the encoded UnixFS message. -/
theorem Flat.parse_node (f : Flat) (h : f.WF) :
    PBNode.parse f.write = some { links := f.links, data := some f.data.write } := by
  have hw := UnixFs.write_length _ h.data
  have : f.write = PBNode.write { links := f.links, data := some f.data.write } := by
    simp [Flat.write, PBNode.write, optField, msgField_eq_lenField hw.symm]
  rw [this]
  exact PBNode.parse_write _ ⟨h.links, by intro a ha; simp at ha; subst ha; rw [hw]; exact h.size⟩

theorem UnixFs.write_ne_nil (d : UnixFs) : d.write ≠ [] := by
  intro h
  simp [UnixFs.write, varintField, writeVarint_ne_nil] at h

/-- `FlatUnixFs` survives encoding. -/
theorem Flat.parse_write (f : Flat) (h : f.WF) : Flat.parse f.write = .ok f := by
  rw [Flat.parse, Flat.parse_node f h]
  simp only []
  cases hw : f.data.write with
  | nil => exact absurd hw (UnixFs.write_ne_nil _)
  | cons b t =>
    simp only []
    rw [← hw, UnixFs.parse_write _ h.data]

end Verif.Unixfs
