import Verif.Http.TarLemmas
import Verif.Props.TreeWalk

/-!
# C53: the tar stream

A reader for GNU tar as the specification, and what it finds in the stream.
-/

namespace Verif.Props

open Verif Verif.Unixfs Verif.Http

/-! ### Specification -/

/-- The number written in octal digits. -/
def octalValue (ds : Bytes) : Option Nat :=
  ds.foldl (fun n d => n.bind (fun n => if 48 ≤ d ∧ d ≤ 55 then some (n * 8 + (d.toNat - 48)) else none)) (some 0)

/-- Text up to a zero. -/
def cstr (b : Bytes) : Bytes := b.takeWhile (· ≠ 0)

/-- A number: octal digits up to a zero, or binary when the first bit is set. -/
def fieldValue (b : Bytes) : Option Nat :=
  if b.headD 0 ≥ 128 then some (b.foldl (fun n d => n * 256 + d.toNat) 0 % 256 ^ (b.length - 1))
  else octalValue (cstr b)

/-- A part of a record. -/
def partAt (o n : Nat) (b : Bytes) : Bytes := (b.drop o).take n

/-- A record of 512 bytes with its body. -/
structure TarRec where
  name : Bytes
  mode : Nat
  mtime : Nat
  flag : UInt8
  link : Bytes
  body : Bytes
deriving DecidableEq, Repr

/-- Reading a record: magic and checksum must be right, the body is there, followed by zeros up to a multiple
of 512 bytes. -/
def readRecord (b : Bytes) : Option (TarRec × Bytes) :=
  let h := b.take 512
  if b.length < 512 then none
  else if partAt 257 8 h ≠ [117, 115, 116, 97, 114, 32, 32, 0] then none
  else if fieldValue (partAt 148 8 h) ≠ some (((h.take 148 ++ List.replicate 8 32 ++ h.drop 156).map UInt8.toNat).sum) then none
  else
    match fieldValue (partAt 100 8 h), fieldValue (partAt 136 12 h), fieldValue (partAt 124 12 h) with
    | some mode, some mtime, some size =>
      let padded := (size + 511) / 512 * 512
      let data := (b.drop 512).take padded
      if data.length ≠ padded ∨ (data.drop size).any (· ≠ 0) then none
      else some (⟨cstr (partAt 0 100 h), mode, mtime, (partAt 156 1 h).headD 0, cstr (partAt 157 100 h), data.take size⟩,
        b.drop (512 + padded))
    | _, _, _ => none

/-- What an entry is. -/
inductive TarKind where
  | dir
  | file (content : Bytes)
  | symlink (target : Bytes)
deriving DecidableEq, Repr

structure TarEntry where
  path : Bytes
  kind : TarKind
  mode : Nat
  mtime : Nat
deriving DecidableEq, Repr

/-- Reading the entries of an archive until its end; `name` and `link` come from the records before. -/
def readTar : Nat → Option Bytes → Option Bytes → Bytes → Option (List TarEntry)
  | 0, _, _, _ => none
  | fuel + 1, name, link, b =>
    if b = [] then (if name = none ∧ link = none then some [] else none)
    else
      match readRecord b with
      | none => none
      | some (r, rest) =>
        if r.flag = 76 then readTar fuel (some (cstr r.body)) link rest
        else if r.flag = 75 then readTar fuel name (some (cstr r.body)) rest
        else
          let kind : Option TarKind :=
            if r.flag = 48 then some (.file r.body)
            else if r.flag = 53 ∧ r.body = [] then some .dir
            else if r.flag = 50 ∧ r.body = [] then some (.symlink (link.getD r.link))
            else none
          match kind with
          | none => none
          | some k => (readTar fuel none none rest).map (fun es => ⟨name.getD r.name, k, r.mode, r.mtime⟩ :: es)

/-- All entries of an archive. -/
def tarEntries (b : Bytes) : Option (List TarEntry) := readTar (b.length + 1) none none b

/-- What goes into the archive, as the walker reports it. -/
inductive TarIn where
  | bucket (cid : Cid) (path : Bytes)
  | dir (root : Bool) (cid : Cid) (path : Bytes) (m : Metadata)
  | file (cid : Cid) (path : Bytes) (m : Metadata) (segs : List Bytes)
  | symlink (cid : Cid) (path : Bytes) (m : Metadata) (target : Bytes)
deriving DecidableEq, Repr

/-- The reports; the declared size of a file is the length of its content. -/
def TarIn.items : TarIn → List WItem
  | .bucket cid path => [.bucket cid path]
  | .dir root cid path m => [if root then .rootDirectory cid path m else .directory cid path m]
  | .file cid path m segs => fileItems cid path m segs.flatten.length true segs
  | .symlink cid path m target => [.symlink target cid path m]

/-- The lower twelve bits of the mode. -/
def entryMode (m : Metadata) (d : Nat) : Nat := match m.mode with
  | some x => x % 4096
  | none => d

/-- The seconds, or zero when they are negative. -/
def entryTime (m : Metadata) : Nat := match m.mtime with
  | some (s, _) => s.toNat
  | none => 0

/-- The target of a link: in full when it is long, otherwise without empty and `.` segments. -/
def entryTarget (target : Bytes) : Bytes := if (tidy target).length ≤ 100 then tidy target else target

/-- The entry to find in the archive. -/
def TarIn.entries : TarIn → List TarEntry
  | .bucket _ _ => []
  | .dir _ _ path m => [⟨path, .dir, entryMode m 0o755, entryTime m⟩]
  | .file _ path m segs => [⟨path, .file segs.flatten, entryMode m 0o644, entryTime m⟩]
  | .symlink _ path m target => [⟨path, .symlink (entryTarget target), entryMode m 0o644, entryTime m⟩]

/-- What can be written: plain paths, sizes and times below 2^33. -/
def TarIn.Ok : TarIn → Prop
  | .bucket _ _ => True
  | .dir _ _ path m => TarPath path ∧ entryTime m < 2 ^ 33
  | .file _ path m segs => TarPath path ∧ entryTime m < 2 ^ 33 ∧ segs ≠ [] ∧ segs.flatten.length < 2 ^ 33
  | .symlink _ path m target => TarPath path ∧ entryTime m < 2 ^ 33 ∧ utf8Ok target = true ∧ target ≠ [] ∧ 0 ∉ target ∧
      target.length + 1 < 2 ^ 33

/-! ### Reading what was written -/

theorem octal_digit (v : Nat) : 48 ≤ UInt8.ofNat (48 + v % 8) ∧ UInt8.ofNat (48 + v % 8) ≤ 55 ∧
    (UInt8.ofNat (48 + v % 8)).toNat - 48 = v % 8 := by
  have h : (UInt8.ofNat (48 + v % 8)).toNat = 48 + v % 8 := by
    rw [UInt8.toNat_ofNat']; omega
  refine ⟨?_, ?_, by omega⟩
  · rw [UInt8.le_iff_toNat_le, h]; simp
  · rw [UInt8.le_iff_toNat_le, h]; simp; omega

theorem octalField_ne (w v : Nat) : ∀ c ∈ octalField w v, c ≠ 0 := by
  induction w generalizing v with
  | zero => intro c hc; cases hc
  | succ w ih =>
    intro c hc
    rcases List.mem_append.mp hc with hc | hc
    · exact ih _ c hc
    · rw [List.mem_singleton] at hc
      subst hc
      intro h0
      have := (octal_digit v).1
      rw [h0] at this
      exact absurd this (by decide)

theorem cstr_append {a t : Bytes} (ha : 0 ∉ a) (ht : t = [] ∨ t.head? = some 0) : cstr (a ++ t) = a := by
  unfold cstr
  induction a with
  | nil =>
    rcases ht with rfl | ht
    · rfl
    · cases t with
      | nil => cases ht
      | cons c t => simp at ht; subst ht; rfl
  | cons c a ih =>
    have hc : c ≠ 0 := fun h => ha (by simp [h])
    rw [List.cons_append, List.takeWhile_cons, if_pos (by simpa using hc), ih (fun h => ha (by simp [h]))]

theorem octalValue_field {w v : Nat} (h : v < 8 ^ w) : octalValue (octalField w v) = some v := by
  induction w generalizing v with
  | zero =>
    have : v = 0 := by simpa using h
    subst this; rfl
  | succ w ih =>
    have h1 := ih (v := v / 8) (by rw [Nat.div_lt_iff_lt_mul (by decide)]; rw [Nat.pow_succ] at h; exact h)
    unfold octalValue at h1 ⊢
    rw [octalField, List.foldl_append, h1]
    have hd := octal_digit v
    simp only [List.foldl_cons, List.foldl_nil, Option.bind_some]
    rw [if_pos ⟨hd.1, hd.2.1⟩, hd.2.2]
    congr 1
    omega

theorem octalField_head (w v : Nat) : (octalField (w + 1) v ++ [0]).headD 0 < 128 := by
  induction w generalizing v with
  | zero =>
    have := (octal_digit v).2.1
    simp only [octalField, List.nil_append, List.cons_append, List.headD_cons]
    exact UInt8.lt_of_le_of_lt this (by decide)
  | succ w ih =>
    have hne : octalField (w + 1) (v / 8) ≠ [] := by simp [octalField]
    have := ih (v / 8)
    rw [octalField]
    cases hf : octalField (w + 1) (v / 8) with
    | nil => exact absurd hf hne
    | cons c cs => rw [hf] at this; simpa using this

theorem octal_read {w v : Nat} (h : v < 8 ^ (w + 1)) : fieldValue (octalField (w + 1) v ++ [0]) = some v := by
  unfold fieldValue
  rw [if_neg, cstr_append (fun h0 => octalField_ne _ v 0 h0 rfl) (Or.inr rfl), octalValue_field h]
  exact UInt8.not_le.mpr (octalField_head w v)

theorem partAt_mid (a b c : Bytes) {o n : Nat} (ho : a.length = o) (hn : b.length = n) : partAt o n (a ++ (b ++ c)) = b := by
  subst ho hn
  simp [partAt]

theorem sum_spaces {h : TarHeader} (o : HdrOk h) :
    (((h.toBytes.take 148 ++ List.replicate 8 32 ++ h.toBytes.drop 156)).map UInt8.toNat).sum = h.sum := by
  unfold TarHeader.sum sumBytes
  congr 2
  have e1 : h.toBytes = (h.name ++ h.mode ++ h.uid ++ h.gid ++ h.size ++ h.mtime) ++ (h.cksum ++
      ([h.typeflag] ++ (h.linkname ++ (gnuMagic ++ List.replicate 247 0)))) := by
    simp only [TarHeader.toBytes, List.append_assoc]
  have l1 : (h.name ++ h.mode ++ h.uid ++ h.gid ++ h.size ++ h.mtime).length = 148 := by
    simp only [List.length_append, o.name, o.mode.length, o.uid, o.gid, o.size.length, o.mtime.length]
  have l2 : ((h.name ++ h.mode ++ h.uid ++ h.gid ++ h.size ++ h.mtime) ++ h.cksum).length = 156 := by
    rw [List.length_append, l1, o.cksum.length]
  rw [e1, List.take_left' l1]
  rw [← List.append_assoc _ h.cksum, List.drop_left' l2]
  simp only [TarHeader.toBytes, List.append_assoc]

/-- The header and the body of a record are found again. -/
theorem readRecord_written {h : TarHeader} (o : HdrOk h) {mode mtime : Nat} {body : Bytes}
    (hm : h.mode = octalField 7 mode ++ [0]) (hm' : mode < 8 ^ 7)
    (ht : h.mtime = octalField 11 mtime ++ [0]) (ht' : mtime < 8 ^ 11)
    (hs : h.size = octalField 11 body.length ++ [0]) (hs' : body.length < 8 ^ 11) (rest : Bytes) :
    readRecord (h.setCksum.toBytes ++ (body ++ ((tarPad body.length).toList.flatten ++ rest))) =
      some (⟨cstr h.name, mode, mtime, h.typeflag, cstr h.linkname, body⟩, rest) := by
  have o' := setCksum_ok o
  have hck : h.setCksum.cksum = octalField 7 h.sum ++ [0] := by
    unfold TarHeader.setCksum; exact o.cksum.octal _
  generalize hg : h.setCksum = g at *
  have g1 : g.name = h.name := by rw [← hg]; rfl
  have g2 : g.mode = h.mode := by rw [← hg]; rfl
  have g3 : g.mtime = h.mtime := by rw [← hg]; rfl
  have g4 : g.size = h.size := by rw [← hg]; rfl
  have g5 : g.typeflag = h.typeflag := by rw [← hg]; rfl
  have g6 : g.linkname = h.linkname := by rw [← hg]; rfl
  have g7 : g.sum = h.sum := by rw [← hg]; rfl
  have hl := o'.length
  have p1 : partAt 257 8 g.toBytes = gnuMagic := by
    have : g.toBytes = (g.name ++ g.mode ++ g.uid ++ g.gid ++ g.size ++ g.mtime ++ g.cksum ++ [g.typeflag] ++ g.linkname) ++
      (gnuMagic ++ List.replicate 247 0) := by simp only [TarHeader.toBytes, List.append_assoc]
    rw [this]
    refine partAt_mid _ _ _ ?_ rfl
    simp only [List.length_append, o'.name, o'.mode.length, o'.uid, o'.gid, o'.size.length, o'.mtime.length,
      o'.cksum.length, o'.linkname, List.length_cons, List.length_nil]
  have p2 : partAt 148 8 g.toBytes = g.cksum := by
    have : g.toBytes = (g.name ++ g.mode ++ g.uid ++ g.gid ++ g.size ++ g.mtime) ++ (g.cksum ++ ([g.typeflag] ++ (g.linkname ++
      (gnuMagic ++ List.replicate 247 0)))) := by simp only [TarHeader.toBytes, List.append_assoc]
    rw [this]
    refine partAt_mid _ _ _ ?_ o'.cksum.length
    simp only [List.length_append, o'.name, o'.mode.length, o'.uid, o'.gid, o'.size.length, o'.mtime.length]
  have p3 : partAt 100 8 g.toBytes = g.mode := partAt_mid _ _ _ o'.name o'.mode.length
  have p4 : partAt 136 12 g.toBytes = g.mtime := by
    have : g.toBytes = (g.name ++ g.mode ++ g.uid ++ g.gid ++ g.size) ++ (g.mtime ++ (g.cksum ++ ([g.typeflag] ++ (g.linkname ++
      (gnuMagic ++ List.replicate 247 0))))) := by simp only [TarHeader.toBytes, List.append_assoc]
    rw [this]
    refine partAt_mid _ _ _ ?_ o'.mtime.length
    simp only [List.length_append, o'.name, o'.mode.length, o'.uid, o'.gid, o'.size.length]
  have p5 : partAt 124 12 g.toBytes = g.size := by
    have : g.toBytes = (g.name ++ g.mode ++ g.uid ++ g.gid) ++ (g.size ++ (g.mtime ++ (g.cksum ++ ([g.typeflag] ++ (g.linkname ++
      (gnuMagic ++ List.replicate 247 0)))))) := by simp only [TarHeader.toBytes, List.append_assoc]
    rw [this]
    refine partAt_mid _ _ _ ?_ o'.size.length
    simp only [List.length_append, o'.name, o'.mode.length, o'.uid, o'.gid]
  have p6 : partAt 0 100 g.toBytes = g.name := partAt_mid [] _ _ rfl o'.name
  have p7 : partAt 156 1 g.toBytes = [g.typeflag] := by
    have : g.toBytes = (g.name ++ g.mode ++ g.uid ++ g.gid ++ g.size ++ g.mtime ++ g.cksum) ++ ([g.typeflag] ++ (g.linkname ++
      (gnuMagic ++ List.replicate 247 0))) := by simp only [TarHeader.toBytes, List.append_assoc]
    rw [this]
    refine partAt_mid _ _ _ ?_ rfl
    simp only [List.length_append, o'.name, o'.mode.length, o'.uid, o'.gid, o'.size.length, o'.mtime.length, o'.cksum.length]
  have p8 : partAt 157 100 g.toBytes = g.linkname := by
    have : g.toBytes = (g.name ++ g.mode ++ g.uid ++ g.gid ++ g.size ++ g.mtime ++ g.cksum ++ [g.typeflag]) ++ (g.linkname ++
      (gnuMagic ++ List.replicate 247 0)) := by simp only [TarHeader.toBytes, List.append_assoc]
    rw [this]
    refine partAt_mid _ _ _ ?_ o'.linkname
    simp only [List.length_append, o'.name, o'.mode.length, o'.uid, o'.gid, o'.size.length, o'.mtime.length, o'.cksum.length,
      List.length_cons, List.length_nil]
  have hpad := tarPad_length body.length
  have hzero := tarPad_zero body.length
  generalize (tarPad body.length).toList.flatten = pad at hpad hzero
  have htake : (g.toBytes ++ (body ++ (pad ++ rest))).take 512 = g.toBytes := List.take_left' hl
  have hdrop : (g.toBytes ++ (body ++ (pad ++ rest))).drop 512 = body ++ (pad ++ rest) := List.drop_left' hl
  have hdata : (body ++ (pad ++ rest)).take ((body.length + 511) / 512 * 512) = body ++ pad := by
    rw [← List.append_assoc]
    exact List.take_left' (by rw [List.length_append]; exact hpad)
  have hrest : (g.toBytes ++ (body ++ (pad ++ rest))).drop (512 + (body.length + 511) / 512 * 512) = rest := by
    rw [← List.drop_drop, hdrop, ← List.append_assoc]
    exact List.drop_left' (by rw [List.length_append]; exact hpad)
  unfold readRecord
  simp only [htake]
  rw [if_neg (by simp only [List.length_append]; omega)]
  rw [p1, if_neg (by simp [gnuMagic]), p2, hck, octal_read o.sum_lt, sum_spaces o', g7, if_neg (by simp)]
  rw [p3, g2, hm, octal_read hm', p4, g3, ht, octal_read ht', p5, g4, hs, octal_read hs']
  simp only [hdrop, hdata, hrest, p6, p7, p8, g1, g5, g6]
  rw [if_neg]
  · simp
  · rintro (h1 | h1)
    · rw [List.length_append] at h1; omega
    · simp only [List.drop_left, List.any_eq_true] at h1
      obtain ⟨c, hc, h1⟩ := h1
      rw [hzero c hc] at h1
      simp at h1

theorem readTar_long {long : TarHeader} (o : HdrOk long) (hm : long.mode = octalField 7 0o644 ++ [0])
    (ht : long.mtime = octalField 11 0 ++ [0]) {data : Bytes} (hd : 0 ∉ data) (hl : data.length + 1 < 2 ^ 33) (flag : UInt8) :
    HdrOk (longEntry long flag data).1 ∧ (longEntry long flag data).1.mode = octalField 7 0o644 ++ [0] ∧
    (longEntry long flag data).1.mtime = octalField 11 0 ++ [0] ∧
    (longEntry long flag data).2.flatten.length % 512 = 0 ∧ 0 < (longEntry long flag data).2.flatten.length ∧
    ∀ rest, ∃ r, readRecord ((longEntry long flag data).2.flatten ++ rest) = some (r, rest) ∧ r.flag = flag ∧ cstr r.body = data := by
  let g : TarHeader := { long with size := numericInto long.size (data.length + 1), typeflag := flag }
  have hsz : numericInto long.size (data.length + 1) = octalField 11 (data.length + 1) ++ [0] := o.size.numeric hl
  have og : HdrOk g := { o with size := by change NumField 11 (numericInto _ _); rw [hsz]; exact .mk _ _ }
  have hlen : g.setCksum.toBytes.length = 512 := (setCksum_ok og).length
  have hflat : (longEntry long flag data).2.flatten =
      g.setCksum.toBytes ++ ((data ++ [0]) ++ ((tarPad (data ++ [0]).length).toList.flatten)) := by
    simp [longEntry, g]
  have hpad := tarPad_length (data ++ [0]).length
  refine ⟨setCksum_ok og, hm, ht, ?_, ?_, ?_⟩
  · rw [hflat]
    simp only [List.length_append, List.length_singleton] at hpad ⊢
    omega
  · rw [hflat, List.length_append]; omega
  · intro rest
    have := readRecord_written (body := data ++ [0]) og (mode := 0o644) (mtime := 0) hm (by decide) ht (by decide)
      (by simpa using hsz) (by simp only [List.length_append, List.length_singleton]; omega) rest
    refine ⟨_, by rw [hflat]; simp only [List.append_assoc] at this ⊢; exact this, rfl, ?_⟩
    · exact cstr_append hd (Or.inr rfl)

theorem modeBound (m : Metadata) {d : Nat} (h : d < 4096) : entryMode m d < 8 ^ 7 := by
  unfold entryMode
  split <;> omega

/-- The last header of an entry. -/
theorem putHeader_read {t : TarHelper} (o : HelperOk t) (m : Metadata) (hm : entryTime m < 2 ^ 33) {d : Nat} (hd : d < 4096)
    (flag : UInt8) (body : Bytes) (hb : body.length < 2 ^ 33) :
    HelperOk (t.putHeader body.length flag m d).1 ∧ (t.putHeader body.length flag m d).1.bufsize = t.bufsize ∧
    (t.putHeader body.length flag m d).2.flatten.length = 512 ∧
    ∀ rest, readRecord ((t.putHeader body.length flag m d).2.flatten ++ (body ++ ((tarPad body.length).toList.flatten ++ rest))) =
      some (⟨cstr t.header.name, entryMode m d, entryTime m, flag, cstr t.header.linkname, body⟩, rest) := by
  let h : TarHeader := ({ t.header with size := numericInto t.header.size body.length, typeflag := flag } : TarHeader).setMetadata m d
  have hmo : h.mode = octalField 7 (entryMode m d) ++ [0] := by
    have : h.mode = octalInto t.header.mode (entryMode m d) := by
      simp only [h, TarHeader.setMetadata, entryMode]
      cases m.mode <;> rfl
    rw [this]
    exact o.header.mode.octal _
  have hti : h.mtime = octalField 11 (entryTime m) ++ [0] := by
    have : h.mtime = numericInto t.header.mtime (entryTime m) := by
      simp only [h, TarHeader.setMetadata, entryTime]
      cases m.mtime with
      | none => rfl
      | some x =>
        obtain ⟨s, n⟩ := x
        simp only
        split
        · rfl
        · congr 1; omega
    rw [this]
    exact o.header.mtime.numeric hm
  have hsz : h.size = octalField 11 body.length ++ [0] := by
    exact o.header.size.numeric hb
  have oh : HdrOk h := { o.header with
    mode := by rw [hmo]; exact .mk _ _
    mtime := by rw [hti]; exact .mk _ _
    size := by rw [hsz]; exact .mk _ _ }
  refine ⟨⟨setCksum_ok oh, o.long, o.longMode, o.longTime⟩, rfl, ?_, ?_⟩
  · simpa [TarHelper.putHeader] using (setCksum_ok oh).length
  · intro rest
    have := readRecord_written oh (body := body) hmo (modeBound m hd) hti (by omega) hsz (by omega) rest
    have hf : (t.putHeader body.length flag m d).2.flatten = h.setCksum.toBytes := by simp [TarHelper.putHeader, h]
    rw [hf]
    exact this

/-- The name of an entry: in the header or before it. -/
theorem putPath_read {t : TarHelper} (o : HelperOk t) {path : Bytes} (hp : TarPath path) :
    ∃ t' out n, t.putPath path = .ok (t', out) ∧ HelperOk t' ∧ t'.bufsize = t.bufsize ∧ out.flatten.length % 512 = 0 ∧
      t'.header.linkname = t.header.linkname ∧
      n.getD (cstr t'.header.name) = path ∧ ∃ k, k ≤ out.flatten.length ∧
        ∀ fuel link rest, readTar (fuel + k) none link (out.flatten ++ rest) = readTar fuel n link rest := by
  unfold TarHelper.putPath
  by_cases hl : path.length ≤ 100
  · obtain ⟨u, h1, h2, h3⟩ := setPath_short o.header.name hp.toTarPlain hl
    refine ⟨{ t with header := { t.header with name := path ++ u } }, [], none, ?_, ?_, rfl, rfl, rfl, ?_, 0, Nat.le_refl _, fun _ _ _ => rfl⟩
    · simp [h1]
    · exact ⟨{ o.header with name := h2 }, o.long, o.longMode, o.longTime⟩
    · exact cstr_append hp.noZero h3
  · have hlong := setPath_long o.header.name hp.toTarPlain (by omega)
    obtain ⟨n, hn, hnl⟩ := setPath_length t.header path
    have hcut := setPath_cut (h := (t.header.setPath path).1) (by rw [hn]; exact hnl.trans o.header.name) hp (by omega)
    obtain ⟨n', hn', hnl'⟩ := setPath_length (t.header.setPath path).1 (path.take 100)
    obtain ⟨e1, e2, e3, e4, e5, e6⟩ := readTar_long o.long o.longMode o.longTime hp.noZero hp.short 76
    refine ⟨⟨t.bufsize, ((t.header.setPath path).1.setPath (path.take 100)).1, (longEntry t.longHeader 76 path).1⟩, (longEntry t.longHeader 76 path).2, some path, ?_, ?_, rfl, e4, ?_,
      rfl, 1, e5, ?_⟩
    · simp only [hlong, hcut, if_neg (show ¬ path.length < 100 by omega), if_true]
      rfl
    · refine ⟨?_, e1, e2, e3⟩
      rw [hn', hn] at *
      exact { o.header with name := by rw [hnl']; exact hnl.trans o.header.name }
    · rfl
    · intro fuel link rest
      obtain ⟨r, r1, r2, r3⟩ := e6 rest
      rw [readTar, if_neg (by
        intro h0
        have := congrArg List.length h0
        simp only [List.length_append, List.length_nil] at this
        omega), r1]
      simp only [r2, r3, if_true]

theorem readTar_file {fuel : Nat} {n k : Option Bytes} {b rest : Bytes} {name link body : Bytes} {mode mtime : Nat}
    (h : readRecord b = some (⟨name, mode, mtime, 48, link, body⟩, rest)) (hb : b ≠ []) :
    readTar (fuel + 1) n k b = (readTar fuel none none rest).map (fun es => ⟨n.getD name, .file body, mode, mtime⟩ :: es) := by
  rw [readTar, if_neg hb, h]
  simp

theorem readTar_dir {fuel : Nat} {n k : Option Bytes} {b rest : Bytes} {name link : Bytes} {mode mtime : Nat}
    (h : readRecord b = some (⟨name, mode, mtime, 53, link, []⟩, rest)) (hb : b ≠ []) :
    readTar (fuel + 1) n k b = (readTar fuel none none rest).map (fun es => ⟨n.getD name, .dir, mode, mtime⟩ :: es) := by
  rw [readTar, if_neg hb, h]
  simp

theorem readTar_symlink {fuel : Nat} {n k : Option Bytes} {b rest : Bytes} {name link : Bytes} {mode mtime : Nat}
    (h : readRecord b = some (⟨name, mode, mtime, 50, link, []⟩, rest)) (hb : b ≠ []) :
    readTar (fuel + 1) n k b =
      (readTar fuel none none rest).map (fun es => ⟨n.getD name, .symlink (k.getD link), mode, mtime⟩ :: es) := by
  rw [readTar, if_neg hb, h]
  simp

theorem ne_nil_of_length {b c : Bytes} (h : b.length = 512) : b ++ c ≠ [] := by
  intro h0
  have := congrArg List.length h0
  simp only [List.length_append, List.length_nil] at this
  omega

/-- The reports are written and found again. -/
def Writes (t : TarHelper) (items : List WItem) (es : List TarEntry) : Prop :=
  ∃ t' out k, (∀ is, t.items (items ++ is) = (out ++ (t'.items is).1, (t'.items is).2)) ∧ HelperOk t' ∧
    out.flatten.length % 512 = 0 ∧ k ≤ out.flatten.length ∧
    ∀ fuel rest, readTar (fuel + k) none none (out.flatten ++ rest) = (readTar fuel none none rest).map (es ++ ·)

/-- The contents of a file in the stream. -/
def fileBody (bufsize size : Nat) (segs : List Bytes) : List Bytes :=
  segs.flatMap (bufferContents bufsize) ++ (tarPad size).toList

theorem fileBody_flatten (bufsize size : Nat) (segs : List Bytes) :
    (fileBody bufsize size segs).flatten = segs.flatten ++ (tarPad size).toList.flatten := by
  unfold fileBody
  rw [List.flatten_append]
  congr 1
  induction segs with
  | nil => rfl
  | cons b bs ih => rw [List.flatMap_cons, List.flatten_append, bufferContents_flatten, ih, List.flatten_cons]

theorem items_rest (t : TarHelper) {segs : List Bytes} (hs : segs ≠ []) (cid : Cid) (path : Bytes) (m : Metadata) (size : Nat)
    (is : List WItem) : t.items (fileItems cid path m size false segs ++ is) =
      (fileBody t.bufsize size segs ++ (t.items is).1, (t.items is).2) := by
  induction segs with
  | nil => exact absurd rfl hs
  | cons b bs ih =>
    cases bs with
    | nil => simp [fileItems, TarHelper.items, TarHelper.item, fileBody]
    | cons c bs =>
      have := ih (by simp)
      simp [fileItems, TarHelper.items, TarHelper.item, fileBody] at this ⊢
      simp [this]

theorem items_file {t t' : TarHelper} {out : List Bytes} {segs : List Bytes} (hs : segs ≠ []) (cid : Cid) {path : Bytes}
    {m : Metadata} {size : Nat} (h : t.applyFile path m size = .ok (t', out)) (hb : t'.bufsize = t.bufsize) (is : List WItem) :
    t.items (fileItems cid path m size true segs ++ is) =
      ((out ++ fileBody t.bufsize size segs) ++ (t'.items is).1, (t'.items is).2) := by
  cases segs with
  | nil => exact absurd rfl hs
  | cons b bs =>
    cases bs with
    | nil => simp [fileItems, TarHelper.items, TarHelper.item, fileBody, h]
    | cons c bs =>
      have := items_rest t' (segs := c :: bs) (by simp) cid path m size is
      simp [fileItems, TarHelper.items, TarHelper.item, fileBody, h, hb] at this ⊢
      simp [this]

theorem tidy_fits {target : Bytes} (h : components target ≠ []) (hl : ¬ (tidy target).length ≤ 100) : 100 < target.length := by
  have := tidy_length h
  omega

theorem components_ne_nil {t : Bytes} (h : t ≠ []) : components t ≠ [] := by
  cases hs : splitSlash t with
  | nil => exact absurd hs (splitSlash_ne_nil t)
  | cons s ss =>
    by_cases h0 : s = []
    · subst h0
      by_cases h1 : ss = []
      · subst h1
        have := join_splitSlash t
        rw [hs] at this
        exact absurd this.symm h
      · rw [components_of_root hs h1]; simp
    · rw [components_of hs h0]; simp

theorem tidy_noZero {t : Bytes} (h : t ≠ []) (hz : 0 ∉ t) : 0 ∉ tidy t := by
  have hj : ∀ l : List Bytes, (∀ x ∈ l, (0 : UInt8) ∉ x) → 0 ∉ joinSlash l := by
    intro l
    induction l with
    | nil => intro _ h0; cases h0
    | cons x xs ih =>
      intro hx
      cases xs with
      | nil => simpa [joinSlash] using hx x (by simp)
      | cons y ys =>
        have := ih (fun z hz => hx z (List.mem_cons_of_mem _ hz))
        simp [joinSlash, this, hx x (by simp)]
  have he : (0 : UInt8) ∉ endSlash t := by unfold endSlash; split <;> simp
  obtain ⟨s, ss, hs, hc⟩ := components_shape (components_ne_nil h)
  have hk : ∀ x ∈ kept ss, (0 : UInt8) ∉ x := fun x hx h0 => hz ((kept_mem hs hx).2.2.2 0 h0)
  rcases hc with ⟨rfl, hss, hc⟩ | ⟨h0, c, hcr, hcb, hcd, hc⟩
  · rw [tidy_root hc]
    simp [hj _ hk, he]
  · rw [tidy_relative hc hcr hcb]
    have : (0 : UInt8) ∉ s := fun h0 => hz (mem_split (by rw [hs]; exact List.mem_cons_self) 0 h0)
    have := hj (s :: kept ss) (by
      intro x hx
      rcases List.mem_cons.mp hx with rfl | hx
      · exact this
      · exact hk x hx)
    simp [this, he]

theorem writes_in {t : TarHelper} (o : HelperOk t) {i : TarIn} (h : i.Ok) : Writes t i.items i.entries := by
  cases i with
  | bucket cid path =>
    refine ⟨t, [], 0, fun is => rfl, o, rfl, Nat.le_refl _, fun fuel rest => ?_⟩
    simp only [TarIn.entries, List.nil_append, List.flatten_nil]
    cases readTar (fuel + 0) none none rest <;> rfl
  | dir root cid path m =>
    obtain ⟨hp, hm⟩ := h
    obtain ⟨t1, out, n, p1, p2, p3, p4, p5, p6, k, p7, p8⟩ := putPath_read o hp
    obtain ⟨q1, q2, q3, q4⟩ := putHeader_read p2 m hm (d := 0o755) (by decide) 53 [] (by decide)
    simp only [List.length_nil, List.nil_append, show (tarPad 0).toList.flatten = [] from rfl] at q1 q2 q3 q4
    generalize hq : t1.putHeader 0 53 m 0o755 = q at *
    have happ : t.applyDirectory path m = .ok (q.1, out ++ q.2) := by
      simp [TarHelper.applyDirectory, p1, hq]
    refine ⟨q.1, out ++ q.2, k + 1, ?_, q1, ?_, ?_, ?_⟩
    · intro is
      cases root <;> simp [TarIn.items, TarHelper.items, TarHelper.item, happ]
    · rw [List.flatten_append, List.length_append, q3]; omega
    · rw [List.flatten_append, List.length_append, q3]; omega
    · intro fuel rest
      rw [List.flatten_append, List.append_assoc, show fuel + (k + 1) = (fuel + 1) + k by omega, p8,
        readTar_dir (q4 rest) (ne_nil_of_length q3), p6]
      rfl
  | file cid path m segs =>
    obtain ⟨hp, hm, hs, hl⟩ := h
    obtain ⟨t1, out, n, p1, p2, p3, p4, p5, p6, k, p7, p8⟩ := putPath_read o hp
    obtain ⟨q1, q2, q3, q4⟩ := putHeader_read p2 m hm (d := 0o644) (by decide) 48 segs.flatten hl
    generalize hq : t1.putHeader segs.flatten.length 48 m 0o644 = q at *
    have happ : t.applyFile path m segs.flatten.length = .ok (q.1, out ++ q.2) := by
      simp only [TarHelper.applyFile, p1, hq]
    have hb : q.1.bufsize = t.bufsize := q2.trans p3
    have hf := fileBody_flatten t.bufsize segs.flatten.length segs
    have hpad := tarPad_length segs.flatten.length
    refine ⟨q.1, (out ++ q.2) ++ fileBody t.bufsize segs.flatten.length segs, k + 1, ?_, q1, ?_, ?_, ?_⟩
    · exact fun is => items_file hs cid happ hb is
    · rw [List.flatten_append, List.flatten_append, hf]
      simp only [List.length_append, q3]; omega
    · rw [List.flatten_append, List.flatten_append, hf]
      simp only [List.length_append, q3]; omega
    · intro fuel rest
      rw [List.flatten_append, List.flatten_append, hf]
      simp only [List.append_assoc]
      rw [show fuel + (k + 1) = (fuel + 1) + k by omega, p8, readTar_file (q4 rest) (ne_nil_of_length q3), p6]
      rfl
  | symlink cid path m target =>
    obtain ⟨hp, hm, hu, hne, hz, hl⟩ := h
    have hc := components_ne_nil hne
    obtain ⟨t1, out, n, p1, p2, p3, p4, p5, p6, k, p7, p8⟩ := putPath_read o hp
    by_cases hfit : (tidy target).length ≤ 100
    · obtain ⟨u, c1, c2, c3⟩ := (copyPath_link (slot := t1.header.linkname) hc hz).1 (by rw [p2.header.linkname]; exact hfit)
      let t2 : TarHelper := { t1 with header := { t1.header with linkname := tidy target ++ u } }
      have o2 : HelperOk t2 := ⟨{ p2.header with linkname := c2.trans p2.header.linkname }, p2.long, p2.longMode, p2.longTime⟩
      obtain ⟨q1, q2, q3, q4⟩ := putHeader_read o2 m hm (d := 0o644) (by decide) 50 [] (by decide)
      simp only [List.length_nil, List.nil_append, show (tarPad 0).toList.flatten = [] from rfl] at q1 q2 q3 q4
      generalize hq : t2.putHeader 0 50 m 0o644 = q at *
      have happ : t.applySymlink path target m = .ok (q.1, out ++ q.2) := by
        simp only [TarHelper.applySymlink, p1, TarHeader.setLinkName, c1, if_true]
        rw [← hq]
      refine ⟨q.1, out ++ q.2, k + 1, ?_, q1, ?_, ?_, ?_⟩
      · intro is
        simp [TarIn.items, TarHelper.items, TarHelper.item, happ, hu]
      · rw [List.flatten_append, List.length_append, q3]; omega
      · rw [List.flatten_append, List.length_append, q3]; omega
      · intro fuel rest
        rw [List.flatten_append, List.append_assoc, show fuel + (k + 1) = (fuel + 1) + k by omega, p8,
          readTar_symlink (q4 rest) (ne_nil_of_length q3)]
        have h1 : cstr t2.header.linkname = tidy target := cstr_append (tidy_noZero hne hz) c3
        have h2 : t2.header.name = t1.header.name := rfl
        rw [h1, h2, p6]
        simp [TarIn.entries, entryTarget, hfit]
    · have hlong := tidy_fits hc hfit
      have c1 : (t1.header.setLinkName target).2 = false :=
        (copyPath_link (slot := t1.header.linkname) hc hz).2 (by rw [p2.header.linkname]; omega)
      obtain ⟨l, l1, l2⟩ := setLink_length t1.header target
      obtain ⟨e1, e2, e3, e4, e5, e6⟩ := readTar_long p2.long p2.longMode p2.longTime hz hl 75
      let t2 : TarHelper := ⟨t1.bufsize, { t1.header with linkname := l }, (longEntry t1.longHeader 75 target).1⟩
      have o2 : HelperOk t2 := ⟨{ p2.header with linkname := l2.trans p2.header.linkname }, e1, e2, e3⟩
      obtain ⟨q1, q2, q3, q4⟩ := putHeader_read o2 m hm (d := 0o644) (by decide) 50 [] (by decide)
      simp only [List.length_nil, List.nil_append, show (tarPad 0).toList.flatten = [] from rfl] at q1 q2 q3 q4
      generalize hq : t2.putHeader 0 50 m 0o644 = q at *
      generalize he : (longEntry t1.longHeader 75 target) = e at *
      have happ : t.applySymlink path target m = .ok (q.1, out ++ e.2 ++ q.2) := by
        simp only [TarHelper.applySymlink, p1, c1, if_neg (show ¬ target.length < 100 by omega), l1, he]
        rw [← hq]
        simp [t2, he]
      refine ⟨q.1, out ++ e.2 ++ q.2, k + 2, ?_, q1, ?_, ?_, ?_⟩
      · intro is
        simp [TarIn.items, TarHelper.items, TarHelper.item, happ, hu]
      · rw [List.flatten_append, List.flatten_append, List.length_append, List.length_append, q3]; omega
      · rw [List.flatten_append, List.flatten_append, List.length_append, List.length_append, q3]; omega
      · intro fuel rest
        rw [List.flatten_append, List.flatten_append, List.append_assoc, List.append_assoc,
          show fuel + (k + 2) = (fuel + 2) + k by omega, p8]
        obtain ⟨r, r1, r2, r3⟩ := e6 (q.2.flatten ++ rest)
        rw [readTar, if_neg (by
          intro h0
          have := congrArg List.length h0
          simp only [List.length_append, List.length_nil] at this
          omega), r1]
        simp only [r2, r3]
        rw [if_neg (by decide), if_pos trivial, readTar_symlink (q4 rest) (ne_nil_of_length q3)]
        have h2 : t2.header.name = t1.header.name := rfl
        rw [h2, p6]
        simp [TarIn.entries, entryTarget, hfit]

theorem writes_all {t : TarHelper} (o : HelperOk t) {is : List TarIn} (h : ∀ i ∈ is, i.Ok) :
    Writes t (is.flatMap TarIn.items) (is.flatMap TarIn.entries) := by
  induction is generalizing t with
  | nil =>
    refine ⟨t, [], 0, fun is => rfl, o, rfl, Nat.le_refl _, fun fuel rest => ?_⟩
    simp only [List.flatMap_nil, List.nil_append, List.flatten_nil]
    cases readTar (fuel + 0) none none rest <;> rfl
  | cons i is ih =>
    obtain ⟨t1, out, k, h1, h2, h3, h4, h5⟩ := writes_in o (h i List.mem_cons_self)
    obtain ⟨t2, out2, k2, g1, g2, g3, g4, g5⟩ := ih h2 (fun x hx => h x (List.mem_cons_of_mem _ hx))
    refine ⟨t2, out ++ out2, k2 + k, ?_, g2, ?_, ?_, ?_⟩
    · intro js
      rw [List.flatMap_cons, List.append_assoc, h1, g1]
      simp
    · rw [List.flatten_append, List.length_append]; omega
    · rw [List.flatten_append, List.length_append]; omega
    · intro fuel rest
      rw [List.flatten_append, List.append_assoc, show fuel + (k2 + k) = (fuel + k2) + k by omega, h5, g5, List.flatMap_cons]
      cases readTar fuel none none rest <;> simp

/-! ### C53 -/

/-- The full statement: whatever the walker reports for any tree, a reader finds in the stream the same sequence of paths and
contents. It is false: see the theorems below. Proved here: it holds when the paths consist of plain names (no `.`, `..` or
zeros, also not after cutting a long path at 100 bytes), declared sizes are the lengths of the contents, and sizes
and times are below 2^33. -/
theorem C53_stream_partial (n : Nat) (is : List TarIn) (h : ∀ i ∈ is, i.Ok) :
    ∃ out, (TarHelper.withCapacity n).items (is.flatMap TarIn.items) = (out, none) ∧
      out.flatten.length % 512 = 0 ∧ tarEntries out.flatten = some (is.flatMap TarIn.entries) := by
  obtain ⟨t, out, k, h1, h2, h3, h4, h5⟩ := writes_all (withCapacity_ok n) h
  refine ⟨out, ?_, h3, ?_⟩
  · have := h1 []
    simpa [TarHelper.items] using this
  · unfold tarEntries
    have := h5 (out.flatten.length + 1 - k) []
    rw [show out.flatten.length + 1 - k + k = out.flatten.length + 1 by omega, List.append_nil] at this
    rw [this]
    have h0 : out.flatten.length + 1 - k = (out.flatten.length - k) + 1 := by omega
    rw [h0, readTar]
    simp

/-- The target read back leads the same way as the one of the link, and is the same when there is nothing to leave
out or when it is long. -/
theorem C53_target (target : Bytes) (h : target ≠ []) :
    components (entryTarget target) = components target ∧
    (tidy target = target ∨ 100 < (tidy target).length → entryTarget target = target) := by
  constructor
  · unfold entryTarget
    split
    · exact components_tidy (components_ne_nil h)
    · rfl
  · intro ht
    unfold entryTarget
    rcases ht with ht | ht
    · rw [ht]
      split <;> rfl
    · rw [if_neg (by omega)]

example : tidy "a/../b".toUTF8.toList = "a/../b".toUTF8.toList ∧ tidy "/".toUTF8.toList = "//".toUTF8.toList ∧
    components (tidy "./a/./b".toUTF8.toList) = [.curDir, .normal [97], .normal [98]] := by decide +kernel

/-! #### Trees -/

/-- What can be written for a leaf. -/
def LeafFits : Seen → Prop
  | .directory => True
  | .file content size m => size = content.length ∧ size < 2 ^ 33 ∧ entryTime m < 2 ^ 33
  | .symlink target m => entryTime m < 2 ^ 33 ∧ utf8Ok target = true ∧ target ≠ [] ∧ 0 ∉ target ∧ target.length + 1 < 2 ^ 33

/-- The entry for a leaf. -/
def leafEntry (path : Bytes) : Seen → TarEntry
  | .directory => ⟨path, .dir, 0o755, 0⟩
  | .file content _ m => ⟨path, .file content, entryMode m 0o644, entryTime m⟩
  | .symlink target m => ⟨path, .symlink (entryTarget target), entryMode m 0o644, entryTime m⟩

/-- The entry for a path of the tree: of the leaf put there, or of a directory. -/
def EntryAt (ops : List DirOp) (content : Cid → Seen) (q : List Bytes) (path : Bytes) (e : TarEntry) : Prop :=
  (∃ p c n, .put p c n ∈ ops ∧ splitSlash p = q ∧ e = leafEntry path (content c)) ∨
  ((∀ p c n, .put p c n ∈ ops → splitSlash p ≠ q) ∧ e = ⟨path, .dir, 0o755, 0⟩)

theorem shows_in {root : Bool} {cid : Cid} {path : Bytes} {items : List WItem} {seen : Seen} (h : Shows root cid path items seen)
    (hf : LeafFits seen) (hp : TarPath path) : ∃ i : TarIn, i.Ok ∧ i.items = items ∧ i.entries = [leafEntry path seen] := by
  cases seen with
  | directory => exact ⟨.dir root cid path {}, ⟨hp, by decide⟩, h.symm, rfl⟩
  | file content size m =>
    obtain ⟨segs, h1, rfl, h3⟩ := h
    obtain ⟨rfl, f2, f3⟩ := hf
    exact ⟨.file cid path m segs, ⟨hp, f3, h1, f2⟩, h3.symm, rfl⟩
  | symlink target m => exact ⟨.symlink cid path m target, ⟨hp, hf⟩, h.symm, rfl⟩

/-- The archive of a tree made by the directory builder: with what the walk reports by C16, the archive has exactly one entry for
every path of the tree, in the same order, with the content, mode and time of what was put there. Partial: the same restrictions as above. -/
theorem C53_tree_partial (n : Nat) {ops : List DirOp} {nodes : List TreeNode} {content : Cid → Seen} {start : List Bytes}
    {name : Bytes} (hname : name ≠ []) {groups : List (List Bytes × List WItem)}
    (h : Reports ops nodes content start name groups)
    (hpath : ∀ q, (q = [] ∨ ∃ op ∈ ops, start ++ q <+: splitSlash op.path) → TarPath (joinSlash (name :: q)))
    (hleaf : ∀ p c n, .put p c n ∈ ops → LeafFits (content c)) :
    ∃ out es, (TarHelper.withCapacity n).items (groups.map Prod.snd).flatten = (out, none) ∧
      tarEntries out.flatten = some es ∧ es.map TarEntry.path = groups.map (fun g => joinSlash (name :: g.1)) ∧
      ∀ x ∈ (groups.map Prod.fst).zip es, EntryAt ops content (start ++ x.1) (joinSlash (name :: x.1)) x.2 := by
  have key : ∀ gs : List (List Bytes × List WItem), (∀ g ∈ gs, g ∈ groups) → ∃ (is : List TarIn) (es : List TarEntry),
      (∀ i ∈ is, i.Ok) ∧ is.flatMap TarIn.items = (gs.map Prod.snd).flatten ∧ is.flatMap TarIn.entries = es ∧
      es.map TarEntry.path = gs.map (fun g => joinSlash (name :: g.1)) ∧
      ∀ x ∈ (gs.map Prod.fst).zip es, EntryAt ops content (start ++ x.1) (joinSlash (name :: x.1)) x.2 := by
    intro gs
    induction gs with
    | nil => intro _; exact ⟨[], [], by simp, rfl, rfl, rfl, by simp⟩
    | cons g gs ih =>
      intro hg
      obtain ⟨is, es, h1, h2, h3, h4, h5⟩ := ih (fun x hx => hg x (List.mem_cons_of_mem _ hx))
      have hgm := hg g List.mem_cons_self
      have hp := hpath g.1 ((h.all g.1).mp (List.mem_map.mpr ⟨g, hgm, rfl⟩))
      have hr := h.each g hgm
      rw [if_neg hname, List.singleton_append] at hr
      have hone : ∃ i : TarIn, ∃ e, i.Ok ∧ i.items = g.2 ∧ i.entries = [e] ∧ e.path = joinSlash (name :: g.1) ∧
          EntryAt ops content (start ++ g.1) (joinSlash (name :: g.1)) e := by
        cases hr with
        | leaf a b c =>
          obtain ⟨i, i1, i2, i3⟩ := shows_in c (hleaf _ _ _ a) hp
          refine ⟨i, _, i1, i2, i3, ?_, Or.inl ⟨_, _, _, a, b, rfl⟩⟩
          unfold leafEntry
          split <;> rfl
        | dir a b c d =>
          obtain ⟨i, i1, i2, i3⟩ := shows_in d trivial hp
          exact ⟨i, _, i1, i2, i3, rfl, Or.inr ⟨a, rfl⟩⟩
      obtain ⟨i, e, i1, i2, i3, i4, i5⟩ := hone
      refine ⟨i :: is, e :: es, ?_, ?_, ?_, ?_, ?_⟩
      · intro x hx
        rcases List.mem_cons.mp hx with rfl | hx
        · exact i1
        · exact h1 x hx
      · rw [List.flatMap_cons, i2, h2]; rfl
      · rw [List.flatMap_cons, i3, h3]; rfl
      · rw [List.map_cons, i4, h4]; rfl
      · intro x hx
        rw [List.map_cons, List.zip_cons_cons] at hx
        rcases List.mem_cons.mp hx with rfl | hx
        · exact i5
        · exact h5 x hx
  obtain ⟨is, es, h1, h2, h3, h4, h5⟩ := key groups (fun _ hg => hg)
  obtain ⟨out, o1, _, o3⟩ := C53_stream_partial n is h1
  rw [h2] at o1
  rw [h3] at o3
  exact ⟨out, es, o1, o3, h4, h5⟩

/-! #### What does not hold -/

/-- A file that declares size 0 but has content adds entries of its choice to the archive: here any that can be
written. The declared size is not compared with the content. -/
theorem C53_injection (n : Nat) {cid : Cid} {path : Bytes} {m : Metadata} (hp : TarPath path) (hm : entryTime m < 2 ^ 33)
    (forged : List TarIn) (hf : ∀ i ∈ forged, i.Ok) : ∃ content out,
      (TarHelper.withCapacity n).items [.file content true true cid path m 0] = (out, none) ∧
      tarEntries out.flatten = some (⟨path, .file [], entryMode m 0o644, entryTime m⟩ :: forged.flatMap TarIn.entries) := by
  obtain ⟨t, out, k, h1, h2, h3, h4, h5⟩ := writes_all (withCapacity_ok n) hf
  obtain ⟨t1, out1, n1, p1, p2, p3, p4, p5, p6, k1, p7, p8⟩ := putPath_read (withCapacity_ok n) hp
  obtain ⟨q1, q2, q3, q4⟩ := putHeader_read p2 m hm (d := 0o644) (by decide) 48 [] (by decide)
  simp only [List.length_nil, List.nil_append, show (tarPad 0).toList.flatten = [] from rfl] at q1 q2 q3 q4
  generalize hq : t1.putHeader 0 48 m 0o644 = q at *
  have happ : (TarHelper.withCapacity n).applyFile path m 0 = .ok (q.1, out1 ++ q.2) := by
    simp only [TarHelper.applyFile, p1, hq]
  refine ⟨out.flatten, (out1 ++ q.2) ++ bufferContents q.1.bufsize out.flatten, ?_, ?_⟩
  · have hb : q.1.bufsize = n := q2.trans p3
    have hn : (TarHelper.withCapacity n).bufsize = n := rfl
    simp [TarHelper.items, TarHelper.item, happ, hb, hn, show tarPad 0 = none from rfl]
  · rw [List.flatten_append, List.flatten_append, bufferContents_flatten]
    unfold tarEntries
    simp only [List.length_append, q3]
    rw [show out1.flatten.length + 512 + out.flatten.length + 1 =
      (((out1.flatten.length - k1 + 511 + (out.flatten.length - k)) + 1 + k) + 1) + k1 by omega, List.append_assoc, p8,
      readTar_file (q4 out.flatten) (ne_nil_of_length q3), p6]
    have := h5 (out1.flatten.length - k1 + 511 + (out.flatten.length - k) + 1) []
    rw [List.append_nil] at this
    rw [this, readTar]
    simp

/-- A path with `..` in it: an error when it is short, and when it is among its first hundred bytes a panic when it
is long. -/
theorem C53_parent (t : TarHelper) {path : Bytes} (h : [46, 46] ∈ splitSlash path) (cid : Cid) (m : Metadata) :
    (path.length < 100 → t.items [.directory cid path m] = ([], some (.invalidFileName path))) ∧
    (100 ≤ path.length → [46, 46] ∈ splitSlash (path.take 100) → t.items [.directory cid path m] = ([], some .panic)) := by
  constructor
  · intro hl
    simp [TarHelper.items, TarHelper.item, TarHelper.applyDirectory, TarHelper.putPath, setPath_parent h, hl]
  · intro hl hc
    simp [TarHelper.items, TarHelper.item, TarHelper.applyDirectory, TarHelper.putPath, setPath_parent h, setPath_parent hc,
      show ¬ path.length < 100 by omega]

/-- A long path with a name that begins with two dots panics when it is cut after them. -/
theorem C53_cut (t : TarHelper) (ht : t.header.name.length = 100) {path : Bytes} (h : TarPlain path) (hl : 100 < path.length)
    (hc : (splitSlash (path.take 100)).getLast? = some [46, 46]) (cid : Cid) (m : Metadata) :
    t.items [.directory cid path m] = ([], some .panic) := by
  simp [TarHelper.items, TarHelper.item, TarHelper.applyDirectory, TarHelper.putPath, setPath_long ht h hl,
    setPath_parent (List.mem_of_getLast? hc), show ¬ path.length < 100 by omega]

/-- A time from 2^33 on leaves its last byte behind: the directory after it, which has no time, is read with another one. -/
theorem C53_stale : ∃ m : Metadata, m.mtime = some ((2 : Int) ^ 33 + 49, 0) ∧
    ∃ out, (TarHelper.withCapacity 16384).items [.directory (Cid.v0 []) [97] m, .directory (Cid.v0 []) [98] {}] = (out, none) ∧
      tarEntries out.flatten = some [⟨[97], .dir, 0o755, 2 ^ 33 + 49⟩, ⟨[98], .dir, 0o755, 1⟩] :=
  ⟨⟨none, some ((2 : Int) ^ 33 + 49, 0)⟩, rfl, _, rfl, by decide +kernel⟩

/-! ### Examples -/

instance (p : Bytes) : Decidable (TarPath p) :=
  decidable_of_iff ((∀ n ∈ splitSlash p, (n ≠ [] ∧ n ≠ [46] ∧ NoSlash n) ∧ n ≠ [46, 46]) ∧ 0 ∉ p ∧
    (splitSlash (p.take 100)).getLast? ≠ some [46, 46] ∧ p.length + 1 < 2 ^ 33)
    ⟨fun h => ⟨⟨fun n hn => ⟨⟨(h.1 n hn).1.1, (h.1 n hn).1.2.1, (h.1 n hn).1.2.2⟩, (h.1 n hn).2⟩, h.2.1⟩, h.2.2.1, h.2.2.2⟩,
     fun h => ⟨fun n hn => ⟨⟨(h.plain n hn).1.nonempty, (h.plain n hn).1.notDot, (h.plain n hn).1.noSlash⟩, (h.plain n hn).2⟩,
       h.noZero, h.cut, h.short⟩⟩

instance (i : TarIn) : Decidable i.Ok := by
  cases i <;> simp only [TarIn.Ok] <;> infer_instance

/-- A root, a file in two parts under a path of 102 bytes, a link out of the tree and a long link. -/
def exTar : List TarIn :=
  [.dir true (Cid.v0 []) "Qm".toUTF8.toList {},
   .file (Cid.v0 []) ("Qm/".toUTF8.toList ++ List.replicate 99 97) ⟨some 0o100600, some (7, 0)⟩ [[1, 2], [3]],
   .symlink (Cid.v0 []) "Qm/s".toUTF8.toList {} "../x//y/".toUTF8.toList,
   .symlink (Cid.v0 []) "Qm/t".toUTF8.toList ⟨none, some (-5, 0)⟩ (List.replicate 101 98)]

example : (∀ i ∈ exTar, i.Ok) ∧ exTar.flatMap TarIn.entries =
    [⟨"Qm".toUTF8.toList, .dir, 0o755, 0⟩,
     ⟨"Qm/".toUTF8.toList ++ List.replicate 99 97, .file [1, 2, 3], 0o600, 7⟩,
     ⟨"Qm/s".toUTF8.toList, .symlink "../x/y/".toUTF8.toList, 0o644, 0⟩,
     ⟨"Qm/t".toUTF8.toList, .symlink (List.replicate 101 98), 0o644, 0⟩] := by
  decide +kernel

/-- The first block of a file with content that declares size 0 is read without complaint. -/
example : visitStart none (Flat.write { links := [], data := { type := .file, data := some [1, 2, 3], filesize := some 0 } }) =
    .ok ([1, 2, 3], 0, {}, none) := by decide +kernel

example : [46, 46] ∈ splitSlash ("Qm/../x".toUTF8.toList) := by decide +kernel

example : TarPlain ("Qm/".toUTF8.toList ++ List.replicate 94 97 ++ "/..x".toUTF8.toList) ∧
    (splitSlash (("Qm/".toUTF8.toList ++ List.replicate 94 97 ++ "/..x".toUTF8.toList).take 100)).getLast? = some [46, 46] :=
  ⟨⟨by
    have : ∀ n ∈ splitSlash ("Qm/".toUTF8.toList ++ List.replicate 94 97 ++ "/..x".toUTF8.toList),
        (n ≠ [] ∧ n ≠ [46] ∧ NoSlash n) ∧ n ≠ [46, 46] := by decide +kernel
    exact fun n hn => ⟨⟨(this n hn).1.1, (this n hn).1.2.1, (this n hn).1.2.2⟩, (this n hn).2⟩, by decide +kernel⟩, by decide +kernel⟩

end Verif.Props
