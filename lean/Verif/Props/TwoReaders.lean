import Verif.Props.DagPb
import Verif.Props.File
import Verif.Unixfs.PbLemmas

/-!
# C84: the two readers of dag-pb agree

The node reads dag-pb with `prost` (src/ipld/dag_pb.rs), for `refs`, pins and `dag get`; the unixfs crate reads it with `quick_protobuf`
(unixfs/src/pb/merkledag.rs), for `cat`, `get` and paths.
-/

namespace Verif.Props

open Verif Verif.Ipld Verif.Prost Verif.Unixfs

/-! ### Specification -/

/-- The link says the same: what is left out is empty or zero. -/
def SameLink (a : DagPbLink) (b : PBLink) : Prop :=
  Cid.ofBytes (b.hash.getD []) = some a.cid ∧ b.name.getD [] = a.name ∧ b.tsize.getD 0 = a.size

/-- The links are the same, in order. -/
def SameLinks : List DagPbLink → List PBLink → Prop
  | [], [] => True
  | a :: as, b :: bs => SameLink a b ∧ SameLinks as bs
  | _, _ => False

/-- The node is the same. -/
def SameNode (a : DagPbNode) (b : PBNode) : Prop := SameLinks a.links b.links ∧ b.data.getD [] = a.data

/-! ### Fields -/

/-- The low bits of a tag. -/
def wireType : WireVal → Nat
  | .varint _ => 0
  | .fixed64 _ => 1
  | .len _ => 2
  | .fixed32 _ => 5

theorem takeExact_le {n : Nat} {bs x r : Bytes} (h : takeExact n bs = some (x, r)) : n ≤ bs.length := by
  have := takeExact_length h
  have h2 := congrArg List.length this.2
  simp at h2
  omega

/-- A field that `prost` reads, `quick_protobuf` reads too. -/
theorem readField_token (known : Nat → Bool) {bs : Bytes} (hlen : bs.length < 2 ^ 32) {n : Nat} {v : WireVal} {r : Bytes}
    (h : readField bs = some ((n, v), r)) : n ≠ 0 ∧ readToken known bs = some ((n * 8 + wireType v, v), r) := by
  unfold readField at h
  split at h
  · cases h
  rename_i key r0 hkey
  have hr0 := readVarint_shorter hkey
  split at h
  · cases h
  rename_i hk
  split at h
  · cases h
  rename_i hk0
  have hmod : key % 2 ^ 32 = key := Nat.mod_eq_of_lt (by omega)
  split at h
  · rename_i hw
    split at h
    · cases h
    · rename_i v' r' hv
      simp only [Option.some.injEq, Prod.mk.injEq] at h
      obtain ⟨⟨rfl, rfl⟩, rfl⟩ := h
      refine ⟨hk0, ?_⟩
      simp only [readToken, hkey, hmod, hw, hv, wireType, Option.some.injEq, Prod.mk.injEq, and_true]
      omega
  · rename_i hw
    split at h
    · cases h
    · rename_i v' r' hv
      simp only [Option.some.injEq, Prod.mk.injEq] at h
      obtain ⟨⟨rfl, rfl⟩, rfl⟩ := h
      refine ⟨hk0, ?_⟩
      simp only [readToken, hkey, hmod, hw, hv, wireType, Option.some.injEq, Prod.mk.injEq, and_true]
      omega
  · rename_i hw
    split at h
    · cases h
    · rename_i len r' hv
      split at h
      · cases h
      rename_i x r'' hx
      simp only [Option.some.injEq, Prod.mk.injEq] at h
      obtain ⟨⟨rfl, rfl⟩, rfl⟩ := h
      refine ⟨hk0, ?_⟩
      have h1 := takeExact_le hx
      have h2 := readVarint_shorter hv
      have hl : (if known key = true then len % 2 ^ 32 else len) = len := by
        split
        · exact Nat.mod_eq_of_lt (by omega)
        · rfl
      simp only [readToken, hkey, hmod, hw, hv, hl, hx, wireType, Option.some.injEq, Prod.mk.injEq, and_true]
      omega
  · rename_i hw
    split at h
    · cases h
    · rename_i v' r' hv
      simp only [Option.some.injEq, Prod.mk.injEq] at h
      obtain ⟨⟨rfl, rfl⟩, rfl⟩ := h
      refine ⟨hk0, ?_⟩
      simp only [readToken, hkey, hmod, hw, hv, wireType, Option.some.injEq, Prod.mk.injEq, and_true]
      omega
  · cases h

/-- The payload of a field is part of the message. -/
theorem readField_inside {bs : Bytes} {n : Nat} {b r : Bytes} (h : readField bs = some ((n, .len b), r)) : b.length < bs.length := by
  unfold readField at h
  split at h
  · cases h
  rename_i key r0 hkey
  have hr0 := readVarint_shorter hkey
  split at h
  · cases h
  split at h
  · cases h
  split at h
  · split at h <;> simp at h
  · split at h <;> simp at h
  · split at h
    · cases h
    · rename_i len r' hv
      split at h
      · cases h
      rename_i x r'' hx
      simp only [Option.some.injEq, Prod.mk.injEq, WireVal.len.injEq] at h
      obtain ⟨⟨-, rfl⟩, -⟩ := h
      have h1 := readVarint_shorter hv
      have h2 := congrArg List.length (takeExact_length hx).2
      simp at h2
      omega
  · split at h <;> simp at h
  · cases h

/-- A message read field by field in both ways. -/
theorem msg_tokens {σ τ : Type} {step : σ → Nat → WireVal → Option σ} {known : Nat → Bool} {qstep : τ → Token → Option τ} (R : σ → τ → Prop)
    (N : Nat)
    (hstep : ∀ s m n v s', R s m → n ≠ 0 → (∀ b, v = .len b → b.length < N) → step s n v = some s' →
      ∃ m', qstep m (n * 8 + wireType v, v) = some m' ∧ R s' m')
    (bs : Bytes) (hbs : bs.length ≤ N) (hb : bs.length < 2 ^ 32) (s s' : σ) (m : τ) (hR : R s m) (h : msg step s bs = some s') :
    ∃ ts m', tokenize known bs = some ts ∧ ts.foldlM qstep m = some m' ∧ R s' m' := by
  induction hl : bs.length using Nat.strongRecOn generalizing bs s m with
  | _ l ih =>
    subst hl
    by_cases hne : bs = []
    · subst hne
      rw [msg_nil] at h
      cases h
      exact ⟨[], m, tokenize_nil _, rfl, hR⟩
    · cases hf : readField bs with
      | none =>
        rw [msg] at h
        simp only [hne, if_false] at h
        split at h
        · cases h
        · rename_i h1; rw [h1] at hf; cases hf
      | some x =>
        obtain ⟨⟨n, v⟩, r⟩ := x
        rw [msg_field hf] at h
        obtain ⟨s1, h1, h2⟩ := Option.bind_eq_some_iff.1 h
        obtain ⟨h3, h4⟩ := readField_token known hb hf
        have hin : ∀ b, v = .len b → b.length < N := by
          rintro b rfl
          have := readField_inside hf
          omega
        obtain ⟨m1, h5, h6⟩ := hstep s m n v s1 hR h3 hin h1
        have hs := readField_shorter hf
        obtain ⟨ts, m', h7, h8, h9⟩ := ih r.length hs r (by omega) (by omega) s1 m1 h6 h2 rfl
        refine ⟨(n * 8 + wireType v, v) :: ts, m', ?_, ?_, h9⟩
        · rw [tokenize_of_readToken h4, h7]
          rfl
        · simp [List.foldlM_cons, h5, h8]

/-- A link as `prost` has it. -/
def LinkRead (a : PbLinkMsg) (b : PBLink) : Prop := b.hash.getD [] = a.hash ∧ b.name.getD [] = a.name ∧ b.tsize.getD 0 = a.tsize

theorem linkRead_step (s : PbLinkMsg) (m : PBLink) (n : Nat) (v : WireVal) (s' : PbLinkMsg) (hR : LinkRead s m)
    (h : PbLinkMsg.step s n v = some s') : ∃ m', PBLink.step m (n * 8 + wireType v, v) = some m' ∧ LinkRead s' m' := by
  obtain ⟨h1, h2, h3⟩ := hR
  unfold PbLinkMsg.step at h
  split at h
  · cases h; exact ⟨_, rfl, rfl, h2, h3⟩
  · rename_i b
    split at h
    · next hu => cases h; exact ⟨{ m with name := some b }, by simp [PBLink.step, wireType, hu], h1, rfl, h3⟩
    · cases h
  · cases h; exact ⟨_, rfl, h1, h2, rfl⟩
  · cases h
  · cases h
  · cases h
  · rename_i g1 g2 g3
    cases h
    refine ⟨m, ?_, h1, h2, h3⟩
    unfold PBLink.step
    have hw : wireType v < 8 := by cases v <;> simp [wireType]
    split
    · rename_i b he
      simp only [Prod.mk.injEq] at he
      exact absurd he.2 (fun hv => g1 _ (by rw [hv] at he; simp [wireType] at he; omega) hv)
    · rename_i b he
      simp only [Prod.mk.injEq] at he
      exact absurd he.2 (fun hv => g2 _ (by rw [hv] at he; simp [wireType] at he; omega) hv)
    · rename_i b he
      simp only [Prod.mk.injEq] at he
      exact absurd he.2 (fun hv => g3 _ (by rw [hv] at he; simp [wireType] at he; omega) hv)
    · rfl

theorem linkRead_parse {bs : Bytes} (hb : bs.length < 2 ^ 32) {l : PbLinkMsg} (h : msg PbLinkMsg.step {} bs = some l) :
    ∃ m, PBLink.parse bs = some m ∧ LinkRead l m := by
  obtain ⟨ts, m, h1, h2, h3⟩ := msg_tokens (known := PBLink.known) (qstep := PBLink.step) LinkRead (2 ^ 32)
    (fun s m n v s' hR _ _ h => linkRead_step s m n v s' hR h) bs (by omega) hb {} l {} ⟨rfl, rfl, rfl⟩ h
  exact ⟨m, by simp [PBLink.parse, h1, h2], h3⟩

/-- The links of a node as `prost` has them. -/
def LinksRead : List PbLinkMsg → List PBLink → Prop
  | [], [] => True
  | a :: as, b :: bs => LinkRead a b ∧ LinksRead as bs
  | _, _ => False

theorem LinksRead.snoc {as : List PbLinkMsg} {bs : List PBLink} (h : LinksRead as bs) {a : PbLinkMsg} {b : PBLink} (hab : LinkRead a b) :
    LinksRead (as ++ [a]) (bs ++ [b]) := by
  induction as generalizing bs with
  | nil => cases bs with
    | nil => exact ⟨hab, trivial⟩
    | cons _ _ => exact absurd h id
  | cons x as ih => cases bs with
    | nil => exact absurd h id
    | cons y bs => exact ⟨h.1, ih h.2⟩

theorem nodeRead_parse {bs : Bytes} (hb : bs.length < 2 ^ 32) {n : PbNodeMsg} (h : PbNodeMsg.decode bs = some n) :
    ∃ m, PBNode.parse bs = some m ∧ LinksRead n.links m.links ∧ m.data.getD [] = n.data := by
  obtain ⟨ts, m, h1, h2, h3⟩ := msg_tokens (step := PbNodeMsg.step) (known := PBNode.known) (qstep := PBNode.step)
    (fun a b => LinksRead a.links b.links ∧ b.data.getD [] = a.data) (2 ^ 32)
    (fun s m n v s' hR hn hin h => by
      obtain ⟨h1, h2⟩ := hR
      unfold PbNodeMsg.step at h
      split at h
      · cases h; exact ⟨_, rfl, h1, rfl⟩
      · rename_i b
        obtain ⟨l, hl, rfl⟩ := Option.map_eq_some_iff.1 h
        obtain ⟨q, hq, hr⟩ := linkRead_parse (hin b rfl) hl
        exact ⟨{ m with links := m.links ++ [q] }, by simp [PBNode.step, wireType, hq], h1.snoc hr, h2⟩
      · cases h
      · cases h
      · rename_i g1 g2
        cases h
        refine ⟨m, ?_, h1, h2⟩
        unfold PBNode.step
        have hw : wireType v < 8 := by cases v <;> simp [wireType]
        split
        · rename_i b he
          simp only [Prod.mk.injEq] at he
          exact absurd he.2 (fun hv => g2 _ (by rw [hv] at he; simp [wireType] at he; omega) hv)
        · rename_i b he
          simp only [Prod.mk.injEq] at he
          exact absurd he.2 (fun hv => g1 _ (by rw [hv] at he; simp [wireType] at he; omega) hv)
        · rfl)
    bs (by omega) hb {} n {} ⟨trivial, rfl⟩ h
  exact ⟨m, by simp [PBNode.parse, h1, h2], h3⟩

theorem linksRead_same {as : List PbLinkMsg} {ls : List DagPbLink} (h : as.mapM DagPbLink.ofMsg = some ls) {bs : List PBLink}
    (hr : LinksRead as bs) : SameLinks ls bs := by
  induction as generalizing ls bs with
  | nil =>
    simp only [List.mapM_nil] at h
    cases h
    cases bs with
    | nil => trivial
    | cons _ _ => exact absurd hr id
  | cons a as ih =>
    cases bs with
    | nil => exact absurd hr id
    | cons b bs =>
      rw [List.mapM_cons] at h
      simp only [Option.bind_eq_bind, Option.bind_eq_some_iff, Option.pure_def, Option.some.injEq] at h
      obtain ⟨l, h1, ls', h2, rfl⟩ := h
      refine ⟨?_, ih h2 hr.2⟩
      unfold DagPbLink.ofMsg at h1
      obtain ⟨c, hc, rfl⟩ := Option.map_eq_some_iff.1 h1
      obtain ⟨g1, g2, g3⟩ := hr.1
      exact ⟨by rw [g1]; exact hc, g2, g3⟩

/-- **C84** as far as it holds: whatever block the node itself can read as dag-pb, the unixfs crate reads as well, and with the same links and
the same data. What is missing is the converse (`C84_lenient`). -/
theorem C84_partial (bs : Bytes) (hb : bs.length < 2 ^ 32) (n : DagPbNode) (h : DagPbNode.ofBytes bs = some n) :
    ∃ m, PBNode.parse bs = some m ∧ SameNode n m := by
  unfold DagPbNode.ofBytes at h
  obtain ⟨p, h1, h2⟩ := Option.bind_eq_some_iff.1 h
  obtain ⟨ls, h3, rfl⟩ := Option.map_eq_some_iff.1 h2
  obtain ⟨m, h4, h5, h6⟩ := nodeRead_parse hb h1
  exact ⟨m, h4, linksRead_same h3 h5, h6⟩

/-! ### What the unixfs crate writes -/

/-- A link as `prost` reads it. -/
def msgOf (l : PBLink) : PbLinkMsg := ⟨l.hash.getD [], l.name.getD [], l.tsize.getD 0⟩

theorem msg_optLen {σ : Type} {step : σ → Nat → WireVal → Option σ} {s : σ} {n : Nat} (x : Option Bytes) {r : Bytes} {s' : σ} (hn : 0 < n)
    (hn' : n < 2 ^ 29) (hx : OptAll (fun b => b.length < 2 ^ 32) x) (h0 : x = none → s' = s)
    (h1 : ∀ b, x = some b → step s n (.len b) = some s') : msg step s (optField x (lenField (n * 8 + 2)) ++ r) = msg step s' r := by
  cases x with
  | none => rw [h0 rfl]; rfl
  | some b =>
    have := hx b rfl
    simp only [optField]
    rw [msg_field (readField_len hn hn' (by omega)), h1 b rfl]
    rfl

theorem link_written (l : PBLink) (h : l.WF) : msg PbLinkMsg.step {} l.write = some (msgOf l) := by
  obtain ⟨hash, name, tsize⟩ := l
  obtain ⟨h1, h2, h3, -⟩ := h
  simp only at h1 h2 h3
  unfold PBLink.write
  rw [msg_optLen (n := 1) hash (s' := ⟨hash.getD [], [], 0⟩) (by decide) (by decide) h1 (by rintro rfl; rfl) (by rintro b rfl; rfl),
    msg_optLen (n := 2) name (s' := ⟨hash.getD [], name.getD [], 0⟩) (by decide) (by decide) (fun b hb => (h2 b hb).1) (by rintro rfl; rfl)
      (by rintro b rfl; simp [PbLinkMsg.step, (h2 b rfl).2])]
  cases tsize with
  | none => exact msg_nil _
  | some t =>
    have := readField_varint (n := 3) (v := t) (r := []) (by decide) (by decide) (h3 t rfl)
    rw [List.append_nil] at this
    simp only [optField]
    rw [msg_field this]
    exact msg_nil _

theorem links_written (ls : List PBLink) (h : ∀ l ∈ ls, l.WF) (s : PbNodeMsg) (r : Bytes) :
    msg PbNodeMsg.step s ((ls.map (fun l => msgField 18 l.getSize l.write)).flatten ++ r) =
      msg PbNodeMsg.step ⟨s.links ++ ls.map msgOf, s.data⟩ r := by
  induction ls generalizing s with
  | nil => simp
  | cons l ls ih =>
    have hl := h l List.mem_cons_self
    have hw := PBLink.write_length l hl
    have hs := hl.size
    simp only [List.map_cons, List.flatten_cons, List.append_assoc]
    rw [msgField_eq_lenField hw.symm]
    rw [msg_field (readField_len (n := 2) (by decide) (by decide) (by omega))]
    simp only [PbNodeMsg.step, link_written l hl, Option.map_some, Option.bind_some]
    rw [ih (fun x hx => h x (List.mem_cons_of_mem _ hx))]
    simp

theorem node_written (n : PBNode) (h : n.WF) : PbNodeMsg.decode n.write = some ⟨n.links.map msgOf, n.data.getD []⟩ := by
  unfold PbNodeMsg.decode PBNode.write
  rw [links_written n.links h.links]
  have := msg_optLen (step := PbNodeMsg.step) (n := 1) (s := ⟨n.links.map msgOf, []⟩) n.data (r := [])
    (s' := ⟨n.links.map msgOf, n.data.getD []⟩) (by decide) (by decide) h.data (by intro h; rw [h]; rfl) (by intro b h; rw [h]; rfl)
  rw [List.append_nil] at this
  simp only [List.nil_append]
  rw [this, msg_nil]

theorem mapM_msgOf (ls : List PBLink) (h : ∀ l ∈ ls, ∃ c, Cid.ofBytes (l.hash.getD []) = some c) :
    ∃ ds, (ls.map msgOf).mapM DagPbLink.ofMsg = some ds ∧ SameLinks ds ls := by
  induction ls with
  | nil => exact ⟨[], rfl, trivial⟩
  | cons l ls ih =>
    obtain ⟨c, hc⟩ := h l List.mem_cons_self
    obtain ⟨ds, h1, h2⟩ := ih (fun x hx => h x (List.mem_cons_of_mem _ hx))
    refine ⟨⟨c, l.name.getD [], l.tsize.getD 0⟩ :: ds, ?_, ⟨hc, rfl, rfl⟩, h2⟩
    rw [List.map_cons, List.mapM_cons, h1]
    simp [DagPbLink.ofMsg, msgOf, hc]

/-- Whatever node the unixfs crate writes, the node itself can read, if the links lead to cids, and it has the same links and the same data. -/
theorem C84_written (m : PBNode) (hm : m.WF) (hc : ∀ l ∈ m.links, ∃ c, Cid.ofBytes (l.hash.getD []) = some c) :
    ∃ n, DagPbNode.ofBytes m.write = some n ∧ SameNode n m := by
  obtain ⟨ds, h1, h2⟩ := mapM_msgOf m.links hc
  refine ⟨⟨ds, m.data.getD []⟩, ?_, h2, rfl⟩
  simp [DagPbNode.ofBytes, node_written m hm, h1]

theorem flat_written (f : Flat) (hf : f.WF) (hc : ∀ l ∈ f.links, ∃ c, Cid.ofBytes (l.hash.getD []) = some c) :
    ∃ n, DagPbNode.ofBytes f.write = some n ∧ SameLinks n.links f.links ∧ n.data = f.data.write := by
  have hw := UnixFs.write_length _ hf.data
  have e : f.write = PBNode.write { links := f.links, data := some f.data.write } := by
    simp [Flat.write, PBNode.write, optField, msgField_eq_lenField hw.symm]
  obtain ⟨n, h1, h2, h3⟩ := C84_written { links := f.links, data := some f.data.write }
    ⟨hf.links, by intro a ha; simp at ha; subst ha; rw [hw]; exact hf.size⟩ hc
  exact ⟨n, by rw [e]; exact h1, h2, h3.symm⟩

/-- A file block with a field of the wrong wire type before its data. -/
def exLenient : Bytes := [0x08, 0x00, 0x0A, 0x07, 0x08, 0x02, 0x12, 0x01, 0x61, 0x18, 0x01]

/-- **C84 fails** the other way: what the unixfs crate can read, the node may not be able to. This block is the file `a` to `cat`, but it cannot be
decoded for a pin or for `refs`. -/
theorem C84_lenient : Unixfs.cat (fun _ => none) none exLenient 5 = ([[0x61]], .done) ∧ PBNode.parse exLenient = some ⟨[], some [0x08, 0x02, 0x12, 0x01, 0x61, 0x18, 0x01]⟩ ∧
    DagPbNode.ofBytes exLenient = none := by
  decide +kernel

/-- The theorems apply to a node with two links and data. -/
example : ∃ n, DagPbNode.ofBytes (PBNode.write ⟨[⟨some (Cid.v0 (List.replicate 32 7)).toBytes, some [0x61], some 3⟩,
    ⟨some (Cid.v0 (List.replicate 32 8)).toBytes, none, none⟩], some [1, 2]⟩) = some n ∧ n.links.length = 2 ∧ n.data = [1, 2] := by
  decide +kernel

end Verif.Props
