import Verif.Ipfs.DagResolve
import Verif.Props.HamtLookup

/-!
# C20: resolving a path over documents
-/

namespace Verif.Props

open Verif Verif.Unixfs Verif.Ipld Verif.Ipfs

/-! ### Specification -/

/-- A place in the graph: a block, or a value inside of the document of a block. -/
inductive Pos where
  | doc (c : Cid)
  | value (c : Cid) (d : Ipld)

/-- The block a place is in. -/
def Pos.cid : Pos → Cid
  | .doc c => c
  | .value c _ => c

/-- What blocks there are, and how documents are read. -/
structure Graph where
  env : Env
  size : Nat
  fetch : Cid → Option Bytes

/-- The links of a dag-pb node that are looked at by name: those of a directory and of a node that is
not UnixFS. -/
inductive PlainLinks (b : Bytes) : List PBLink → Prop where
  | dir {flat : Flat} : Flat.parse b = .ok flat → flat.data.type = .directory → dirSupported flat.data = true →
      PlainLinks b flat.links
  | noData {n : PBNode} : Flat.parse b = .error (.noData n) → PlainLinks b n.links
  | notUnixfs {n : PBNode} : Flat.parse b = .error (.invalidUnixFs n) → PlainLinks b n.links

/-- The dag-pb block has a link with the name: one link has it, or an entry of a bucket of a sharded
directory has. -/
inductive Named (fetch : Cid → Option Bytes) (b s : Bytes) (dest : Cid) : Prop where
  | plain {links : List PBLink} {l : PBLink} : PlainLinks b links → l ∈ links → l.nameOr = s → l.cid = some dest →
      (∀ l' ∈ links, l'.nameOr = s → l' = l) → Named fetch b s dest
  | shard {flat : Flat} {b' : Bytes} : Flat.parse b = .ok flat → flat.data.type = .hamtShard →
      Bucket fetch b b' → Holds b' s dest → Named fetch b s dest

/-- One segment inside of a document, `enter` being the start. -/
inductive Inside (G : Graph) : Pos → List Bytes → Pos → List Bytes → Prop where
  | enter {c data d s segs} : G.fetch c = some data → c.codec ≠ codecDagPb →
      decodeIpld G.env G.size c data = .ok d → Inside G (.doc c) (s :: segs) (.value c d) (s :: segs)
  | key {c m d s segs} : AMap.get m s = some d → Inside G (.value c (.map m)) (s :: segs) (.value c d) segs
  | index {c l d s segs i} : parseU64 s = some i → l[i]? = some d →
      Inside G (.value c (.list l)) (s :: segs) (.value c d) segs

/-- Crossing a link. A "." after a link is skipped; `N` says which names dag-pb blocks have. -/
inductive Cross (G : Graph) (N : Bytes → Bytes → Cid → Prop) : Pos → List Bytes → Pos → List Bytes → Prop where
  | link {c dest segs} : segs.head? ≠ some sDot → Cross G N (.value c (.link dest)) segs (.doc dest) segs
  | dot {c dest segs} : Cross G N (.value c (.link dest)) (sDot :: segs) (.doc dest) segs
  | named {c data s dest segs} : G.fetch c = some data → c.codec = codecDagPb → N data s dest →
      Cross G N (.doc c) (s :: segs) (.doc dest) segs

/-- Repeated steps. -/
inductive Steps (R : Pos → List Bytes → Pos → List Bytes → Prop) : Pos → List Bytes → Pos → List Bytes → Prop where
  | refl {p segs} : Steps R p segs p segs
  | step {p segs p' segs' p'' segs''} : R p segs p' segs' → Steps R p' segs' p'' segs'' → Steps R p segs p'' segs''

/-- One segment at a time. -/
def Taking (G : Graph) (N : Bytes → Bytes → Cid → Prop) (p : Pos) (segs : List Bytes) (p' : Pos)
    (segs' : List Bytes) : Prop := Inside G p segs p' segs' ∨ Cross G N p segs p' segs'

/-- Where a path may end. `Data` is special to dag-pb. -/
inductive Ends (G : Graph) : Pos → List Bytes → Node → Prop where
  | block {c data} : G.fetch c = some data → Ends G (.doc c) [] (.block c data)
  | value {c d} : (∀ c', d ≠ .link c') → Ends G (.value c d) [] (.projection c d)
  | data {c data d} : G.fetch c = some data → c.codec = codecDagPb → dirResolve data kData = .ok .notFound →
      wrapNodeData data = some d → Ends G (.doc c) [kData] (.dagPbData c d)

/-! ### The lookup of names -/

/-- The lookup of the code finds the link. -/
def NamedOp (fetch : Cid → Option Bytes) (b s : Bytes) (dest : Cid) : Prop :=
  ∃ fuel, hamtLookup fetch s fuel b = .found dest

theorem resolveLinks_found {s : Bytes} {links : List PBLink} {dest : Cid}
    (h : resolveLinks s links = .ok (.found dest)) :
    ∃ l ∈ links, l.nameOr = s ∧ l.cid = some dest ∧ ∀ l' ∈ links, l'.nameOr = s → l' = l := by
  unfold resolveLinks at h
  split at h
  · cases h
  · rename_i first rest hm
    split at h
    · cases h
    · rename_i c hc
      split at h
      · simp only [Except.ok.injEq, Maybe.found.injEq] at h
        subst h
        have hmem : ∀ l', l' ∈ matching s links ↔ l' ∈ links ∧ l'.nameOr = s := by
          intro l'; simp [matching]
        have hf := (hmem first).mp (by rw [hm]; simp)
        refine ⟨first, hf.1, hf.2, hc, ?_⟩
        intro l' hl' hn
        have := (hmem l').mpr ⟨hl', hn⟩
        rw [hm] at this
        simpa using this
      · cases h

theorem resolveLinks_notFound {s : Bytes} {links : List PBLink}
    (h : resolveLinks s links = .ok .notFound) : ∀ l ∈ links, l.nameOr ≠ s := by
  unfold resolveLinks at h
  split at h
  · rename_i hm
    intro l hl hn
    have : l ∈ matching s links := by simp [matching, hl, hn]
    rw [hm] at this
    cases this
  · split at h
    · cases h
    · split at h <;> cases h

theorem resolveLinks_more {s : Bytes} {links : List PBLink} {q : List Cid} :
    resolveLinks s links ≠ .ok (.more q) := by
  intro h
  unfold resolveLinks at h
  split at h
  · cases h
  · split at h
    · cases h
    · split at h <;> cases h

/-- What the code finds is there. -/
theorem Named.of_op {fetch : Cid → Option Bytes} {b s : Bytes} {dest : Cid} (hs : s ≠ [])
    (h : NamedOp fetch b s dest) : Named fetch b s dest := by
  obtain ⟨fuel, h⟩ := h
  cases hp : Flat.parse b with
  | ok flat =>
    by_cases ht : flat.data.type = .hamtShard
    · obtain ⟨b', hb, hh⟩ := C15_found_is_held fetch s b fuel dest flat hs hp ht h
      exact .shard hp ht hb hh
    · unfold hamtLookup at h
      have hd : dirResolve b s = .ok (.found dest) ∨ ∃ q, dirResolve b s = .ok (.more q) := by
        split at h <;> simp_all
      have hr : dirResolve b s = if flat.data.type = .directory then
          if dirSupported flat.data then resolveLinks s flat.links else .error .unexpectedDirProperties
          else .error (.unexpectedType flat.data.type) := by
        simp [dirResolve, hp, ht]
      rw [hr] at hd
      by_cases htd : flat.data.type = .directory
      · by_cases hsup : dirSupported flat.data = true
        · simp only [htd, hsup, if_true] at hd
          rcases hd with hd | ⟨q, hd⟩
          · obtain ⟨l, h1, h2, h3, h4⟩ := resolveLinks_found hd
            exact .plain (.dir hp htd hsup) h1 h2 h3 h4
          · exact absurd hd resolveLinks_more
        · simp [htd, hsup] at hd
      · simp [htd] at hd
  | error x =>
    have other : ∀ n : PBNode, dirResolve b s = resolveLinks s n.links → PlainLinks b n.links →
        Named fetch b s dest := by
      intro n hr hpl
      have hd : dirResolve b s = .ok (.found dest) ∨ ∃ q, dirResolve b s = .ok (.more q) := by
        clear hr
        unfold hamtLookup at h
        split at h <;> simp_all
      rw [hr] at hd
      rcases hd with hd | ⟨q, hd⟩
      · obtain ⟨l, h1, h2, h3, h4⟩ := resolveLinks_found hd
        exact .plain hpl h1 h2 h3 h4
      · exact absurd hd resolveLinks_more
    cases x with
    | invalidDagPb => simp [hamtLookup, dirResolve, hp] at h
    | noData n => exact other n (by simp [dirResolve, hp]) (.noData hp)
    | invalidUnixFs n => exact other n (by simp [dirResolve, hp]) (.notUnixfs hp)

/-- A name the code does not find is not there. -/
theorem not_named {fetch : Cid → Option Bytes} {b s : Bytes} {dest : Cid} (hs : s ≠ [])
    (h : dirResolve b s = .ok .notFound ∨ ∃ t, dirResolve b s = .error (.unexpectedType t)) :
    ¬ Named fetch b s dest := by
  intro hn
  cases hn with
  | @plain links l hpl hl hname hcid _ =>
    have : dirResolve b s = resolveLinks s links := by
      cases hpl with
      | dir hp ht hsup => simp [dirResolve, hp, ht, hsup]
      | noData hp => simp [dirResolve, hp]
      | notUnixfs hp => simp [dirResolve, hp]
    rw [this] at h
    rcases h with h | ⟨t, h⟩
    · exact resolveLinks_notFound h l hl hname
    · unfold resolveLinks at h
      split at h
      · cases h
      · split at h
        · cases h
        · split at h <;> cases h
  | @shard flat b' hp ht hb hh =>
    rcases h with h | ⟨t, h⟩
    · obtain ⟨l, hl, -⟩ := hh
      have h0 : hamtLookup fetch s 0 b = .notFound := by simp [hamtLookup, h]
      exact C15_not_found fetch s b 0 flat hs hp ht h0 b' hb l hl
    · simp only [dirResolve, hp, ht, if_true] at h
      split at h <;> cases h

/-- A plain name is found by the code if no other link has it. -/
theorem NamedOp.of_plain {fetch : Cid → Option Bytes} {b s : Bytes} {dest : Cid} {pre post : List PBLink} {l : PBLink}
    (hp : PlainLinks b (pre ++ l :: post)) (hn : l.nameOr = s) (hc : l.cid = some dest)
    (hu : ∀ l' ∈ pre ++ post, l'.nameOr ≠ s) : NamedOp fetch b s dest := by
  have hr : dirResolve b s = resolveLinks s (pre ++ l :: post) := by
    generalize hlinks : pre ++ l :: post = links at hp ⊢
    cases hp with
    | dir hp ht hsup => simp [dirResolve, hp, ht, hsup]
    | noData hp => simp [dirResolve, hp]
    | notUnixfs hp => simp [dirResolve, hp]
  have hm : matching s (pre ++ l :: post) = [l] := by
    have e1 : pre.filter (fun l => decide (l.nameOr = s)) = [] := by
      apply List.filter_eq_nil_iff.mpr
      intro x hx; simpa using hu x (by simp [hx])
    have e2 : post.filter (fun l => decide (l.nameOr = s)) = [] := by
      apply List.filter_eq_nil_iff.mpr
      intro x hx; simpa using hu x (by simp [hx])
    simp [matching, e1, e2, hn]
  exact ⟨0, by simp [hamtLookup, hr, resolveLinks, hm, hc]⟩

/-- An entry of a stored tree of good buckets is found by the code if no other has the name. -/
theorem NamedOp.of_shard {fetch : Cid → Option Bytes} {s : Bytes} {dest : Cid} {T : Shard} {b : Bytes} (hs : s ≠ [])
    (hT : IsShard fetch s T) (hb : Bucket fetch T.block b) (hh : Holds b s dest)
    (hu : ∀ b' c', Bucket fetch T.block b' → Holds b' s c' → c' = dest) : NamedOp fetch T.block s dest :=
  ⟨T.size, (C15_lookup fetch s T T.size hs hT (Nat.le_refl _)).1 dest b hb hh hu⟩

/-! ### Helpers -/

theorem Steps.trans {R : Pos → List Bytes → Pos → List Bytes → Prop} {p q r : Pos} {a b c : List Bytes}
    (h1 : Steps R p a q b) (h2 : Steps R q b r c) : Steps R p a r c := by
  induction h1 with
  | refl => exact h2
  | step h _ ih => exact .step h (ih h2)

theorem Steps.mono {R S : Pos → List Bytes → Pos → List Bytes → Prop} {p q : Pos} {a b : List Bytes}
    (h : Steps R p a q b) (hRS : ∀ p a q b, R p a q b → S p a q b) : Steps S p a q b := by
  induction h with
  | refl => exact .refl
  | step h _ ih => exact .step (hRS _ _ _ _ h) ih

/-- Only segments from the front are taken. -/
theorem Steps.suffix {R : Pos → List Bytes → Pos → List Bytes → Prop} {p q : Pos} {a b : List Bytes}
    (h : Steps R p a q b) (hR : ∀ p a q b, R p a q b → ∃ pre, a = pre ++ b) : ∃ pre, a = pre ++ b := by
  induction h with
  | refl => exact ⟨[], rfl⟩
  | step h _ ih =>
    obtain ⟨x, rfl⟩ := hR _ _ _ _ h
    obtain ⟨y, rfl⟩ := ih
    exact ⟨x ++ y, by simp⟩

theorem Inside.suffix {G : Graph} {p q : Pos} {a b : List Bytes} (h : Inside G p a q b) : ∃ pre, a = pre ++ b := by
  cases h with
  | enter => exact ⟨[], rfl⟩
  | key => exact ⟨[_], rfl⟩
  | index => exact ⟨[_], rfl⟩

theorem Cross.suffix {G : Graph} {N : Bytes → Bytes → Cid → Prop} {p q : Pos} {a b : List Bytes}
    (h : Cross G N p a q b) : ∃ pre, a = pre ++ b := by
  cases h with
  | link => exact ⟨[], rfl⟩
  | dot => exact ⟨[_], rfl⟩
  | named => exact ⟨[_], rfl⟩

theorem Taking.suffix {G : Graph} {N : Bytes → Bytes → Cid → Prop} {p q : Pos} {a b : List Bytes}
    (h : Taking G N p a q b) : ∃ pre, a = pre ++ b := by
  rcases h with h | h
  · exact h.suffix
  · exact h.suffix

theorem Steps.inside {G : Graph} {N : Bytes → Bytes → Cid → Prop} {p q : Pos} {a b : List Bytes}
    (h : Steps (Inside G) p a q b) : Steps (Taking G N) p a q b :=
  h.mono (fun _ _ _ _ h => Or.inl h)

theorem localIpld_ok (G : Graph) (N : Bytes → Bytes → Cid → Prop) {doc : Cid} {segs : List Bytes} :
    ∀ {d : Ipld} {n m : Nat} {r : Local} {rest : List Bytes}, localIpld doc d segs n = .ok (r, m, rest) →
    m + rest.length = n + segs.length ∧ ∃ d' mid, Steps (Inside G) (.value doc d) segs (.value doc d') mid ∧
      ((∃ dest, r = .complete (.link doc dest) ∧ Cross G N (.value doc d') mid (.doc dest) rest) ∨
       (r = .complete (.projection doc d') ∧ Ends G (.value doc d') mid (.projection doc d'))) := by
  induction segs with
  | nil =>
    intro d n m r rest h
    cases d with
    | link c =>
      simp only [localIpld, Except.ok.injEq, Prod.mk.injEq] at h
      obtain ⟨rfl, rfl, rfl⟩ := h
      exact ⟨rfl, _, _, .refl, Or.inl ⟨c, rfl, .link (by simp)⟩⟩
    | _ =>
      simp only [localIpld, Except.ok.injEq, Prod.mk.injEq] at h
      obtain ⟨rfl, rfl, rfl⟩ := h
      exact ⟨rfl, _, _, .refl, Or.inr ⟨rfl, .value (by intro c' hc; cases hc)⟩⟩
  | cons s segs ih =>
    intro d n m r rest h
    cases d with
    | link c =>
      simp only [localIpld] at h
      split at h
      · rename_i hs
        simp only [Except.ok.injEq, Prod.mk.injEq] at h
        obtain ⟨rfl, rfl, rfl⟩ := h
        subst hs
        exact ⟨by simp; omega, _, _, .refl, Or.inl ⟨c, rfl, .dot⟩⟩
      · rename_i hs
        simp only [Except.ok.injEq, Prod.mk.injEq] at h
        obtain ⟨rfl, rfl, rfl⟩ := h
        exact ⟨rfl, _, _, .refl, Or.inl ⟨c, rfl, .link (by simpa using hs)⟩⟩
    | map mp =>
      simp only [localIpld] at h
      split at h
      · cases h
      · rename_i found hf
        obtain ⟨h1, d', mid, h2, h3⟩ := ih h
        exact ⟨by simp; omega, d', mid, .step (.key hf) h2, h3⟩
    | list l =>
      simp only [localIpld] at h
      split at h
      · cases h
      · rename_i i hi
        split at h
        · rename_i found hf
          obtain ⟨h1, d', mid, h2, h3⟩ := ih h
          exact ⟨by simp; omega, d', mid, .step (.index hi hf) h2, h3⟩
        · cases h
    | _ => simp [localIpld] at h

theorem localIpld_ge {doc : Cid} {segs : List Bytes} : ∀ {d : Ipld} {n m : Nat} {r : Local} {rest : List Bytes},
    localIpld doc d segs n = .ok (r, m, rest) → n ≤ m := by
  induction segs with
  | nil => intro d n m r rest h; cases d <;> (simp only [localIpld] at h; cases h; exact Nat.le_refl _)
  | cons s segs ih =>
    intro d n m r rest h
    cases d with
    | link c =>
      simp only [localIpld] at h
      split at h <;> cases h <;> omega
    | map mp =>
      simp only [localIpld] at h
      split at h
      · cases h
      · have := ih h; omega
    | list l =>
      simp only [localIpld] at h
      split at h
      · cases h
      · split at h
        · have := ih h; omega
        · cases h
    | _ => simp [localIpld] at h

/-- The document and the segment an error reports. -/
def reported : RawErr → Option (Cid × Nat)
  | .outOfRange c s _ _ => some (c, s)
  | .invalidIndex c s => some (c, s)
  | .noLinks c s => some (c, s)
  | .notFound c s => some (c, s)
  | _ => none

theorem reported_addStart (e : RawErr) (n : Nat) : reported (e.addStart n) = (reported e).map (fun x => (x.1, x.2 + n)) := by
  cases e <;> rfl

/-- No step can be taken. -/
def Stuck (G : Graph) (N : Bytes → Bytes → Cid → Prop) (p : Pos) (segs : List Bytes) : Prop :=
  ∀ q rest, ¬ Taking G N p segs q rest

theorem localIpld_error (G : Graph) (N : Bytes → Bytes → Cid → Prop) {doc : Cid} {segs : List Bytes} :
    ∀ {d : Ipld} {n : Nat} {e : RawErr}, localIpld doc d segs n = .error e →
    ∃ d' s rest k, Steps (Inside G) (.value doc d) segs (.value doc d') (s :: rest) ∧
      reported e = some (doc, k) ∧ k + (s :: rest).length = n + segs.length ∧
      Stuck G N (.value doc d') (s :: rest) := by
  induction segs with
  | nil => intro d n e h; cases d <;> simp [localIpld] at h
  | cons s segs ih =>
    intro d n e h
    have none_of : (∀ c, d ≠ .link c) → (∀ m, d = .map m → AMap.get m s = none) →
        (∀ l, d = .list l → ∀ i, parseU64 s = some i → l[i]? = none) → Stuck G N (.value doc d) (s :: segs) := by
      intro h1 h2 h3 q rest hq
      rcases hq with hq | hq
      · cases hq with
        | key hk => rw [h2 _ rfl] at hk; cases hk
        | index hi hl => rw [h3 _ rfl _ hi] at hl; cases hl
      · cases hq with
        | link => exact h1 _ rfl
        | dot => exact h1 _ rfl
    cases d with
    | link c => simp only [localIpld] at h; split at h <;> cases h
    | map mp =>
      simp only [localIpld] at h
      split at h
      · rename_i hf
        simp only [Except.error.injEq] at h
        subst h
        refine ⟨_, _, _, n, .refl, rfl, rfl, none_of (by intro c hc; cases hc) ?_ (by intro l hl; cases hl)⟩
        intro m hm; cases hm; exact hf
      · rename_i found hf
        obtain ⟨d', s', rest, k, h1, h2, h3, h4⟩ := ih h
        exact ⟨d', s', rest, k, .step (.key hf) h1, h2, by simp at h3 ⊢; omega, h4⟩
    | list l =>
      simp only [localIpld] at h
      split at h
      · rename_i hi
        simp only [Except.error.injEq] at h
        subst h
        refine ⟨_, _, _, n, .refl, rfl, rfl, none_of (by intro c hc; cases hc) (by intro m hm; cases hm) ?_⟩
        intro l hl i hi'; rw [hi] at hi'; cases hi'
      · rename_i i hi
        split at h
        · rename_i found hf
          obtain ⟨d', s', rest, k, h1, h2, h3, h4⟩ := ih h
          exact ⟨d', s', rest, k, .step (.index hi hf) h1, h2, by simp at h3 ⊢; omega, h4⟩
        · rename_i hf
          simp only [Except.error.injEq] at h
          subst h
          refine ⟨_, _, _, n, .refl, rfl, rfl, none_of (by intro c hc; cases hc) (by intro m hm; cases hm) ?_⟩
          intro l hl i' hi'; cases hl; rw [hi] at hi'; cases hi'; exact hf
    | _ =>
      simp only [localIpld, Except.error.injEq] at h
      subst h
      exact ⟨_, _, _, n, .refl, rfl, rfl, none_of (by intro c hc; cases hc) (by intro m hm; cases hm)
        (by intro l hl; cases hl)⟩

theorem resolveLocal_ok (G : Graph) {c : Cid} {data : Bytes} {segs rest : List Bytes} {r : Local} {m : Nat}
    (hf : G.fetch c = some data) (h : resolveLocal G.env G.size c data segs = .ok (r, m, rest)) :
    (∃ dest pos mid, r = .complete (.link c dest) ∧ Steps (Inside G) (.doc c) segs pos mid ∧ pos.cid = c ∧
      Cross G (NamedOp G.fetch) pos mid (.doc dest) rest ∧ m + rest.length = segs.length) ∨
    (∃ node pos mid, r = .complete node ∧ (∀ a b, node ≠ .link a b) ∧ Steps (Inside G) (.doc c) segs pos mid ∧
      pos.cid = c ∧ Ends G pos mid node) ∨
    (∃ needle q, r = .incomplete c needle q ∧ segs = needle :: rest ∧ m = 0 ∧ c.codec = codecDagPb ∧
      dirResolve data needle = .ok (.more q)) := by
  cases segs with
  | nil =>
    simp only [resolveLocal, Except.ok.injEq, Prod.mk.injEq] at h
    obtain ⟨rfl, rfl, rfl⟩ := h
    exact Or.inr (Or.inl ⟨_, _, _, rfl, by intro a b h; (cases h), .refl, rfl, .block hf⟩)
  | cons s segs =>
    simp only [resolveLocal] at h
    split at h
    · rename_i hc
      split at h
      · cases h
      · rename_i r' n' hl
        simp only [Except.ok.injEq, Prod.mk.injEq] at h
        obtain ⟨rfl, rfl, rfl⟩ := h
        unfold localDagPb at hl
        split at hl
        · rename_i q hd
          simp only [Except.ok.injEq, Prod.mk.injEq] at hl
          obtain ⟨rfl, rfl⟩ := hl
          exact Or.inr (Or.inr ⟨s, q, rfl, rfl, rfl, hc, hd⟩)
        · rename_i dest hd
          simp only [Except.ok.injEq, Prod.mk.injEq] at hl
          obtain ⟨rfl, rfl⟩ := hl
          exact Or.inl ⟨dest, _, _, rfl, .refl, rfl,
            .named hf hc ⟨0, by simp [hamtLookup, hd]⟩, by simp; omega⟩
        · rename_i hd
          split at hl
          · rename_i hlast
            split at hl
            · cases hl
            · rename_i d hw
              simp only [Except.ok.injEq, Prod.mk.injEq] at hl
              obtain ⟨rfl, rfl⟩ := hl
              obtain ⟨rfl, h2⟩ := hlast
              have : segs = [] := by simpa using h2
              subst this
              exact Or.inr (Or.inl ⟨_, _, _, rfl, by intro a b h; (cases h), .refl, rfl, .data hf hc hd hw⟩)
          · cases hl
        · split at hl <;> cases hl
        · cases hl
        · cases hl
    · rename_i hc
      split at h
      · cases h
      · rename_i d hd
        obtain ⟨h1, d', mid, h2, h3⟩ := localIpld_ok G (NamedOp G.fetch) h
        have hs : Steps (Inside G) (.doc c) (s :: segs) (.value c d') mid := .step (.enter hf hc hd) h2
        rcases h3 with ⟨dest, rfl, h3⟩ | ⟨rfl, h3⟩
        · exact Or.inl ⟨dest, _, _, rfl, hs, rfl, h3, by omega⟩
        · exact Or.inr (Or.inl ⟨_, _, _, rfl, by intro a b h; (cases h), hs, rfl, h3⟩)

theorem resolveLocal_error (G : Graph) {c : Cid} {data : Bytes} {segs : List Bytes} {e : RawErr} {c' : Cid} {k : Nat}
    (hf : G.fetch c = some data) (hne : ∀ s ∈ segs, s ≠ [])
    (h : resolveLocal G.env G.size c data segs = .error e) (hr : reported e = some (c', k)) :
    c' = c ∧ ∃ pos s rest, Steps (Inside G) (.doc c) segs pos (s :: rest) ∧ pos.cid = c ∧
      k + (s :: rest).length = segs.length ∧ Stuck G (Named G.fetch) pos (s :: rest) := by
  cases segs with
  | nil => simp [resolveLocal] at h
  | cons s segs =>
    simp only [resolveLocal] at h
    split at h
    · rename_i hc
      have stuck : (dirResolve data s = .ok .notFound ∨ ∃ t, dirResolve data s = .error (.unexpectedType t)) →
          Stuck G (Named G.fetch) (.doc c) (s :: segs) := by
        intro hd q rest hq
        rcases hq with hq | hq
        · cases hq with
          | enter _ hcc _ => exact hcc hc
        · cases hq with
          | named hf' _ hn =>
            rw [hf] at hf'
            simp only [Option.some.injEq] at hf'
            subst hf'
            exact not_named (hne s (by simp)) hd hn
      split at h
      · rename_i x hl
        simp only [Except.error.injEq] at h
        subst h
        unfold localDagPb at hl
        split at hl
        · cases hl
        · cases hl
        · rename_i hd
          split at hl
          · split at hl
            · simp only [Except.error.injEq] at hl; subst hl; cases hr
            · cases hl
          · simp only [Except.error.injEq] at hl
            subst hl
            simp only [reported, Option.some.injEq, Prod.mk.injEq] at hr
            obtain ⟨rfl, rfl⟩ := hr
            exact ⟨rfl, _, s, segs, .refl, rfl, by simp, stuck (Or.inl hd)⟩
        · rename_i t hd
          split at hl
          · simp only [Except.error.injEq] at hl
            subst hl
            simp only [reported, Option.some.injEq, Prod.mk.injEq] at hr
            obtain ⟨rfl, rfl⟩ := hr
            exact ⟨rfl, _, s, segs, .refl, rfl, by simp, stuck (Or.inr ⟨t, hd⟩)⟩
          · simp only [Except.error.injEq] at hl; subst hl; cases hr
        · simp only [Except.error.injEq] at hl; subst hl; cases hr
        · simp only [Except.error.injEq] at hl; subst hl; cases hr
      · cases h
    · rename_i hc
      split at h
      · simp only [Except.error.injEq] at h; subst h; cases hr
      · rename_i d hd
        obtain ⟨d', s', rest, k', h1, h2, h3, h4⟩ := localIpld_error G (Named G.fetch) h
        rw [h2] at hr
        simp only [Option.some.injEq, Prod.mk.injEq] at hr
        obtain ⟨rfl, rfl⟩ := hr
        exact ⟨rfl, _, s', rest, .step (.enter hf hc hd) h1, rfl, by omega, h4⟩

/-- No directory needs more than one bucket to be looked at. -/
def NoShards (G : Graph) : Prop := ∀ c b s q, G.fetch c = some b → dirResolve b s ≠ .ok (.more q)

theorem incomplete_op {fetch : Cid → Option Bytes} {data needle : Bytes} {q : List Cid} {fuel : Nat} {dest : Cid}
    (hd : dirResolve data needle = .ok (.more q)) (hf : feed fetch needle fuel q = .found dest) :
    NamedOp fetch data needle dest := ⟨fuel, by simp [hamtLookup, hd, hf]⟩

theorem Cross.toNamed {G : Graph} {p q : Pos} {a b : List Bytes} (hne : ∀ s ∈ a, s ≠ [])
    (h : Cross G (NamedOp G.fetch) p a q b) : Cross G (Named G.fetch) p a q b := by
  cases h with
  | link h => exact .link h
  | dot => exact .dot
  | named h1 h2 h3 => exact .named h1 h2 (Named.of_op (hne _ (by simp)) h3)

theorem suffix_ne {a b pre : List Bytes} (hne : ∀ s ∈ a, s ≠ []) (h : a = pre ++ b) : ∀ s ∈ b, s ≠ [] :=
  fun s hs => hne s (by rw [h]; simp [hs])

/-- Following links: the steps up to the last document, and inside of it. -/
theorem resolve0_follow (G : Graph) {fuel : Nat} :
    ∀ {c : Cid} {segs : List Bytes} {total : Nat} {node : Node} {n : Nat}, (∀ s ∈ segs, s ≠ []) →
    resolve0 G.env G.size G.fetch true fuel c segs total = some (.ok (node, n)) →
    ∃ c' mid pos last, Steps (Taking G (Named G.fetch)) (.doc c) segs (.doc c') mid ∧
      Steps (Inside G) (.doc c') mid pos last ∧ pos.cid = c' ∧ Ends G pos last node ∧
      n + mid.length ≤ total + segs.length ∧ (NoShards G → n + mid.length = total + segs.length) := by
  induction fuel with
  | zero => intro c segs total node n _ h; simp [resolve0] at h
  | succ fuel ih =>
    intro c segs total node n hne h
    simp only [resolve0] at h
    split at h
    · cases h
    · rename_i data hf
      split at h
      · cases h
      · rename_i src dest matched rest hl
        rcases resolveLocal_ok G hf hl with ⟨dest', pos, mid, he, h1, h2, h3, h4⟩ | ⟨node', pos, mid, he, h1, _⟩ | ⟨_, _, he, _⟩
        · cases he
          simp only [if_true] at h
          obtain ⟨pre, hpre⟩ := h1.suffix (fun _ _ _ _ h => h.suffix)
          have hmid := suffix_ne hne hpre
          obtain ⟨pre', hpre'⟩ := h3.suffix
          have hrest := suffix_ne hmid hpre'
          obtain ⟨c', mid', pos', last, g1, g2, g3, g4, g6, g5⟩ := ih hrest h
          refine ⟨c', mid', pos', last, ?_, g2, g3, g4, by omega, ?_⟩
          · exact h1.inside.trans (.step (Or.inr (h3.toNamed hmid)) g1)
          · intro hns; have := g5 hns; omega
        · exact absurd (by simpa using he.symm) (h1 src dest)
        · cases he
      · rename_i src needle q matched rest hl
        rcases resolveLocal_ok G hf hl with ⟨dest', pos, mid, he, _⟩ | ⟨node', pos, mid, he, _⟩ | ⟨needle', q', he, rfl, rfl, hc, hd⟩
        · cases he
        · cases he
        · cases he
          split at h
          · rename_i dest hfeed
            simp only [if_true] at h
            have hop := incomplete_op hd hfeed
            obtain ⟨c', mid', pos', last, g1, g2, g3, g4, g6, g5⟩ := ih (fun s hs => hne s (by simp [hs])) h
            refine ⟨c', mid', pos', last, ?_, g2, g3, g4, by simp only [List.length_cons]; omega, ?_⟩
            · exact .step (Or.inr (.named hf hc (Named.of_op (hne _ (by simp)) hop))) g1
            · intro hns; exact absurd hd (hns c data _ q hf)
          · cases h
          · cases h
          · cases h
      · rename_i other matched rest hnl hl
        simp only [Option.some.injEq, Except.ok.injEq, Prod.mk.injEq] at h
        obtain ⟨rfl, rfl⟩ := h
        rcases resolveLocal_ok G hf hl with ⟨dest', pos, mid, he, _⟩ | ⟨node', pos, mid, he, h1, h2, h3, h4⟩ | ⟨needle', q', he, _⟩
        · cases he; exact absurd rfl (hnl _ _)
        · cases he
          exact ⟨c, segs, pos, mid, .refl, h2, h3, h4, Nat.le_refl _, fun _ => rfl⟩
        · cases he

/-! ### C20 -/

/-- **C20**: with links followed, the node a path resolves to is one reached by taking the segments one at
a time, crossing every link met; the path reported beside it is the part inside of the last document —
if no sharded directory with several buckets was passed, as those are counted wrongly. -/
theorem C20_follow (G : Graph) (fuel : Nat) (c : Cid) (path rem : List Bytes) (node : Node)
    (hne : ∀ s ∈ path, s ≠ [])
    (h : dagResolve G.env G.size G.fetch true fuel c path = some (.ok (node, rem))) :
    ∃ c' mid pos last, Steps (Taking G (Named G.fetch)) (.doc c) path (.doc c') mid ∧
      Steps (Inside G) (.doc c') mid pos last ∧ pos.cid = c' ∧ Ends G pos last node ∧
      (NoShards G → rem = mid) := by
  simp only [dagResolve] at h
  split at h
  · cases h
  · cases h
  · rename_i node' n h0
    split at h
    · rename_i rest hs
      simp only [Option.some.injEq, Except.ok.injEq, Prod.mk.injEq] at h
      obtain ⟨rfl, rfl⟩ := h
      obtain ⟨c', mid, pos, last, h1, h2, h3, h4, _, h5⟩ := resolve0_follow G hne h0
      refine ⟨c', mid, pos, last, h1, h2, h3, h4, ?_⟩
      intro hns
      have hn := h5 hns
      obtain ⟨pre, hpre⟩ := h1.suffix (fun _ _ _ _ h => h.suffix)
      simp only [IpfsPath.shifted] at hs
      split at hs
      · simp only [Option.some.injEq] at hs
        rw [← hs, hpre]
        have : n = pre.length := by
          have := congrArg List.length hpre
          simp only [List.length_append] at this
          omega
        simp [this]
      · cases hs
    · cases h

/-- **C20**: without following links, resolving stops at the first link met, and the path reported beside
it is the part not yet taken (if the directory was not a sharded one with several buckets). -/
theorem C20_stop_partial (G : Graph) (fuel : Nat) (c : Cid) (path rem : List Bytes) (src dest : Cid)
    (hne : ∀ s ∈ path, s ≠ [])
    (h : dagResolve G.env G.size G.fetch false fuel c path = some (.ok (.link src dest, rem))) :
    src = c ∧ ∃ pos mid rest, Steps (Inside G) (.doc c) path pos mid ∧ pos.cid = c ∧
      Cross G (Named G.fetch) pos mid (.doc dest) rest ∧ (NoShards G → rem = rest) := by
  cases fuel with
  | zero => simp [dagResolve, resolve0] at h
  | succ fuel =>
    simp only [dagResolve] at h
    split at h
    · cases h
    · cases h
    · rename_i node n h0
      split at h
      · rename_i rem' hs
        simp only [Option.some.injEq, Except.ok.injEq, Prod.mk.injEq] at h
        obtain ⟨rfl, rfl⟩ := h
        have fin : ∀ rest, n + rest.length = path.length → (∃ pre, path = pre ++ rest) → rem' = rest := by
          rintro rest hn ⟨pre, hpre⟩
          simp only [IpfsPath.shifted] at hs
          split at hs
          · simp only [Option.some.injEq] at hs
            rw [← hs, hpre]
            have : n = pre.length := by
              have := congrArg List.length hpre
              simp only [List.length_append] at this
              omega
            simp [this]
          · cases hs
        simp only [resolve0] at h0
        split at h0
        · cases h0
        · rename_i data hf
          split at h0
          · cases h0
          · rename_i src' dest' matched rest hl
            rcases resolveLocal_ok G hf hl with ⟨d', pos, mid, he, h1, h2, h3, h4⟩ | ⟨node', pos, mid, he, h1, _⟩ | ⟨_, _, he, _⟩
            · cases he
              simp at h0
              obtain ⟨⟨rfl, rfl⟩, rfl⟩ := h0
              obtain ⟨pre, hpre⟩ := h1.suffix (fun _ _ _ _ h => h.suffix)
              obtain ⟨pre', hpre'⟩ := h3.suffix
              exact ⟨rfl, pos, mid, rest, h1, h2, h3.toNamed (suffix_ne hne hpre), fun _ =>
                fin rest h4 ⟨pre ++ pre', by rw [hpre, hpre', List.append_assoc]⟩⟩
            · exact absurd (by simpa using he.symm) (h1 src' dest')
            · cases he
          · rename_i src' needle q matched rest hl
            rcases resolveLocal_ok G hf hl with ⟨dest', pos, mid, he, _⟩ | ⟨node', pos, mid, he, _⟩ | ⟨needle', q', he, rfl, rfl, hc, hd⟩
            · cases he
            · cases he
            · cases he
              split at h0
              · rename_i dest' hfeed
                simp at h0
                obtain ⟨⟨rfl, rfl⟩, rfl⟩ := h0
                exact ⟨rfl, _, _, rest, .refl, rfl,
                  .named hf hc (Named.of_op (hne _ (by simp)) (incomplete_op hd hfeed)),
                  fun hns => absurd hd (hns c data _ q hf)⟩
              · cases h0
              · cases h0
              · cases h0
          · rename_i other matched rest hnl hl
            simp only [Option.some.injEq, Except.ok.injEq, Prod.mk.injEq] at h0
            obtain ⟨rfl, rfl⟩ := h0
            exact absurd rfl (hnl _ _)
      · cases h

theorem resolve0_error (G : Graph) {fuel : Nat} {follow : Bool} (hns : NoShards G) :
    ∀ {c : Cid} {segs : List Bytes} {total : Nat} {e : RawErr} {c' : Cid} {k : Nat}, (∀ s ∈ segs, s ≠ []) →
    resolve0 G.env G.size G.fetch follow fuel c segs total = some (.error e) → reported e = some (c', k) →
    ∃ pos s rest, Steps (Taking G (Named G.fetch)) (.doc c) segs pos (s :: rest) ∧ pos.cid = c' ∧
      k + (s :: rest).length = total + segs.length ∧ Stuck G (Named G.fetch) pos (s :: rest) := by
  induction fuel with
  | zero => intro c segs total e c' k _ h; simp [resolve0] at h
  | succ fuel ih =>
    intro c segs total e c' k hne h hr
    simp only [resolve0] at h
    split at h
    · simp only [Option.some.injEq, Except.error.injEq] at h; subst h; cases hr
    · rename_i data hf
      split at h
      · rename_i x hl
        simp only [Option.some.injEq, Except.error.injEq] at h
        subst h
        rw [reported_addStart] at hr
        cases hx : reported x with
        | none => rw [hx] at hr; cases hr
        | some y =>
          obtain ⟨c0, k0⟩ := y
          rw [hx] at hr
          simp only [Option.map_some, Option.some.injEq, Prod.mk.injEq] at hr
          obtain ⟨rfl, rfl⟩ := hr
          obtain ⟨rfl, pos, s, rest, h1, h2, h3, h4⟩ := resolveLocal_error G hf hne hl hx
          exact ⟨pos, s, rest, h1.inside, h2, by omega, h4⟩
      · rename_i src dest matched rest hl
        rcases resolveLocal_ok G hf hl with ⟨dest', pos, mid, he, h1, h2, h3, h4⟩ | ⟨node', pos, mid, he, h1, _⟩ | ⟨_, _, he, _⟩
        · cases he
          split at h
          · obtain ⟨pre, hpre⟩ := h1.suffix (fun _ _ _ _ h => h.suffix)
            have hmid := suffix_ne hne hpre
            obtain ⟨pre', hpre'⟩ := h3.suffix
            obtain ⟨pos', s, rest', g1, g2, g3, g4⟩ := ih (suffix_ne hmid hpre') h hr
            exact ⟨pos', s, rest', h1.inside.trans (.step (Or.inr (h3.toNamed hmid)) g1), g2, by omega, g4⟩
          · cases h
        · exact absurd (by simpa using he.symm) (h1 src dest)
        · cases he
      · rename_i src needle q matched rest hl
        rcases resolveLocal_ok G hf hl with ⟨dest', pos, mid, he, _⟩ | ⟨node', pos, mid, he, _⟩ | ⟨needle', q', he, rfl, rfl, hc, hd⟩
        · cases he
        · cases he
        · cases he; exact absurd hd (hns c data _ _ hf)
      · cases h

/-- The path an error reports. -/
def errPath : DagErr → Option (Cid × List Bytes)
  | .outOfRange c p _ _ => some (c, p)
  | .noLinks c p => some (c, p)
  | .notFound c p => some (c, p)
  | _ => none

/-- **C20**: when resolving fails at a segment, the path reported is the segments taken and the one that
could not be taken, in the document reported. -/
theorem C20_failure_partial (G : Graph) (fuel : Nat) (follow : Bool) (c c' : Cid) (path p : List Bytes) (e : DagErr)
    (hne : ∀ s ∈ path, s ≠ []) (hns : NoShards G)
    (h : dagResolve G.env G.size G.fetch follow fuel c path = some (.error e)) (he : errPath e = some (c', p)) :
    ∃ taken s rest pos, path = taken ++ s :: rest ∧ p = taken ++ [s] ∧
      Steps (Taking G (Named G.fetch)) (.doc c) path pos (s :: rest) ∧ pos.cid = c' ∧
      Stuck G (Named G.fetch) pos (s :: rest) := by
  simp only [dagResolve] at h
  split at h
  · cases h
  · rename_i x h0
    simp only [Option.some.injEq, Except.error.injEq] at h
    subst h
    have key : ∃ k, reported x = some (c', k) ∧ p = path.take (k + 1) := by
      cases x with
      | loading c => cases he
      | unsupported c => cases he
      | panic => cases he
      | outOfRange c s i n | invalidIndex c s | noLinks c s | notFound c s =>
        simp only [RawErr.withPath, truncOr, IpfsPath.truncated] at he
        split at he
        · rename_i l hl
          split at hl
          · simp only [errPath, Option.some.injEq, Prod.mk.injEq] at he hl
            exact ⟨s, by simp [reported, he.1], by rw [← he.2, ← hl]⟩
          · cases hl
        · cases he
    obtain ⟨k, hr, rfl⟩ := key
    obtain ⟨pos, s, rest, h1, h2, h3, h4⟩ := resolve0_error G hns hne h0 hr
    obtain ⟨pre, hpre⟩ := h1.suffix (fun _ _ _ _ h => h.suffix)
    refine ⟨pre, s, rest, pos, hpre, ?_, h1, h2, h4⟩
    have hk : k = pre.length := by
      have := congrArg List.length hpre
      simp only [List.length_append] at this
      omega
    rw [hpre, hk, List.take_append]
    simp [List.take_of_length_le]
  · split at h
    · cases h
    · simp only [Option.some.injEq, Except.error.injEq] at h; subst h; cases he

/-! ### The converse -/

theorem feed_le {fetch : Cid → Option Bytes} {name : Bytes} {fuel fuel' : Nat} {q : List Cid} {r : Lookup}
    (h : feed fetch name fuel q = r) (hr : r ≠ .running) (hle : fuel ≤ fuel') : feed fetch name fuel' q = r := by
  induction fuel generalizing q fuel' with
  | zero => simp only [feed] at h; exact absurd h.symm hr
  | succ fuel ih =>
    cases fuel' with
    | zero => omega
    | succ fuel' =>
      cases q with
      | nil => simpa [feed] using h
      | cons c q =>
        simp only [feed] at h ⊢
        split
        · rename_i hf; simpa [hf] using h
        · rename_i block hf
          simp only [hf] at h
          split
          · rename_i hw; simpa [hw] using h
          · rename_i hw; simpa [hw] using h
          · rename_i hw; simpa [hw] using h
          · rename_i q' hw
            simp only [hw] at h
            exact ih h (by omega)

theorem resolve0_le {e : Env} {size : Nat} {fetch : Cid → Option Bytes} {follow : Bool} {fuel fuel' : Nat} {c : Cid}
    {segs : List Bytes} {total : Nat} {r : Except RawErr (Node × Nat)}
    (h : resolve0 e size fetch follow fuel c segs total = some r) (hle : fuel ≤ fuel') :
    resolve0 e size fetch follow fuel' c segs total = some r := by
  induction fuel generalizing fuel' c segs total with
  | zero => simp [resolve0] at h
  | succ fuel ih =>
    cases fuel' with
    | zero => omega
    | succ fuel' =>
      simp only [resolve0] at h ⊢
      split
      · rename_i hf; simpa [hf] using h
      · rename_i data hf
        simp only [hf] at h
        split
        · rename_i hl; simpa [hl] using h
        · rename_i hl
          simp only [hl] at h
          split
          · rename_i hfo; simp only [hfo, if_true] at h ih ⊢; exact ih h (by omega)
          · rename_i hfo; simpa [hfo] using h
        · rename_i src needle q matched rest hl
          simp only [hl] at h
          cases hfe : feed fetch needle fuel q with
          | running => rw [hfe] at h; cases h
          | found dest =>
            rw [hfe] at h
            rw [feed_le hfe (by simp) (show fuel ≤ fuel' by omega)]
            simp only at h ⊢
            split
            · rename_i hfo; simp only [hfo, if_true] at h ih ⊢; exact ih h (by omega)
            · rename_i hfo; simpa [hfo] using h
          | notFound =>
            rw [hfe] at h; rw [feed_le hfe (by simp) (show fuel ≤ fuel' by omega)]; exact h
          | missing x =>
            rw [hfe] at h; rw [feed_le hfe (by simp) (show fuel ≤ fuel' by omega)]; exact h
          | failed x =>
            rw [hfe] at h; rw [feed_le hfe (by simp) (show fuel ≤ fuel' by omega)]
            cases x with
            | lookup x => cases x <;> exact h
            | _ => exact h
        · rename_i other matched rest hnl hl
          simp only [hl] at h
          cases other with
          | link a b => exact absurd rfl (hnl a b)
          | _ => exact h

/-- Resolving from the place gives the node. -/
def Gives (G : Graph) (node : Node) : Pos → List Bytes → Prop
  | .doc c, segs => ∀ total, ∃ fuel n, resolve0 G.env G.size G.fetch true fuel c segs total = some (.ok (node, n))
  | .value c d, segs => ∀ k,
      (∃ m rest, localIpld c d segs k = .ok (.complete node, m, rest)) ∨
      (∃ dest m rest, localIpld c d segs k = .ok (.complete (.link c dest), m, rest) ∧
        ∀ total, ∃ fuel n, resolve0 G.env G.size G.fetch true fuel dest rest total = some (.ok (node, n)))

theorem Ends.not_link {G : Graph} {p : Pos} {segs : List Bytes} {node : Node} (h : Ends G p segs node) :
    ∀ a b, node ≠ .link a b := by
  intro a b hn
  subst hn
  cases h

theorem Ends.gives {G : Graph} {p : Pos} {segs : List Bytes} {node : Node} (h : Ends G p segs node) :
    Gives G node p segs := by
  cases h with
  | block hf => exact fun total => ⟨1, total, by simp [resolve0, hf, resolveLocal]⟩
  | @value c d hd =>
    intro k
    refine Or.inl ⟨k, [], ?_⟩
    cases d with
    | link c' => exact absurd rfl (hd c')
    | _ => rfl
  | data hf hc hd hw =>
    exact fun total => ⟨1, total, by simp [resolve0, hf, resolveLocal, hc, localDagPb, hd, hw]⟩

theorem Taking.gives {G : Graph} {p q : Pos} {segs rest : List Bytes} {node : Node} (hnode : ∀ a b, node ≠ .link a b)
    (h : Taking G (NamedOp G.fetch) p segs q rest) (hq : Gives G node q rest) : Gives G node p segs := by
  rcases h with h | h
  · cases h with
    | @enter c data d s segs hf hc hd =>
      intro total
      rcases hq 0 with ⟨m, rest, hl⟩ | ⟨dest, m, rest, hl, hr⟩
      · refine ⟨1, total, ?_⟩
        simp only [resolve0, hf, resolveLocal, hc, if_false, hd, hl]
      · obtain ⟨fuel, n, hr⟩ := hr (total + m)
        exact ⟨fuel + 1, n, by simp [resolve0, hf, resolveLocal, hc, hd, hl, hr]⟩
    | key hk => intro k; simp only [localIpld, hk]; exact hq (k + 1)
    | index hi hd => intro k; simp only [localIpld, hi, hd]; exact hq (k + 1)
  · cases h with
    | @link c dest segs hs =>
      intro k
      refine Or.inr ⟨dest, k, segs, ?_, hq⟩
      cases segs with
      | nil => rfl
      | cons s segs =>
        have : s ≠ sDot := by simpa using hs
        simp [localIpld, this]
    | @dot c dest segs => exact fun k => Or.inr ⟨dest, k + 1, rest, by simp [localIpld], hq⟩
    | @named c data s dest segs hf hc hn =>
      intro total
      obtain ⟨fuel, hn⟩ := hn
      unfold hamtLookup at hn
      split at hn
      · cases hn
      · rename_i hd
        simp only [Lookup.found.injEq] at hn
        subst hn
        obtain ⟨fuel', n, hr⟩ := hq (total + 1)
        exact ⟨fuel' + 1, n, by simp [resolve0, hf, resolveLocal, hc, localDagPb, hd, hr]⟩
      · cases hn
      · rename_i queue hd
        obtain ⟨fuel', n, hr⟩ := hq total
        refine ⟨max fuel fuel' + 1, n, ?_⟩
        have h1 := feed_le hn (by simp) (Nat.le_max_left fuel fuel')
        have h2 := resolve0_le hr (Nat.le_max_right fuel fuel')
        simp [resolve0, hf, resolveLocal, hc, localDagPb, hd, h1, h2]

/-- **C20**, the converse: a node that is reached by taking the segments one at a time is what the path
resolves to. (`NamedOp.of_plain` and `NamedOp.of_shard` tell when the code finds a name.) -/
theorem C20_reached (G : Graph) (c : Cid) (path last : List Bytes) (pos : Pos) (node : Node)
    (hne : ∀ s ∈ path, s ≠ []) (hs : Steps (Taking G (NamedOp G.fetch)) (.doc c) path pos last)
    (he : Ends G pos last node) :
    ∃ fuel0, ∀ fuel, fuel0 ≤ fuel → ∃ rem, dagResolve G.env G.size G.fetch true fuel c path = some (.ok (node, rem)) := by
  have hg : Gives G node (.doc c) path := by
    generalize Pos.doc c = p at hs
    induction hs with
    | refl => exact he.gives
    | step h _ ih =>
      obtain ⟨pre, hpre⟩ := Taking.suffix h
      exact h.gives he.not_link (ih (suffix_ne hne hpre) he)
  obtain ⟨fuel0, n, h0⟩ := hg 0
  refine ⟨fuel0, fun fuel hle => ?_⟩
  have h1 := resolve0_le h0 hle
  obtain ⟨c', mid, pos, last, -, -, -, -, hle', -⟩ := resolve0_follow G hne h1
  refine ⟨path.drop n, ?_⟩
  simp only [dagResolve, h1, IpfsPath.shifted]
  rw [if_pos (by omega)]

/-- **C20**: resolving comes to an end, if chains of documents that are nothing but a link do, and lookups
in sharded directories do (`C15_ends`). -/
theorem C20_terminates (G : Graph) (follow : Bool) (rank : Cid → Nat)
    (hrank : ∀ c data c', G.fetch c = some data → c.codec ≠ codecDagPb →
      decodeIpld G.env G.size c data = .ok (.link c') → rank c' < rank c)
    (hshard : ∀ c data s q, G.fetch c = some data → dirResolve data s = .ok (.more q) →
      ∃ fuel, feed G.fetch s fuel q ≠ .running) (c : Cid) (path : List Bytes) :
    ∃ fuel r, dagResolve G.env G.size G.fetch follow fuel c path = some r := by
  have key : ∀ n r (c : Cid) (segs : List Bytes), segs.length = n → rank c = r → ∀ total,
      ∃ fuel x, resolve0 G.env G.size G.fetch follow fuel c segs total = some x := by
    intro n
    induction n using Nat.strongRecOn with
    | ind n ihn =>
      intro r
      induction r using Nat.strongRecOn with
      | ind r ihr =>
        intro c segs hn hrk total
        cases hf : G.fetch c with
        | none => exact ⟨1, _, by simp [resolve0, hf]; rfl⟩
        | some data =>
          cases hl : resolveLocal G.env G.size c data segs with
          | error e => exact ⟨1, _, by simp [resolve0, hf, hl]; rfl⟩
          | ok res =>
            obtain ⟨loc, m, rest⟩ := res
            -- the next block
            have next : ∀ dest, (rest.length < segs.length ∨ segs = [] ∨ (rest.length = segs.length ∧ rank dest < rank c)) →
                segs ≠ [] → ∃ fuel x, resolve0 G.env G.size G.fetch follow fuel dest rest (total + m) = some x := by
              intro dest hlt hsegs
              rcases hlt with hlt | hlt | ⟨h1, h2⟩
              · exact ihn rest.length (by omega) (rank dest) dest rest rfl rfl (total + m)
              · exact absurd hlt hsegs
              · exact ihr (rank dest) (by omega) dest rest (by omega) rfl (total + m)
            rcases resolveLocal_ok G hf hl with ⟨dest, pos, mid, rfl, h1, h2, h3, h4⟩ | ⟨node, pos, mid, rfl, h1, _⟩ | ⟨needle, q, rfl, rfl, rfl, hc, hd⟩
            · have hsegs : segs ≠ [] := by
                rintro rfl
                simp [resolveLocal] at hl
              have hlt : rest.length < segs.length ∨ segs = [] ∨ (rest.length = segs.length ∧ rank dest < rank c) := by
                by_cases hm : m = 0
                · subst hm
                  refine Or.inr (Or.inr ⟨by omega, ?_⟩)
                  cases segs with
                  | nil => exact absurd rfl hsegs
                  | cons s segs =>
                    simp only [resolveLocal] at hl
                    split at hl
                    · split at hl
                      · cases hl
                      · rename_i r' n' hlp
                        simp only [Except.ok.injEq, Prod.mk.injEq] at hl
                        obtain ⟨rfl, rfl, rfl⟩ := hl
                        unfold localDagPb at hlp
                        split at hlp
                        · cases hlp
                        · cases hlp
                        · split at hlp
                          · split at hlp <;> cases hlp
                          · cases hlp
                        · split at hlp <;> cases hlp
                        · cases hlp
                        · cases hlp
                    · rename_i hc
                      split at hl
                      · cases hl
                      · rename_i d hd
                        cases d with
                        | link c' =>
                          simp only [localIpld] at hl
                          split at hl
                          · cases hl
                          · cases hl
                            exact hrank c data _ hf hc hd
                        | map mp =>
                          simp only [localIpld] at hl
                          split at hl
                          · cases hl
                          · have := localIpld_ge hl
                            omega
                        | list l =>
                          simp only [localIpld] at hl
                          split at hl
                          · cases hl
                          · split at hl
                            · have := localIpld_ge hl
                              omega
                            · cases hl
                        | _ => simp [localIpld] at hl
                · exact Or.inl (by omega)
              cases follow with
              | false => exact ⟨1, _, by simp [resolve0, hf, hl]; rfl⟩
              | true =>
                obtain ⟨fuel, x, hx⟩ := next dest hlt hsegs
                exact ⟨fuel + 1, x, by simp [resolve0, hf, hl, hx]⟩
            · refine ⟨1, .ok (node, total), ?_⟩
              simp only [resolve0, hf, hl]
            · obtain ⟨fuel, hfe⟩ := hshard c data needle q hf hd
              cases hfd : feed G.fetch needle fuel q with
              | running => exact absurd hfd hfe
              | found dest =>
                cases follow with
                | false => exact ⟨fuel + 1, _, by simp [resolve0, hf, hl, hfd]; rfl⟩
                | true =>
                  obtain ⟨fuel', x, hx⟩ := next dest (Or.inl (by simp)) (by simp)
                  refine ⟨max fuel fuel' + 1, x, ?_⟩
                  have h1 := feed_le hfd (by simp) (Nat.le_max_left fuel fuel')
                  have h2 := resolve0_le hx (Nat.le_max_right fuel fuel')
                  simp only [Nat.add_zero] at h2
                  simp [resolve0, hf, hl, h1, h2]
              | notFound => exact ⟨fuel + 1, _, by simp [resolve0, hf, hl, hfd]; rfl⟩
              | missing x => exact ⟨fuel + 1, _, by simp [resolve0, hf, hl, hfd]; rfl⟩
              | failed x =>
                by_cases hx : x = .lookup .panic
                · subst hx; exact ⟨fuel + 1, _, by simp [resolve0, hf, hl, hfd]; rfl⟩
                · refine ⟨fuel + 1, .error (.unsupported c), ?_⟩
                  simp only [resolve0, hf, hl, hfd]
                  split
                  · rename_i heq; cases heq
                  · rename_i heq; cases heq
                  · rename_i heq; simp only [Lookup.failed.injEq] at heq; exact absurd heq hx
                  · rfl
  obtain ⟨fuel, x, hx⟩ := key _ _ c path rfl rfl 0
  refine ⟨fuel, ?_⟩
  simp only [dagResolve, hx]
  cases x with
  | error e => exact ⟨_, rfl⟩
  | ok y =>
    obtain ⟨node, n⟩ := y
    simp only []
    split <;> exact ⟨_, rfl⟩

/-- **C20**: getting a document by a path gives the document, projection or data of such a node. -/
theorem C20_get (G : Graph) (fuel : Nat) (c : Cid) (path : List Bytes) (d : Ipld) (hne : ∀ s ∈ path, s ≠ [])
    (h : dagGet G.env G.size G.fetch fuel c path = some (.ok d)) :
    ∃ node pos last, Steps (Taking G (Named G.fetch)) (.doc c) path pos last ∧ Ends G pos last node ∧
      node.toIpld G.env G.size = .ok d := by
  simp only [dagGet] at h
  split at h
  · cases h
  · cases h
  · rename_i node n h0
    simp only [Option.some.injEq] at h
    obtain ⟨c', mid, pos, last, h1, h2, h3, h4, -⟩ := resolve0_follow G hne h0
    exact ⟨node, pos, last, h1.trans h2.inside, h4, h⟩

/-! ### Examples -/

def exCidA : Cid := ⟨.v1, codecDagCbor, mhSha256, List.replicate 32 7⟩
def exCidB : Cid := ⟨.v1, codecDagCbor, mhSha256, List.replicate 32 8⟩

/-- `{"a": [1, link to B]}`. -/
def exDocA : Ipld := .map [([97], .list [.int 1, .link exCidB])]
/-- `{"b": 2}`. -/
def exDocB : Ipld := .map [([98], .int 2)]

def exDirCid : Cid := Cid.v0 (List.replicate 32 9)

/-- Two documents, one linking to the other, and a sharded directory of two buckets (of `HamtLookup`). -/
def exGraph : Graph where
  env := { hash := fun _ _ => [], jsonEnc := fun _ => none, jsonDec := fun _ => none }
  size := 4096
  fetch := fun c =>
    if c = exCidA then enc exDocA
    else if c = exCidB then enc exDocB
    else if c = exDirCid then some exShard
    else if c = Cid.v0 (List.replicate 32 2) then some exInner
    else if c = Cid.v0 (List.replicate 32 3) then some (Flat.write ⟨[], { type := .file, data := some [1] }⟩)
    else none

/-- `a/1/b` is the number in the other document, and `b` is the part of the path inside of it. -/
example : dagResolve exGraph.env exGraph.size exGraph.fetch true 3 exCidA [[97], [49], [98]] =
    some (.ok (.projection exCidB (.int 2), [[98]])) := by decide +kernel

/-- Not following the link, `b` remains. -/
example : dagResolve exGraph.env exGraph.size exGraph.fetch false 3 exCidA [[97], [49], [98]] =
    some (.ok (.link exCidA exCidB, [[98]])) := by decide +kernel

/-- `a/1/x/y` fails at `x`. -/
example : dagResolve exGraph.env exGraph.size exGraph.fetch true 3 exCidA [[97], [49], [120], [121]] =
    some (.error (.notFound exCidB [[97], [49], [120]])) := by decide +kernel

/-- A segment through a sharded directory with several buckets is not counted: not following links, the
segment already taken is reported as remaining. -/
theorem C20_shard_miscounted :
    dagResolve exGraph.env exGraph.size exGraph.fetch false 4 exDirCid ["name".toUTF8.toList, [120]] =
      some (.ok (.link exDirCid (Cid.v0 (List.replicate 32 3)), ["name".toUTF8.toList, [120]])) ∧
    dagResolve exGraph.env exGraph.size exGraph.fetch true 4 exDirCid ["name".toUTF8.toList, [120]] =
      some (.error (.notFound (Cid.v0 (List.replicate 32 3)) ["name".toUTF8.toList])) := by decide +kernel

end Verif.Props
