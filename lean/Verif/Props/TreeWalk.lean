import Verif.Props.DirResolve
import Verif.Unixfs.Symlink
import Verif.Unixfs.WalkLemmas

/-!
# C16: walking the tree made by the directory builder
-/

namespace Verif.Props

open Verif Verif.Unixfs

/-! ### Specification -/

/-- What is at a path. -/
inductive Seen where
  | directory
  | file (content : Bytes) (size : Nat) (m : Metadata)
  | symlink (target : Bytes) (m : Metadata)

/-- What the blocks of a leaf hold: a file that can be read, with the size and the metadata its first block
declares, or a symlink. -/
inductive LeafIs (fetch : Cid → Option Bytes) (c : Cid) : Seen → Prop where
  | file {block : Bytes} {fuel size : Nat} {chunks : List Bytes} {flat : Flat} : fetch c = some block →
      Flat.parse block = .ok flat → flat.data.filesize = some size →
      cat fetch none block fuel = (chunks, .done) → LeafIs fetch c (.file chunks.flatten size (Metadata.of flat.data))
  | symlink {block : Bytes} {flat : Flat} : fetch c = some block → Flat.parse block = .ok flat →
      flat.data.type = .symlink → LeafIs fetch c (.symlink (flat.data.data.getD []) (Metadata.of flat.data))

/-- What is reported shows one thing at one path: a file comes in one or more segments, only the first of
which is called the first, and only the last the last. -/
def Shows (root : Bool) (cid : Cid) (path : Bytes) (items : List WItem) : Seen → Prop
  | .directory => items = [if root then .rootDirectory cid path {} else .directory cid path {}]
  | .file content size m => ∃ segs, segs ≠ [] ∧ segs.flatten = content ∧ items = fileItems cid path m size true segs
  | .symlink target m => items = [.symlink target cid path m]

/-- Parents come before what is in them, and siblings in the order of their names. -/
inductive Before : List Bytes → List Bytes → Prop where
  | parent {q : List Bytes} {x : Bytes} {t : List Bytes} : Before q (q ++ x :: t)
  | sibling {q s t : List Bytes} {x y : Bytes} : blt x y = true → Before (q ++ x :: s) (q ++ y :: t)

/-! ### Helpers -/

theorem Before.cons {a b : List Bytes} (h : Before a b) (x : Bytes) : Before (x :: a) (x :: b) := by
  cases h with
  | @parent q y t => exact Before.parent (q := x :: a)
  | @sibling q s t y z h => exact Before.sibling (q := x :: q) h

theorem Before.ne {a b : List Bytes} (h : Before a b) : a ≠ b := by
  cases h with
  | @parent q y t => intro h; have := congrArg List.length h; simp at this
  | @sibling q s t y z h =>
    intro he
    have := List.append_cancel_left he
    simp only [List.cons.injEq] at this
    exact blt_ne h this.1

/-- The current entry is at a path or below it. -/
def AtW (w : Walker) (P : List Bytes) : Prop := ∃ e, w.current = some e ∧ At P e

theorem AtW.idle {w : Walker} {P : List Bytes} (h : AtW w P) : ∀ e, w.current = some e → e.kind.idle = true := by
  obtain ⟨e, he, ha⟩ := h
  intro e' he'
  rw [he] at he'
  cases he'
  exact ha.idle

theorem at_snoc {P : List Bytes} {k : Bytes} (hP : ∀ n ∈ P, PlainName n) (hk : PlainName k) {cid : Cid} {kind : WKind}
    (hi : kind.idle = true) {m : Metadata} : At (P ++ [k]) ⟨cid, kind, joinSlash (P ++ [k]), m, P.length + 2⟩ := by
  refine ⟨hi, [], ?_, ?_, ?_⟩
  · intro n hn
    simp only [List.append_nil, List.mem_append, List.mem_singleton] at hn
    rcases hn with hn | rfl
    · exact hP n hn
    · exact hk
  · simp
  · simp

section
variable {fetch : Cid → Option Bytes}

/-- Visiting a leaf. -/
theorem walk_leaf {w : Walker} {P : List Bytes} {k : Bytes} {c : Cid} {rest : List Todo} {seen : Seen}
    (hw : AtW w P) (hs : OnStack w ((c, k, P.length + 2) :: rest)) (hk : PlainName k) (hl : LeafIs fetch c seen) :
    ∃ items w', WSteps fetch w items w' ∧ Shows false c (joinSlash (P ++ [k])) items seen ∧ OnStack w' rest ∧
      AtW w' (P ++ [k]) := by
  have hi := hw.idle
  obtain ⟨e, he, ha⟩ := hw
  obtain ⟨hnext, hpend, hcont⟩ := hs
  have hwanted := wanted_idle hnext hi
  cases hl with
  | @symlink block flat hf hp ht =>
    have hstep : w.step block = .ok (.symlink (flat.data.data.getD []) c (joinSlash (P ++ [k])) (Metadata.of flat.data),
        w.advance ⟨c, .symlink, joinSlash (P ++ [k]), Metadata.of flat.data, P.length + 2⟩ rest) := by
      rw [step_idle hi, Walker.nextEntry, hp]
      simp only [ht, Walker.nextSymlink, hnext, he, become, become_plain ha hk, hpend]
    obtain ⟨a1, a2, _⟩ := onStack_advance w ⟨c, .symlink, joinSlash (P ++ [k]), Metadata.of flat.data, P.length + 2⟩ rest
    exact ⟨_, _, .step hcont hwanted hf hstep (.refl _), rfl, a1, _, a2, at_snoc ha.plain hk rfl⟩
  | @file block fuel size' chunks flat' hf hp' hsz hcat =>
    obtain ⟨flat, bytes, size, m, visit, hp, ht, hv, hcase⟩ := visitParsed_of_cat hcat
    rw [hp'] at hp
    cases hp
    obtain ⟨v1, v2⟩ := visitParsed_meta hv
    rw [hsz] at v1
    cases v1
    subst v2
    have hstep : w.step block = .ok (.file bytes true visit.isNone c (joinSlash (P ++ [k])) (Metadata.of flat'.data) size',
        { w with
          current := some ⟨c, .file visit size', joinSlash (P ++ [k]), Metadata.of flat'.data, P.length + 2⟩,
          next := rest.head?, pending := rest.tail, shouldContinue := visit.isSome || rest.head?.isSome }) := by
      have h1 : w.startFile flat' = .ok (.file bytes true visit.isNone c (joinSlash (P ++ [k])) (Metadata.of flat'.data) size',
        { w with
          current := some ⟨c, .file visit size', joinSlash (P ++ [k]), Metadata.of flat'.data, P.length + 2⟩,
          next := rest.head?, pending := rest.tail, shouldContinue := visit.isSome || rest.head?.isSome }) := by
        simp only [Walker.startFile, hv, hnext, he, become, become_plain ha hk, hpend]
      rw [step_idle hi, Walker.nextEntry, hp']
      rcases ht with ht | ht <;> simp only [ht, h1]
    rcases hcase with ⟨rfl, hb⟩ | ⟨v, rest', rfl, hloop, hb⟩
    · refine ⟨_, _, .step hcont hwanted hf hstep (.refl _), ⟨[bytes], by simp, by simpa using hb, rfl⟩, ?_, _, rfl,
        at_snoc ha.plain hk rfl⟩
      cases rest <;> simp [OnStack]
    · obtain ⟨segs, s1, s2, s3⟩ := walk_visit hloop
        (w := { w with
          current := some ⟨c, .file (some v) size', joinSlash (P ++ [k]), Metadata.of flat'.data, P.length + 2⟩,
          next := rest.head?, pending := rest.tail, shouldContinue := (some v).isSome || rest.head?.isSome })
        (e := ⟨c, .file (some v) size', joinSlash (P ++ [k]), Metadata.of flat'.data, P.length + 2⟩) rfl rfl rfl
      refine ⟨_, _, .step hcont hwanted hf hstep s3, ⟨bytes :: segs, by simp, ?_, ?_⟩, ?_, _, rfl,
        at_snoc ha.plain hk rfl⟩
      · rw [List.flatten_cons, s2, hb]
      · cases segs with
        | nil => exact absurd rfl s1
        | cons x xs => rfl
      · cases rest <;> simp [OnStack]

/-- The links of a directory from entries. -/
theorem entries_of_links {H : Bytes → Bytes} {A : List Bytes → Option Kind} {out : List Bytes → TreeNode}
    {q : List Bytes} {n : TreeNode} (hn : NodeFor H A out q n) :
    ∃ es : List (Bytes × Kind), Flat.parse n.block = .ok { links := es.map (fun e => linkFor out q e.1 e.2), data := { type := .directory } } ∧
      es.Pairwise (fun a b => blt a.1 b.1 = true) ∧ (∀ name k, (name, k) ∈ es ↔ A (q ++ [name]) = some k) := by
  obtain ⟨links, hp, hs, hm, _⟩ := hn.links
  have : ∀ ls : List PBLink, (∀ l ∈ ls, ∃ name k, A (q ++ [name]) = some k ∧ l = linkFor out q name k) →
      ∃ es : List (Bytes × Kind), ls = es.map (fun e => linkFor out q e.1 e.2) ∧ ∀ e ∈ es, A (q ++ [e.1]) = some e.2 := by
    intro ls
    induction ls with
    | nil => intro _; exact ⟨[], rfl, by simp⟩
    | cons l ls ih =>
      intro h
      obtain ⟨es, e1, e2⟩ := ih (fun x hx => h x (List.mem_cons_of_mem _ hx))
      obtain ⟨name, k, h1, h2⟩ := h l List.mem_cons_self
      refine ⟨(name, k) :: es, by rw [e1, h2]; rfl, ?_⟩
      intro e he
      rcases List.mem_cons.mp he with rfl | he
      · exact h1
      · exact e2 e he
  obtain ⟨es, rfl, he⟩ := this links (fun l hl => (hm l).mp hl)
  refine ⟨es, hp, ?_, fun name k => ⟨fun h => he _ h, fun h => ?_⟩⟩
  · rw [List.pairwise_map] at hs
    simpa only [linkFor_name] using hs
  · obtain ⟨e, h1, h2⟩ := List.mem_map.mp ((hm (linkFor out q name k)).mpr ⟨name, k, h, rfl⟩)
    have h3 := congrArg PBLink.nameOr h2
    simp only [linkFor_name] at h3
    have h4 := he e h1
    rw [h3, h] at h4
    cases h4
    obtain ⟨a, b⟩ := e
    cases h3
    exact h1

theorem convertLinks_ok {out : List Bytes → TreeNode} {q : List Bytes} {depth : Nat}
    {es : List (Bytes × Kind)} (hp : ∀ e ∈ es, PlainName e.1)
    (hv : ∀ e ∈ es, (kindCid out (q ++ [e.1]) e.2).Valid) (nth : Nat) :
    convertLinks (convertLink depth) nth (es.map (fun e => linkFor out q e.1 e.2)) =
      .ok (es.map (fun e => (kindCid out (q ++ [e.1]) e.2, e.1, depth))) := by
  induction es generalizing nth with
  | nil => rfl
  | cons e es ih =>
    rw [List.map_cons, convertLinks, ih (fun x hx => hp x (List.mem_cons_of_mem _ hx)) (fun x hx => hv x (List.mem_cons_of_mem _ hx))]
    have h1 := hp e List.mem_cons_self
    have h2 := hv e List.mem_cons_self
    have hcid : (linkFor out q e.1 e.2).cid = some (kindCid out (q ++ [e.1]) e.2) := by
      obtain ⟨n, k⟩ := e
      cases k with
      | leaf l => exact Cid.ofBytes_toBytes _ h2
      | dir => exact Cid.ofBytes_toBytes _ h2
    have hname : (linkFor out q e.1 e.2).name = some e.1 := by
      obtain ⟨n, k⟩ := e
      cases k <;> rfl
    have h47 : e.1.contains 47 = false := by
      cases hc : e.1.contains 47 with
      | false => rfl
      | true => exact absurd rfl (h1.noSlash 47 (List.contains_iff_mem.mp hc))
    simp only [convertLink, hcid, hname, if_neg h1.nonempty, h47, Bool.false_eq_true, if_false, List.map_cons]

/-- What is reported for one path. -/
def GroupOk (content : Cid → Seen) (A : List Bytes → Option Kind) (out : List Bytes → TreeNode) (q P : List Bytes)
    (g : List Bytes × List WItem) : Prop :=
  match A (q ++ g.1) with
  | none => False
  | some .dir => Shows false (out (q ++ g.1)).cid (joinSlash (P ++ g.1)) g.2 .directory
  | some (.leaf l) => Shows false l.link (joinSlash (P ++ g.1)) g.2 (content l.link)

variable {H : Bytes → Bytes} {A : List Bytes → Option Kind} {out : List Bytes → TreeNode} {content : Cid → Seen}

/-- Visiting what is below a directory. -/
theorem walk_below {L : Leaf → Prop} {M : Bytes → Prop} {n : Nat} {r : Bool} {d : DirBuilder} (hg : Good L M n r d)
    (hplain : ∀ q k, A q = some k → ∀ x ∈ q, PlainName x)
    (hleaf : ∀ q l, A q = some (.leaf l) → LeafIs fetch l.link (content l.link))
    (hnode : ∀ q, A q = some .dir → q ≠ [] → NodeFor H A out q (out q) ∧ fetch (out q).cid = some (out q).block)
    (hv : ∀ q k, q ≠ [] → A q = some k → (kindCid out q k).Valid) :
    ∀ q, (∀ t, A (q ++ t) = entryAt d t) → ∀ es : List (Bytes × Kind),
      es.Pairwise (fun a b => blt a.1 b.1 = true) → (∀ e ∈ es, A (q ++ [e.1]) = some e.2) →
      ∀ P w rest, AtW w P →
      OnStack w (es.map (fun e => (kindCid out (q ++ [e.1]) e.2, e.1, P.length + 2)) ++ rest) →
      ∃ (groups : List (List Bytes × List WItem)) (w' : Walker),
        (groups.map Prod.fst).Pairwise Before ∧
        (∀ t, t ∈ groups.map Prod.fst ↔ ∃ x s, t = x :: s ∧ (∃ k, (x, k) ∈ es) ∧ A (q ++ t) ≠ none) ∧
        (∀ g ∈ groups, GroupOk content A out q P g) ∧
        WSteps fetch w (groups.map Prod.snd).flatten w' ∧ OnStack w' rest ∧ AtW w' P := by
  induction hg with
  | @mk root d hid hsorted hname hnon hleafs hparent hlt hempty hchild ih =>
    intro q hq es
    induction es with
    | nil =>
      intro _ _ P w rest hw hs
      exact ⟨[], w, by simp, by simp, by simp, .refl _, hs, hw⟩
    | cons e es ihes =>
      obtain ⟨x, k⟩ := e
      intro hsort he P w rest hw hs
      obtain ⟨hs1, hs2⟩ := List.pairwise_cons.mp hsort
      have hx : A (q ++ [x]) = some k := he _ List.mem_cons_self
      have hpx : PlainName x := hplain _ _ hx x (by simp)
      -- what is at and below this entry
      have hfirst : ∃ (groups : List (List Bytes × List WItem)) (w' : Walker),
          (groups.map Prod.fst).Pairwise Before ∧
          (∀ t, t ∈ groups.map Prod.fst ↔ ∃ s, t = x :: s ∧ A (q ++ t) ≠ none) ∧
          (∀ g ∈ groups, GroupOk content A out q P g) ∧
          WSteps fetch w (groups.map Prod.snd).flatten w' ∧
          OnStack w' (es.map (fun e => (kindCid out (q ++ [e.1]) e.2, e.1, P.length + 2)) ++ rest) ∧ AtW w' P := by
        have hget : entryAt d [x] = some k := by rw [← hq, hx]
        rw [entryAt] at hget
        cases hg : AMap.get d.nodes x with
        | none => rw [hg] at hget; cases hget
        | some en =>
          rw [hg] at hget
          cases en with
          | leaf l =>
            simp only [if_true, Option.some.injEq] at hget
            subst hget
            have hseen := hleaf _ _ hx
            obtain ⟨items, w', h1, h2, h3, e', h4, h5⟩ := walk_leaf hw hs hpx hseen
            refine ⟨[([x], items)], w', by simp, ?_, ?_, by simpa using h1, h3, e', h4, h5.up⟩
            · intro t
              simp only [List.map_cons, List.map_nil, List.mem_singleton]
              constructor
              · rintro rfl; exact ⟨[], rfl, by rw [hx]; simp⟩
              · rintro ⟨s, rfl, ha⟩
                rw [hq, entryAt, hg] at ha
                simp only at ha
                split at ha
                · rename_i hs0; rw [hs0]
                · exact absurd rfl ha
            · intro g hg'
              rw [List.mem_singleton] at hg'
              subst hg'
              unfold GroupOk
              simp only [hx]
              exact h2
          | directory c =>
            simp only [entryAt, Option.some.injEq] at hget
            subst hget
            have hmem := (AMap.mem_iff_get hsorted.uniq _ _).mpr hg
            obtain ⟨n1, n2⟩ := hnode _ hx (by simp)
            obtain ⟨es', p1, p2, p3⟩ := entries_of_links n1
            have hqc : ∀ t, A ((q ++ [x]) ++ t) = entryAt c t := by
              intro t
              rw [List.append_assoc, hq, List.singleton_append, entryAt, hg]
            have hi := hw.idle
            obtain ⟨e, hcur, ha⟩ := hw
            obtain ⟨hnext, hpend, hcont⟩ := hs
            have hP : ∀ y ∈ P, PlainName y := ha.plain
            have hstep : w.step (out (q ++ [x])).block = .ok (.directory (out (q ++ [x])).cid (joinSlash (P ++ [x])) {},
                w.advance ⟨(out (q ++ [x])).cid, .directory, joinSlash (P ++ [x]), {}, P.length + 2⟩
                  (es'.map (fun e => (kindCid out (q ++ [x] ++ [e.1]) e.2, e.1, (P ++ [x]).length + 2)) ++
                    (es.map (fun e => (kindCid out (q ++ [e.1]) e.2, e.1, P.length + 2)) ++ rest))) := by
              rw [step_idle hi, Walker.nextEntry, p1]
              have hsup : dirSupported { type := .directory } = true := rfl
              have hconv := convertLinks_ok (out := out) (q := q ++ [x]) (depth := P.length + 2 + 1) (es := es')
                (fun e he' => hplain _ _ ((p3 e.1 e.2).mp he') e.1 (by simp))
                (fun e he' => hv _ _ (by simp) ((p3 e.1 e.2).mp he')) 0
              simp only [Walker.nextDirectory, if_pos hsup, hnext, hconv, hcur, become, Option.isNone_some,
                Bool.false_eq_true, if_false]
              have hb := become_plain ha hpx w.debug .directory (kindCid out (q ++ [x]) .dir) (Metadata.of { type := .directory })
              rw [hb]
              simp only [hpend, List.length_append, List.length_singleton]
              rfl
            obtain ⟨a1, a2, _⟩ := onStack_advance w ⟨(out (q ++ [x])).cid, .directory, joinSlash (P ++ [x]), {}, P.length + 2⟩
                  (es'.map (fun e => (kindCid out (q ++ [x] ++ [e.1]) e.2, e.1, (P ++ [x]).length + 2)) ++
                    (es.map (fun e => (kindCid out (q ++ [e.1]) e.2, e.1, P.length + 2)) ++ rest))
            obtain ⟨groups, w', g1, g2, g3, g4, g5, e', g6, g7⟩ := ih x c hmem (q ++ [x]) hqc es' p2
              (fun e he' => (p3 e.1 e.2).mp he') (P ++ [x]) _ _ ⟨_, a2, at_snoc hP hpx rfl⟩ a1
            refine ⟨([x], [.directory (out (q ++ [x])).cid (joinSlash (P ++ [x])) {}]) ::
              groups.map (fun g => (x :: g.1, g.2)), w', ?_, ?_, ?_, ?_, g5, e', g6, g7.up⟩
            · rw [List.map_cons, List.pairwise_cons, List.map_map]
              constructor
              · intro t ht
                obtain ⟨g, hgm, rfl⟩ := List.mem_map.mp ht
                obtain ⟨y, s, h1, _⟩ := (g2 g.1).mp (List.mem_map_of_mem hgm)
                simp only [Function.comp, h1]
                exact Before.parent (q := [x])
              · rw [List.pairwise_map] at g1 ⊢
                exact g1.imp (fun h => h.cons x)
            · intro t
              rw [List.map_cons, List.mem_cons, List.map_map]
              have hassoc : ∀ s, q ++ x :: s = q ++ [x] ++ s := by simp
              constructor
              · rintro (rfl | ht)
                · exact ⟨[], rfl, by rw [hx]; simp⟩
                · obtain ⟨g, hgm, rfl⟩ := List.mem_map.mp ht
                  obtain ⟨y, s, h1, _, h2⟩ := (g2 g.1).mp (List.mem_map_of_mem hgm)
                  exact ⟨g.1, rfl, by simp only [Function.comp]; rw [hassoc]; exact h2⟩
              · rintro ⟨s, rfl, h⟩
                cases s with
                | nil => exact Or.inl rfl
                | cons y s =>
                  right
                  rw [hassoc] at h
                  have hy : A (q ++ [x] ++ [y]) ≠ none := by
                    intro h0
                    rw [hqc] at h0
                    rw [hqc, entryAt_none h0 s] at h
                    exact h rfl
                  cases hk : A (q ++ [x] ++ [y]) with
                  | none => exact absurd hk hy
                  | some ky =>
                    have := (g2 (y :: s)).mpr ⟨y, s, rfl, ⟨ky, (p3 y ky).mpr hk⟩, h⟩
                    obtain ⟨g, hgm, hge⟩ := List.mem_map.mp this
                    exact List.mem_map.mpr ⟨g, hgm, by simp [hge]⟩
            · intro g hgm
              rcases List.mem_cons.mp hgm with rfl | hgm
              · unfold GroupOk
                simp only [hx]
                rfl
              · obtain ⟨g', hgm', rfl⟩ := List.mem_map.mp hgm
                have := g3 g' hgm'
                unfold GroupOk at this ⊢
                simpa only [List.append_assoc, List.singleton_append] using this
            · rw [List.map_cons, List.flatten_cons, List.map_map]
              exact .step hcont (wanted_idle hnext hi) n2 hstep g4
      obtain ⟨groups1, w1, f1, f2, f3, f4, f5, f6⟩ := hfirst
      obtain ⟨groups2, w2, k1, k2, k3, k4, k5, k6⟩ := ihes hs2 (fun e he' => he e (List.mem_cons_of_mem _ he')) P w1 rest f6 f5
      refine ⟨groups1 ++ groups2, w2, ?_, ?_, ?_, ?_, k5, k6⟩
      · rw [List.map_append, List.pairwise_append]
        refine ⟨f1, k1, ?_⟩
        intro a ha b hb
        obtain ⟨s, rfl, _⟩ := (f2 a).mp ha
        obtain ⟨y, t, rfl, ⟨ky, hy⟩, _⟩ := (k2 b).mp hb
        exact Before.sibling (q := []) (hs1 _ hy)
      · intro t
        rw [List.map_append, List.mem_append, f2, k2]
        constructor
        · rintro (⟨s, rfl, h⟩ | ⟨y, s, rfl, ⟨ky, hy⟩, h⟩)
          · exact ⟨x, s, rfl, ⟨k, List.mem_cons_self⟩, h⟩
          · exact ⟨y, s, rfl, ⟨ky, List.mem_cons_of_mem _ hy⟩, h⟩
        · rintro ⟨y, s, rfl, ⟨ky, hy⟩, h⟩
          rcases List.mem_cons.mp hy with hy | hy
          · cases hy; exact Or.inl ⟨s, rfl, h⟩
          · exact Or.inr ⟨y, s, rfl, ⟨ky, hy⟩, h⟩
      · intro g hgm
        rcases List.mem_append.mp hgm with hgm | hgm
        · exact f3 g hgm
        · exact k3 g hgm
      · rw [List.map_append, List.flatten_append]
        exact f4.trans k4

/-- Visiting a whole tree from the node of a directory. -/
theorem walk_from {L : Leaf → Prop} {M : Bytes → Prop} {n : Nat} {r : Bool} {d : DirBuilder} (hg : Good L M n r d)
    (hplain : ∀ q k, A q = some k → ∀ x ∈ q, PlainName x)
    (hleaf : ∀ q l, A q = some (.leaf l) → LeafIs fetch l.link (content l.link))
    (hnode : ∀ q, A q = some .dir → q ≠ [] → NodeFor H A out q (out q) ∧ fetch (out q).cid = some (out q).block)
    (hv : ∀ q k, q ≠ [] → A q = some k → (kindCid out q k).Valid)
    {q : List Bytes} (hq : ∀ t, A (q ++ t) = entryAt d t) (hn : NodeFor H A out q (out q))
    (hf : fetch (out q).cid = some (out q).block) (debug : Bool) {name : Bytes} (hname : name = [] ∨ PlainName name) :
    ∃ groups : List (List Bytes × List WItem),
      (([] : List Bytes) :: groups.map Prod.fst).Pairwise Before ∧
      (∀ t, t ∈ [] :: groups.map Prod.fst ↔ A (q ++ t) ≠ none) ∧
      (∀ g ∈ groups, g.1 ≠ [] ∧ GroupOk content A out q (if name = [] then [] else [name]) g) ∧
      ∀ fuel, (groups.map Prod.snd).flatten.length < fuel →
        (Walker.new debug (out q).cid name).feed fetch fuel =
          (.rootDirectory (out q).cid name {} :: (groups.map Prod.snd).flatten, .done) := by
  obtain ⟨es, p1, p2, p3⟩ := entries_of_links hn
  generalize hP : (if name = [] then [] else [name]) = P
  have hPl : ∀ x ∈ P, PlainName x := by
    intro x hx
    subst hP
    split at hx
    · cases hx
    · rename_i h0
      rw [List.mem_singleton] at hx
      rcases hname with h1 | h1
      · exact absurd h1 h0
      · exact hx ▸ h1
  have hjoin : joinSlash P = name := by subst hP; split <;> simp_all [joinSlash]
  have hlen : P.length + 1 = if name = [] then 1 else 2 := by subst hP; split <;> rfl
  have hpush : pathPush [] name = name := by
    unfold pathPush
    have : name.head? ≠ some 47 := by
      rcases hname with rfl | h1
      · simp
      · intro he
        cases hn : name with
        | nil => rw [hn] at he; cases he
        | cons c x => rw [hn] at he h1; cases he; exact h1.noSlash 47 List.mem_cons_self rfl
    rw [if_neg this, if_pos (Or.inl rfl)]
    rfl
  have hroot : At P ⟨(out q).cid, .rootDirectory, name, {}, P.length + 1⟩ :=
    ⟨rfl, [], by simpa using hPl, by simp [hjoin], by simp⟩
  let w := Walker.new debug (out q).cid name
  have hi : ∀ e, w.current = some e → e.kind.idle = true := by intro e he; cases he
  have hnext : w.next = some ((out q).cid, name, P.length + 1) := by rw [hlen]; rfl
  have hstep : w.step (out q).block = .ok (.rootDirectory (out q).cid name {},
      w.advance ⟨(out q).cid, .rootDirectory, name, {}, P.length + 1⟩
        (es.map (fun e => (kindCid out (q ++ [e.1]) e.2, e.1, P.length + 2)) ++ [])) := by
    rw [step_idle hi, Walker.nextEntry, p1]
    have hsup : dirSupported { type := .directory } = true := rfl
    have hconv := convertLinks_ok (out := out) (q := q) (depth := P.length + 1 + 1) (es := es)
      (fun e he' => hplain _ _ ((p3 e.1 e.2).mp he') e.1 (by simp))
      (fun e he' => hv _ _ (by simp) ((p3 e.1 e.2).mp he')) 0
    have hcur : w.current = none := rfl
    have hpend : w.pending = [] := rfl
    simp only [Walker.nextDirectory, if_pos hsup, hnext, hconv, hcur, become, Option.isNone_none, if_true, hpend,
      WEntry.newRoot, hpush]
    rfl
  obtain ⟨a1, a2, _⟩ := onStack_advance w ⟨(out q).cid, .rootDirectory, name, {}, P.length + 1⟩
    (es.map (fun e => (kindCid out (q ++ [e.1]) e.2, e.1, P.length + 2)) ++ [])
  obtain ⟨groups, w', g1, g2, g3, g4, g5, _⟩ := walk_below hg hplain hleaf hnode hv q hq es p2
    (fun e he => (p3 e.1 e.2).mp he) P _ _ ⟨_, a2, hroot⟩ a1
  refine ⟨groups, ?_, ?_, ?_, ?_⟩
  · rw [List.pairwise_cons]
    refine ⟨fun t ht => ?_, g1⟩
    obtain ⟨x, s, rfl, _⟩ := (g2 t).mp ht
    exact Before.parent (q := [])
  · intro t
    rw [List.mem_cons, g2]
    constructor
    · rintro (rfl | ⟨x, s, rfl, _, h⟩)
      · rw [hq, entryAt]; simp
      · exact h
    · intro h
      cases t with
      | nil => exact Or.inl rfl
      | cons x s =>
        right
        cases hk : A (q ++ [x]) with
        | none =>
          rw [hq] at hk h
          rw [entryAt_none hk s] at h
          exact absurd rfl h
        | some k => exact ⟨x, s, rfl, ⟨k, (p3 x k).mpr hk⟩, h⟩
  · intro g hgm
    refine ⟨?_, g3 g hgm⟩
    intro h0
    obtain ⟨x, s, h1, _⟩ := (g2 g.1).mp (List.mem_map_of_mem hgm)
    rw [h0] at h1
    cases h1
  · intro fuel hfuel
    exact WSteps.feed (.step rfl (wanted_idle hnext hi) hf hstep g4) g5.2.2 (by simp only [List.length_cons]; omega)

end

/-! ### Theorems -/

/-- What is reported for a path of the tree: for one that a leaf was inserted under, its contents; for
another, the node of the directory there. -/
inductive Reported (ops : List DirOp) (nodes : List TreeNode) (content : Cid → Seen) (root : Bool) (q : List Bytes)
    (path : Bytes) (items : List WItem) : Prop where
  | leaf {p : Bytes} {c : Cid} {n : Nat} : .put p c n ∈ ops → splitSlash p = q →
      Shows false c path items (content c) → Reported ops nodes content root q path items
  | dir {node : TreeNode} : (∀ p c n, .put p c n ∈ ops → splitSlash p ≠ q) → node ∈ nodes → node.path = joinSlash q →
      Shows root node.cid path items .directory → Reported ops nodes content root q path items

/-- All the reports of a walk that begins at a directory of the tree: the paths below it, each once. -/
structure Reports (ops : List DirOp) (nodes : List TreeNode) (content : Cid → Seen) (start : List Bytes)
    (name : Bytes) (groups : List (List Bytes × List WItem)) : Prop where
  order : (groups.map Prod.fst).Pairwise Before
  once : (groups.map Prod.fst).Nodup
  all : ∀ q, q ∈ groups.map Prod.fst ↔ q = [] ∨ ∃ op ∈ ops, start ++ q <+: splitSlash op.path
  each : ∀ g ∈ groups, Reported ops nodes content (decide (g.1 = [])) (start ++ g.1)
    (joinSlash ((if name = [] then [] else [name]) ++ g.1)) g.2

section
variable {H : Bytes → Bytes}

theorem walk_reports (hH : ∀ b, (H b).length = 32) (opts : TreeOpts) (ops : List DirOp)
    (hops : ∀ op ∈ ops, OpFits op) {out : List TreeNode} {fetch : Cid → Option Bytes}
    {node : List Bytes → TreeNode}
    (hnode : ∀ q, entryAt (builderAfter opts ops).root q = some .dir → (opts.wrapWithDirectory = true ∨ q ≠ []) →
        NodeFor H (entryAt (builderAfter opts ops).root) node q (node q) ∧ node q ∈ out ∧
          fetch (node q).cid = some (node q).block)
    (hplain : ∀ op ∈ acceptedOps (Builder.new opts) ops, ∀ s ∈ splitSlash op.path, s ≠ [] ∧ s ≠ [46])
    {content : Cid → Seen}
    (hleaf : ∀ p c n, .put p c n ∈ acceptedOps (Builder.new opts) ops → LeafIs fetch c (content c))
    {start : List Bytes} (hstart : entryAt (builderAfter opts ops).root start = some .dir)
    (hw : opts.wrapWithDirectory = true ∨ start ≠ [])
    (debug : Bool) {name : Bytes} (hname : name = [] ∨ PlainName name) :
    ∃ groups, Reports (acceptedOps (Builder.new opts) ops) out content start name groups ∧
      ∀ fuel, (groups.map Prod.snd).flatten.length ≤ fuel →
        (Walker.new debug (node start).cid name).feed fetch fuel = ((groups.map Prod.snd).flatten, .done) := by
  have hg := builderAfter_good (opts := opts) hops
  obtain ⟨d, hd⟩ := subdir_some.mpr hstart
  obtain ⟨r', hgd⟩ := good_sub hg hd
  have hpre : ∀ q k, entryAt (builderAfter opts ops).root q = some k →
      q = [] ∨ ∃ op ∈ acceptedOps (Builder.new opts) ops, q <+: splitSlash op.path := by
    intro q k hk
    obtain ⟨t1, t2⟩ := C11_tree opts ops q
    cases k with
    | leaf l =>
      obtain ⟨op, ho, h, _⟩ := (t1 l).mp hk
      exact Or.inr ⟨op, ho, h ▸ List.prefix_refl _⟩
    | dir =>
      rcases t2.mp hk with h | ⟨op, ho, ⟨h, _⟩ | ⟨h, _⟩⟩
      · exact Or.inl h
      · exact Or.inr ⟨op, ho, h⟩
      · exact Or.inr ⟨op, ho, h ▸ List.prefix_refl _⟩
  have hpl : ∀ q k, entryAt (builderAfter opts ops).root q = some k → ∀ x ∈ q, PlainName x := by
    intro q k hk x hx
    rcases hpre q k hk with rfl | ⟨op, ho, h⟩
    · cases hx
    · have hm := h.subset hx
      exact ⟨(hplain op ho x hm).1, (hplain op ho x hm).2, splitSlash_noSlash _ x hm⟩
  have hlf : ∀ q l, entryAt (builderAfter opts ops).root q = some (.leaf l) → LeafIs fetch l.link (content l.link) := by
    intro q l hl
    obtain ⟨op, ho, _, hk⟩ := ((C11_tree opts ops q).1 l).mp hl
    cases op with
    | put p c n => cases hk; exact hleaf p c n ho
    | attrs p m => cases hk
  obtain ⟨n1, n2, n3⟩ := hnode start hstart hw
  obtain ⟨groups, g1, g2, g3, g4⟩ := walk_from hgd hpl hlf
    (fun q hd hq => ⟨(hnode q hd (Or.inr hq)).1, (hnode q hd (Or.inr hq)).2.2⟩)
    (fun q k hq hk => kindCid_valid hops hH (fun q hd hq => (hnode q hd (Or.inr hq)).1.cid) q hq k hk)
    (entryAt_sub hd) n1 n3 debug hname
  have hdir : ∀ q, entryAt (builderAfter opts ops).root q = some .dir →
      ∀ p c n, DirOp.put p c n ∈ acceptedOps (Builder.new opts) ops → splitSlash p ≠ q := by
    intro q hq p c n ho he
    have := ((C11_tree opts ops (splitSlash p)).1 ⟨c, n⟩).mpr ⟨_, ho, rfl, rfl⟩
    rw [he, hq] at this
    cases this
  have hjoin : joinSlash ((if name = [] then [] else [name]) ++ ([] : List Bytes)) = name := by
    split <;> simp_all [joinSlash]
  refine ⟨([], [.rootDirectory (node start).cid name {}]) :: groups, ⟨g1, ?_, ?_, ?_⟩, ?_⟩
  · exact g1.imp (fun h => h.ne)
  · intro q
    rw [List.map_cons, g2]
    constructor
    · intro h
      cases hk : entryAt (builderAfter opts ops).root (start ++ q) with
      | none => exact absurd hk h
      | some k =>
        rcases hpre _ k hk with h | h
        · exact Or.inl (List.append_eq_nil_iff.mp h).2
        · exact Or.inr h
    · rintro (rfl | ⟨op, ho, h⟩)
      · rw [List.append_nil, hstart]; simp
      · obtain ⟨t1, t2⟩ := C11_tree opts ops (start ++ q)
        by_cases he : start ++ q = splitSlash op.path
        · cases op with
          | put p c n => rw [(t1 ⟨c, n⟩).mpr ⟨_, ho, he.symm, rfl⟩]; simp
          | attrs p m => rw [t2.mpr (Or.inr ⟨_, ho, Or.inr ⟨he, rfl⟩⟩)]; simp
        · rw [t2.mpr (Or.inr ⟨op, ho, Or.inl ⟨h, he⟩⟩)]; simp
  · intro g hgm
    rcases List.mem_cons.mp hgm with rfl | hgm
    · refine .dir (by simpa using hdir start hstart) n2 (by simpa using n1.path) ?_
      simp only [hjoin]
      rfl
    · obtain ⟨h0, hok⟩ := g3 g hgm
      unfold GroupOk at hok
      have h00 : decide (g.1 = []) = false := by simp [h0]
      rw [h00]
      split at hok
      · exact hok.elim
      · rename_i hk
        obtain ⟨m1, m2, _⟩ := hnode _ hk (Or.inr (by simp [h0]))
        exact .dir (hdir _ hk) m2 m1.path hok
      · rename_i l hk
        obtain ⟨op, ho, he, hkind⟩ := ((C11_tree opts ops _).1 l).mp hk
        cases op with
        | put p c n => cases hkind; exact .leaf ho he hok
        | attrs p m => cases hkind
  · intro fuel hfuel
    simp only [List.map_cons, List.flatten_cons, List.singleton_append, List.length_cons] at hfuel ⊢
    exact g4 fuel (by omega)

/-- C16. Walking a tree made by the directory builder from its root reports the root, every directory, file and
symlink exactly once, at the path it was inserted under (below the name given for the root), parents before
children. Partial: no segment may be empty or `.`. -/
theorem C16_walk_partial (hH : ∀ b, (H b).length = 32) (opts : TreeOpts) (ops : List DirOp)
    (hops : ∀ op ∈ ops, OpFits op) (hfit : TotalsFit H (builderAfter opts ops)) {front : List TreeNode}
    {root : TreeNode} (hw : opts.wrapWithDirectory = true)
    (hrun : (builderAfter opts ops).build.run H = (front ++ [root], .done)) {fetch : Cid → Option Bytes}
    (hs : Serves fetch (front ++ [root]))
    (hplain : ∀ op ∈ acceptedOps (Builder.new opts) ops, ∀ s ∈ splitSlash op.path, s ≠ [] ∧ s ≠ [46])
    {content : Cid → Seen}
    (hleaf : ∀ p c n, .put p c n ∈ acceptedOps (Builder.new opts) ops → LeafIs fetch c (content c))
    (debug : Bool) {name : Bytes} (hname : name = [] ∨ PlainName name) :
    ∃ groups, Reports (acceptedOps (Builder.new opts) ops) (front ++ [root]) content [] name groups ∧
      ∀ fuel, (groups.map Prod.snd).flatten.length ≤ fuel →
        (Walker.new debug root.cid name).feed fetch fuel = ((groups.map Prod.snd).flatten, .done) := by
  obtain ⟨node, hnode, hroot, _⟩ := start_node hH opts ops hops hfit hrun hs
  have hr := hroot _ _ rfl hw
  subst hr
  exact walk_reports hH opts ops hops hnode hplain hleaf (by rw [entryAt]) (Or.inl hw) debug hname

/-- C16. Without a wrapping directory the walk begins at the directory all the paths begin with. -/
theorem C16_unwrapped_partial (hH : ∀ b, (H b).length = 32) (opts : TreeOpts) (ops : List DirOp)
    (hops : ∀ op ∈ ops, OpFits op) (hfit : TotalsFit H (builderAfter opts ops)) {front : List TreeNode}
    {root : TreeNode} (hw : opts.wrapWithDirectory = false)
    (hrun : (builderAfter opts ops).build.run H = (front ++ [root], .done)) {fetch : Cid → Option Bytes}
    (hs : Serves fetch (front ++ [root]))
    (hplain : ∀ op ∈ acceptedOps (Builder.new opts) ops, ∀ s ∈ splitSlash op.path, s ≠ [] ∧ s ≠ [46])
    {content : Cid → Seen}
    (hleaf : ∀ p c n, .put p c n ∈ acceptedOps (Builder.new opts) ops → LeafIs fetch c (content c))
    (debug : Bool) {name : Bytes} (hname : name = [] ∨ PlainName name) :
    ∃ top groups, (∀ op ∈ acceptedOps (Builder.new opts) ops, (splitSlash op.path).head? = some top) ∧
      Reports (acceptedOps (Builder.new opts) ops) (front ++ [root]) content [top] name groups ∧
      ∀ fuel, (groups.map Prod.snd).flatten.length ≤ fuel →
        (Walker.new debug root.cid name).feed fetch fuel = ((groups.map Prod.snd).flatten, .done) := by
  obtain ⟨node, hnode, _, hroot⟩ := start_node hH opts ops hops hfit hrun hs
  obtain ⟨top, hr, htop⟩ := hroot _ _ rfl hw
  subst hr
  obtain ⟨groups, h1, h2⟩ := walk_reports hH opts ops hops hnode hplain hleaf htop (Or.inr (by simp)) debug hname
  refine ⟨top, groups, fun op ho => ?_, h1, h2⟩
  obtain ⟨x, rest, hsp⟩ := splitSlash_cons_ne op.path
  have hx : entryAt (builderAfter opts ops).root [x] ≠ none := by
    intro h0
    obtain ⟨t1, t2⟩ := C11_tree opts ops [x]
    by_cases he : rest = []
    · cases op with
      | put p c n => rw [(t1 ⟨c, n⟩).mpr ⟨_, ho, by rw [← he]; exact hsp, rfl⟩] at h0; cases h0
      | attrs p m => rw [t2.mpr (Or.inr ⟨_, ho, Or.inr ⟨by rw [← he]; exact hsp.symm, rfl⟩⟩)] at h0; cases h0
    · rw [t2.mpr (Or.inr ⟨op, ho, Or.inl ⟨hsp ▸ ⟨rest, rfl⟩, by rw [hsp]; simp [Ne.symm he]⟩⟩)] at h0; cases h0
  rw [hsp, root_one hw ops x top hx (by rw [htop]; simp)]
  rfl

end

/-! ### Examples -/

/-- A file of one block. -/
def exFileFlat : Flat := { links := [], data := { type := .file, data := some [104, 105], filesize := some 2 } }

def exFileBlock : Bytes := exFileFlat.write

/-- A file in two parts. -/
def exPartsFlat : Flat :=
  { links := [⟨some (Cid.v0 (List.replicate 32 4)).toBytes, some [], some 10⟩,
               ⟨some (Cid.v0 (List.replicate 32 5)).toBytes, some [], some 10⟩],
     data := { type := .file, filesize := some 3, blocksizes := [2, 1] } }

def exPartsBlock : Bytes := exPartsFlat.write

/-- The blocks of the leaves of the example of the builder. -/
def exLeafBlocks : List (Cid × Bytes) :=
  [(Cid.v0 (List.replicate 32 1), exFileBlock),
   (Cid.v0 (List.replicate 32 2), serializeSymlink [98] []),
   (Cid.v0 (List.replicate 32 3), exPartsBlock),
   (Cid.v0 (List.replicate 32 4),
     ({ links := [], data := { type := .file, data := some [1, 2], filesize := some 2 } } : Flat).write),
   (Cid.v0 (List.replicate 32 5),
     ({ links := [], data := { type := .raw, data := some [3], filesize := some 1 } } : Flat).write)]

/-- The nodes of that example. -/
def exWalkNodes : List TreeNode :=
  treeEmits exDirHash true (builderAfter { wrapWithDirectory := true } exDirOps).root

/-- All these blocks. -/
def exWalkFetch (c : Cid) : Option Bytes := AMap.get (exLeafBlocks ++ exWalkNodes.map (fun n => (n.cid, n.block))) c

/-- What the leaves hold. -/
def exContent (c : Cid) : Seen :=
  if c = Cid.v0 (List.replicate 32 1) then .file [104, 105] 2 {}
  else if c = Cid.v0 (List.replicate 32 2) then .symlink [98] {}
  else .file [1, 2, 3] 3 {}

/-- The hypotheses of `C16_walk_partial` hold for it (those about the builder are met by the example in
`Verif.Props.DirBuild`). -/
example : Serves exWalkFetch exWalkNodes ∧
    (∀ op ∈ acceptedOps (Builder.new { wrapWithDirectory := true }) exDirOps, ∀ s ∈ splitSlash op.path, s ≠ [] ∧ s ≠ [46]) ∧
    (∀ p c n, .put p c n ∈ acceptedOps (Builder.new { wrapWithDirectory := true }) exDirOps →
      LeafIs exWalkFetch c (exContent c)) := by
  refine ⟨by unfold Serves; decide +kernel, by decide +kernel, ?_⟩
  have h0 : acceptedOps (Builder.new { wrapWithDirectory := true }) exDirOps = exDirOps := by decide +kernel
  have e1 : exContent (Cid.v0 (List.replicate 32 1)) = .file [[104, 105]].flatten 2 {} := rfl
  have e2 : exContent (Cid.v0 (List.replicate 32 2)) = .symlink [98] {} := by
    unfold exContent; rw [if_neg (by decide +kernel), if_pos rfl]
  have e3 : exContent (Cid.v0 (List.replicate 32 3)) = .file [[1, 2], [3]].flatten 3 {} := by
    unfold exContent; rw [if_neg (by decide +kernel), if_neg (by decide +kernel)]; rfl
  rw [h0]
  intro p c n h
  simp only [exDirOps, List.mem_cons, List.not_mem_nil, or_false, DirOp.put.injEq] at h
  rcases h with ⟨_, rfl, _⟩ | ⟨_, rfl, _⟩ | ⟨_, rfl, _⟩
  · rw [e1]
    exact .file (block := exFileBlock) (flat := exFileFlat) (fuel := 0) (by decide +kernel) (by decide +kernel) rfl (by decide +kernel)
  · rw [e2]
    exact .symlink (block := serializeSymlink [98] []) (flat := { links := [], data := { type := .symlink, data := some [98] } })
      (by decide +kernel) (by decide +kernel) rfl
  · rw [e3]
    exact .file (block := exPartsBlock) (flat := exPartsFlat) (fuel := 2) (by decide +kernel) (by decide +kernel) rfl (by decide +kernel)

/-- What is reported: the directories and the contents with their paths. -/
def exShown : WItem → Bytes × Bytes
  | .bucket _ p => (p, [])
  | .directory _ p _ => (p, [])
  | .file b _ _ _ p _ _ => (p, b)
  | .rootDirectory _ p _ => (p, [])
  | .symlink t _ p _ => (p, t)

example : ∃ root ∈ exWalkNodes, root.path = [] ∧
    (((Walker.new true root.cid [120]).feed exWalkFetch 20).1.map exShown,
      ((Walker.new true root.cid [120]).feed exWalkFetch 20).2) =
    ([("x".toUTF8.toList, []), ("x/a".toUTF8.toList, []), ("x/a/b".toUTF8.toList, [104, 105]),
      ("x/a/c".toUTF8.toList, []), ("x/a/c/d".toUTF8.toList, [98]),
      ("x/e".toUTF8.toList, []), ("x/e".toUTF8.toList, [1, 2]), ("x/e".toUTF8.toList, [3])], .done) := by
  decide +kernel

/-! ### What does not hold -/

/-- The nodes of a tree and the blocks of the leaves. -/
def exWalkWith (ops : List DirOp) (c : Cid) : Option Bytes :=
  AMap.get (exLeafBlocks ++ (treeEmits exDirHash true (builderAfter { wrapWithDirectory := true } ops).root).map
    (fun n => (n.cid, n.block))) c

/-- With a segment `.` the path is not followed: checked builds panic, and others report what comes after at
another path. -/
theorem C16_dot : ∃ ops : List DirOp, (∀ op ∈ ops, OpFits op) ∧
    acceptedOps (Builder.new { wrapWithDirectory := true }) ops = ops ∧
    ops.map DirOp.path = ["a/./b".toUTF8.toList, "a/c".toUTF8.toList] ∧
    ∃ root ∈ treeEmits exDirHash true (builderAfter { wrapWithDirectory := true } ops).root, root.path = [] ∧
      (∀ n ∈ treeEmits exDirHash true (builderAfter { wrapWithDirectory := true } ops).root,
        exWalkWith ops n.cid = some n.block) ∧
      ((Walker.new true root.cid []).feed (exWalkWith ops) 20).2 = .failed .panic ∧
      (((Walker.new false root.cid []).feed (exWalkWith ops) 20).1.map (fun i => (exShown i).1),
        ((Walker.new false root.cid []).feed (exWalkWith ops) 20).2) =
        ([[], "a".toUTF8.toList, "a/.".toUTF8.toList, "a/./b".toUTF8.toList, "c".toUTF8.toList], .done) := by
  refine ⟨[.put "a/./b".toUTF8.toList (Cid.v0 (List.replicate 32 1)) 10,
    .put "a/c".toUTF8.toList (Cid.v0 (List.replicate 32 2)) 10], ?_, by decide +kernel, rfl, ?_⟩
  · intro op h
    simp only [List.mem_cons, List.not_mem_nil, or_false] at h
    have hv : ∀ x : UInt8, (Cid.v0 (List.replicate 32 x)).Valid ∧ (Cid.v0 (List.replicate 32 x)).toBytes.length < 2 ^ 30 := by
      intro x
      refine ⟨Cid.v0_valid _ (by simp), ?_⟩
      simp [Cid.v0, Cid.toBytes, mhBytes, mhSha256, writeVarint_small]
    rcases h with rfl | rfl <;>
      exact ⟨by decide +kernel, by decide +kernel, by intro p c n h; cases h; exact ⟨(hv _).1, (hv _).2, by decide⟩⟩
  · decide +kernel

/-- A leaf inserted under the empty path makes the walk panic. -/
theorem C16_empty_name : ∃ ops : List DirOp,
    acceptedOps (Builder.new { wrapWithDirectory := true }) ops = ops ∧ ops.map DirOp.path = [[]] ∧
    ∃ root ∈ treeEmits exDirHash true (builderAfter { wrapWithDirectory := true } ops).root, root.path = [] ∧
      exWalkWith ops root.cid = some root.block ∧
      (Walker.new false root.cid []).feed (exWalkWith ops) 20 = ([], .failed .panic) := by
  refine ⟨[.put [] (Cid.v0 (List.replicate 32 1)) 10], ?_⟩
  decide +kernel

/-- In the middle of a file a block that cannot be parsed makes the walk panic (`unreachable!` in the conversion of
the error), unless the tree was found to be wrong before looking at it. -/
theorem C16_bad_part {w : Walker} {e : WEntry} {v : Visit} {size : Nat} (hc : w.current = some e)
    (hk : e.kind = .file (some v) size) {block : Bytes} {err : ParsingFailed} (hp : Flat.parse block = .error err) :
    w.step block = .error .panic ∨ ∃ c range ps fe, v.pending = (c, range) :: ps ∧
      v.state.lastEnding.check v.state.lastOffset range = .error fe := by
  have hstep : w.step block = w.nextFile e v size block := by
    unfold Walker.step
    simp only [hc, hk]
  rw [hstep, Walker.nextFile, Visit.continueWalk]
  cases hv : v.pending with
  | nil => exact Or.inl rfl
  | cons p ps =>
    obtain ⟨c, range⟩ := p
    simp only [Traversal.continueWalk]
    cases hcheck : v.state.lastEnding.check v.state.lastOffset range with
    | error fe => exact Or.inr ⟨c, range, ps, fe, rfl, hcheck⟩
    | ok u =>
      left
      simp only [FileReader.fromContinued, parseFlat, hp]
      rfl

/-- A file whose second block is not a block of a file: the first block and a part are reported, then it panics. -/
example :
    let fetch := fun c => if c = Cid.v0 (List.replicate 32 5) then some [255] else exWalkFetch c
    (((Walker.new false (Cid.v0 (List.replicate 32 3)) []).feed fetch 20).1.map exShown,
      ((Walker.new false (Cid.v0 (List.replicate 32 3)) []).feed fetch 20).2) =
      ([([], []), ([], [1, 2])], .failed .panic) := by
  decide +kernel

/-- A directory with a link that has no name, or one with a slash in it, makes the walk panic when the links before
and after it are fine. -/
theorem C16_bad_name {w : Walker} (hi : ∀ e, w.current = some e → e.kind.idle = true) {t : Todo} (hn : w.next = some t)
    {block : Bytes} {before after : List PBLink} {link : PBLink}
    (hp : Flat.parse block = .ok { links := before ++ link :: after, data := { type := .directory } })
    (hcid : ∀ l ∈ before ++ link :: after, l.cid ≠ none)
    (hafter : ∀ l ∈ after, ∃ name, l.name = some name ∧ name ≠ [] ∧ NoSlash name)
    (hbad : link.name = none ∨ link.name = some [] ∨ ∃ name, link.name = some name ∧ 47 ∈ name) :
    w.step block = .error .panic := by
  have key : ∀ depth nth, convertLinks (convertLink depth) nth (link :: after) = .error .panic := by
    intro depth nth
    have h1 : ∀ nth, ∃ todo, convertLinks (convertLink depth) nth after = .ok todo := by
      have hc : ∀ l ∈ after, l.cid ≠ none := fun l hl => hcid l (by simp [hl])
      clear hp hcid
      induction after with
      | nil => exact fun _ => ⟨[], rfl⟩
      | cons l ls ih =>
        intro nth
        obtain ⟨todo, ht⟩ := ih (fun x hx => hafter x (List.mem_cons_of_mem _ hx)) (fun x hx => hc x (List.mem_cons_of_mem _ hx)) (nth + 1)
        obtain ⟨name, n1, n2, n3⟩ := hafter l List.mem_cons_self
        rw [convertLinks, ht]
        have h47 : 47 ∉ name := fun h => absurd rfl (n3 47 h)
        cases hcl : l.cid with
        | none => exact absurd hcl (hc l List.mem_cons_self)
        | some c => simp [convertLink, hcl, n1, n2, h47]
    obtain ⟨todo, ht⟩ := h1 (nth + 1)
    rw [convertLinks, ht]
    cases hcl : link.cid with
    | none => exact absurd hcl (hcid link (by simp))
    | some c =>
      rcases hbad with h | h | ⟨name, h, h47⟩
      · simp [convertLink, hcl, h]
      · simp [convertLink, hcl, h]
      · have h0 : name ≠ [] := by rintro rfl; cases h47
        simp [convertLink, hcl, h, h0, h47]
  have key2 : ∀ depth nth, convertLinks (convertLink depth) nth (before ++ link :: after) = .error .panic := by
    intro depth
    clear hp hcid
    induction before with
    | nil => exact fun nth => key depth nth
    | cons l ls ih => intro nth; rw [List.cons_append, convertLinks, ih]
  obtain ⟨c, name, depth⟩ := t
  rw [step_idle hi, Walker.nextEntry, hp]
  have hsup : dirSupported { type := .directory } = true := rfl
  simp only [Walker.nextDirectory, if_pos hsup, hn, key2]

example : (Walker.new false (Cid.v0 (List.replicate 32 1)) []).step
    ({ links := [⟨some (Cid.v0 (List.replicate 32 4)).toBytes, some [], some 10⟩],
       data := { type := .directory } } : Flat).write = .error .panic := by
  decide +kernel

end Verif.Props
