import Verif.Unixfs.Walk

/-!
# Lemmas about walking
-/

namespace Verif.Unixfs

open Verif

/-- A name that is a component of a path by itself. -/
structure PlainName (n : Bytes) : Prop where
  nonempty : n ≠ []
  notDot : n ≠ [46]
  noSlash : NoSlash n

theorem PlainName.notJunk {n : Bytes} (h : PlainName n) : isJunk n = false := by
  simp [isJunk, h.nonempty, h.notDot]

theorem splitSlash_cons {x : Bytes} {xs : List Bytes} (h : ∀ n ∈ x :: xs, PlainName n) :
    splitSlash (joinSlash (x :: xs)) = x :: xs :=
  splitSlash_join (by simp) (fun n hn => (h n hn).noSlash)

theorem trimJunk_snoc (xs : List Bytes) {x : Bytes} (h : isJunk x = false) : trimJunk (xs ++ [x]) = xs ++ [x] := by
  simp [trimJunk, h]

theorem trimJunk_plain {xs : List Bytes} (h : ∀ n ∈ xs, PlainName n) : trimJunk xs = xs := by
  by_cases hne : xs = []
  · subst hne; rfl
  · have hl := List.dropLast_concat_getLast hne
    rw [← hl]
    exact trimJunk_snoc _ (h _ (List.getLast_mem hne)).notJunk

theorem ancestors_plain {cur : List Bytes} (h : ∀ n ∈ cur, PlainName n) :
    ancestors (joinSlash cur) = cur.length + 1 := by
  cases cur with
  | nil => rfl
  | cons x xs =>
    unfold ancestors
    rw [splitSlash_cons h]
    have hx := (h x List.mem_cons_self).nonempty
    have hf : xs.filter (fun c => !isJunk c) = xs := by
      rw [List.filter_eq_self]
      intro n hn
      simp [(h n (List.mem_cons_of_mem _ hn)).notJunk]
    simp only [hf, hx, if_false, List.length_cons]
    omega

theorem pathPop_plain {xs : List Bytes} {x : Bytes} (h : ∀ n ∈ xs ++ [x], PlainName n) :
    pathPop (joinSlash (xs ++ [x])) = some (joinSlash xs) := by
  cases xs with
  | nil =>
    unfold pathPop
    have hx := h x (by simp)
    have : splitSlash (joinSlash ([] ++ [x])) = [x] := splitSlash_cons h
    rw [this]
    simp [trimJunk, hx.nonempty, joinSlash]
  | cons y ys =>
    unfold pathPop
    have hs : splitSlash (joinSlash (y :: ys ++ [x])) = y :: (ys ++ [x]) := splitSlash_cons h
    rw [hs]
    have hx := h x (by simp)
    have hy := h y (by simp)
    simp only [trimJunk_snoc ys hx.notJunk]
    cases hr : ys ++ [x] with
    | nil => simp at hr
    | cons r rs =>
      simp only
      rw [← hr, List.dropLast_concat]
      rw [trimJunk_plain (fun n hn => h n (by simp [hn]))]
      cases ys with
      | nil => simp [hy.nonempty, joinSlash]
      | cons z zs => rfl

theorem pathPush_noSlash {xs : List Bytes} {x : Bytes} (h : ∀ n ∈ xs, PlainName n) (hx : NoSlash x) :
    pathPush (joinSlash xs) x = joinSlash (xs ++ [x]) := by
  unfold pathPush
  have h1 : x.head? ≠ some 47 := by
    intro he
    cases x with
    | nil => cases he
    | cons c x => cases he; exact hx 47 List.mem_cons_self rfl
  rw [if_neg h1]
  by_cases hne : xs = []
  · subst hne
    have h0 : joinSlash ([] : List Bytes) = [] := rfl
    rw [h0, if_pos (Or.inl rfl)]
    rfl
  · have hl := List.dropLast_concat_getLast hne
    generalize hy : xs.getLast hne = y at hl
    generalize hys : xs.dropLast = ys at hl
    have hym : y ∈ xs := by rw [← hl]; simp
    have hj : ∀ (ys : List Bytes) (y : Bytes), joinSlash (ys ++ [y]) = if ys = [] then y else joinSlash ys ++ 47 :: y := by
      intro ys
      induction ys with
      | nil => intro y; rfl
      | cons a ys ih =>
        intro y
        cases ys with
        | nil => simp [joinSlash]
        | cons b ys =>
          have := ih y
          simp only [List.cons_append, joinSlash] at this ⊢
          rw [this]
          simp
    have hlast : ∀ (ys : List Bytes) (y : Bytes), y ≠ [] → (joinSlash (ys ++ [y])).getLast? = y.getLast? := by
      intro ys y hy
      rw [hj]
      split
      · rfl
      · rw [List.getLast?_append]
        cases y with
        | nil => exact absurd rfl hy
        | cons c y => simp [List.getLast?_cons]
    have h2 : (joinSlash xs).getLast? ≠ some 47 := by
      rw [← hl, hlast _ _ (h y hym).nonempty]
      intro he
      exact (h y hym).noSlash 47 (List.mem_of_getLast? he) rfl
    have h3 : joinSlash xs ≠ [] := by
      intro he
      have := hlast ys y (h y hym).nonempty
      rw [hl, he] at this
      cases hyy : y with
      | nil => exact (h y hym).nonempty hyy
      | cons c y' => rw [hyy] at this; simp [List.getLast?_cons] at this
    rw [if_neg (by simp [h2, h3]), hj, if_neg hne]

theorem pathPush_plain {xs : List Bytes} {x : Bytes} (h : ∀ n ∈ xs, PlainName n) (hx : PlainName x) :
    pathPush (joinSlash xs) x = joinSlash (xs ++ [x]) := pathPush_noSlash h hx.noSlash

theorem popDepth_plain {P s : List Bytes} (h : ∀ n ∈ P ++ s, PlainName n) :
    popDepth (P.length + 2) ((P ++ s).length + 1) (joinSlash (P ++ s)) = some (joinSlash P, P.length + 1) := by
  generalize hk : s.length = k
  induction k generalizing s with
  | zero =>
    have : s = [] := List.length_eq_zero_iff.mp hk
    subst this
    rw [List.append_nil]
    unfold popDepth
    rw [if_neg (by omega)]
  | succ k ih =>
    have hne : s ≠ [] := by intro h0; rw [h0] at hk; cases hk
    have hl := List.dropLast_concat_getLast hne
    generalize s.getLast hne = x at hl
    generalize hs' : s.dropLast = s' at hl
    subst hl
    rw [← List.append_assoc] at h ⊢
    have hlen : (P ++ s' ++ [x]).length = (P ++ s').length + 1 := by simp; omega
    rw [hlen, popDepth, if_pos (by simp only [List.length_append]; omega), pathPop_plain h]
    simp only
    exact ih (fun n hn => h n (by simp at hn ⊢; rcases hn with hn | hn <;> simp [hn])) (by simpa using hk)

/-- What is shown is at a plain path below another. -/
structure At (P : List Bytes) (e : WEntry) : Prop where
  idle : e.kind.idle = true
  place : ∃ s, (∀ n ∈ P ++ s, PlainName n) ∧ e.path = joinSlash (P ++ s) ∧ e.depth = (P ++ s).length + 1

theorem At.plain {P : List Bytes} {e : WEntry} (h : At P e) : ∀ n ∈ P, PlainName n := by
  obtain ⟨s, h1, _⟩ := h.place
  exact fun n hn => h1 n (by simp [hn])

theorem At.up {P : List Bytes} {k : Bytes} {e : WEntry} (h : At (P ++ [k]) e) : At P e := by
  obtain ⟨s, h1, h2, h3⟩ := h.place
  refine ⟨h.idle, k :: s, ?_, ?_, ?_⟩
  · simpa using h1
  · simpa using h2
  · simpa using h3

theorem become_plain {P : List Bytes} {e : WEntry} (h : At P e) {k : Bytes} (hk : PlainName k) (debug : Bool)
    (kind : WKind) (cid : Cid) (m : Metadata) :
    e.become debug kind cid k (P.length + 2) m =
      some ⟨cid, kind, joinSlash (P ++ [k]), m, P.length + 2⟩ := by
  obtain ⟨s, h1, h2, h3⟩ := h.place
  unfold WEntry.become
  rw [if_pos h.idle]
  unfold WEntry.setPath
  simp only
  rw [if_neg (by rw [h2, h3, ancestors_plain h1]; simp), h2, h3, popDepth_plain h1]
  simp only
  rw [pathPush_plain h.plain hk]
  have h4 : ∀ n ∈ P ++ [k], PlainName n := by
    intro n hn
    rcases List.mem_append.mp hn with hn | hn
    · exact h.plain n hn
    · rw [List.mem_singleton] at hn; exact hn ▸ hk
  rw [if_neg (by rw [ancestors_plain h4]; simp)]

/-! ## Steps -/

/-- Feeding some blocks. -/
inductive WSteps (fetch : Cid → Option Bytes) : Walker → List WItem → Walker → Prop where
  | refl (w : Walker) : WSteps fetch w [] w
  | step {w w1 w2 : Walker} {c : Cid} {block : Bytes} {i : WItem} {is : List WItem} :
      w.shouldContinue = true → w.wanted = some c → fetch c = some block → w.step block = .ok (i, w1) →
      WSteps fetch w1 is w2 → WSteps fetch w (i :: is) w2

theorem WSteps.trans {fetch : Cid → Option Bytes} {w w1 w2 : Walker} {is js : List WItem}
    (h1 : WSteps fetch w is w1) (h2 : WSteps fetch w1 js w2) : WSteps fetch w (is ++ js) w2 := by
  induction h1 with
  | refl w => exact h2
  | step a b c d _ ih => exact .step a b c d (ih h2)

theorem WSteps.feed {fetch : Cid → Option Bytes} {w w' : Walker} {is : List WItem} (h : WSteps fetch w is w')
    (hd : w'.shouldContinue = false) {fuel : Nat} (hf : is.length ≤ fuel) : w.feed fetch fuel = (is, .done) := by
  induction h generalizing fuel with
  | refl w =>
    cases fuel with
    | zero => simp [Walker.feed, hd]
    | succ fuel => simp [Walker.feed, hd]
  | step a b c d _ ih =>
    cases fuel with
    | zero => simp at hf
    | succ fuel =>
      have := ih hd (fuel := fuel) (by simpa using hf)
      simp [Walker.feed, a, b, c, d, this]

/-- What is still to be visited. -/
def OnStack (w : Walker) : List Todo → Prop
  | [] => w.next = none ∧ w.pending = [] ∧ w.shouldContinue = false
  | t :: ts => w.next = some t ∧ w.pending = ts ∧ w.shouldContinue = true

theorem onStack_advance (w : Walker) (e : WEntry) (ts : List Todo) :
    OnStack (w.advance e ts) ts ∧ (w.advance e ts).current = some e ∧ (w.advance e ts).debug = w.debug := by
  cases ts <;> simp [Walker.advance, OnStack]

/-- Nothing is read: the next thing to visit is wanted. -/
theorem wanted_idle {w : Walker} {t : Todo} (hn : w.next = some t)
    (hi : ∀ e, w.current = some e → e.kind.idle = true) : w.wanted = some t.1 := by
  unfold Walker.wanted
  simp only [hn, Option.map_some]
  split
  · rename_i e he
    have := hi e he
    split
    · rename_i heq; rw [heq] at this; cases this
    · rfl
  · rfl

theorem step_idle {w : Walker} (hi : ∀ e, w.current = some e → e.kind.idle = true) (block : Bytes) :
    w.step block = w.nextEntry block := by
  unfold Walker.step
  split
  · rename_i e he
    have := hi e he
    split
    · rename_i heq; rw [heq] at this; cases this
    · rfl
  · rfl

/-! ## Files -/

/-- The segments of a file. -/
def fileItems (cid : Cid) (path : Bytes) (m : Metadata) (size : Nat) : Bool → List Bytes → List WItem
  | _, [] => []
  | first, [b] => [.file b first true cid path m size]
  | first, b :: c :: bs => .file b first false cid path m size :: fileItems cid path m size false (c :: bs)

theorem walk_visit {fetch : Cid → Option Bytes} {fuel : Nat} {v : Visit} {chunks : List Bytes}
    (h : catLoop fetch fuel v = (chunks, .done)) {w : Walker} {e : WEntry} {size : Nat}
    (hc : w.current = some e) (hk : e.kind = .file (some v) size) (hs : w.shouldContinue = true) :
    ∃ segs, segs ≠ [] ∧ segs.flatten = chunks.flatten ∧
      WSteps fetch w (fileItems e.cid e.path e.metadata size false segs)
        { w with current := some { e with kind := .file none size }, shouldContinue := w.next.isSome } := by
  induction fuel generalizing v chunks w e with
  | zero => cases h
  | succ fuel ih =>
    rw [catLoop] at h
    split at h
    · cases h
    · rename_i next r ps hp
      split at h
      · cases h
      · rename_i data hf
        split at h
        · cases h
        · cases h
        · rename_i bytes more hcw
          have hw : w.wanted = some next := by
            unfold Walker.wanted
            simp only [hc, hk, hp]
            rfl
          have hstep : w.step data = w.nextFile e v size data := by
            unfold Walker.step
            simp only [hc, hk]
          have hstep' : w.step data = .ok (.file bytes false more.isNone e.cid e.path e.metadata size,
              { w with
                current := some { e with kind := .file more size },
                shouldContinue := more.isSome || w.next.isSome }) := by
            rw [hstep]
            unfold Walker.nextFile
            rw [hcw]
          cases more with
          | none =>
            cases h
            refine ⟨[bytes], by simp, ?_, ?_⟩
            · cases bytes <;> simp
            · exact .step hs hw hf hstep' (.refl _)
          | some v' =>
            simp only at h
            cases hrest : catLoop fetch fuel v' with
            | mk rest end' =>
              rw [hrest] at h
              simp only [Prod.mk.injEq] at h
              obtain ⟨h1, h2⟩ := h
              subst h2
              obtain ⟨segs, s1, s2, s3⟩ := ih hrest
                (w := { w with current := some { e with kind := .file (some v') size }, shouldContinue := true })
                (e := { e with kind := .file (some v') size }) rfl rfl rfl
              refine ⟨bytes :: segs, by simp, ?_, ?_⟩
              · rw [← h1, List.flatten_cons, s2, List.flatten_append]
                cases bytes <;> simp
              · cases segs with
                | nil => exact absurd rfl s1
                | cons c bs =>
                  rw [fileItems]
                  exact .step hs hw hf hstep' s3

theorem visitStart_parsed {block : Bytes} {flat : Flat} (h : Flat.parse block = .ok flat) (range : Option Rng) :
    visitStart range block = visitParsed range flat := by
  unfold visitStart visitParsed FileReader.fromBlock parseFlat
  rw [h]

theorem visitParsed_of_cat {fetch : Cid → Option Bytes} {block : Bytes} {fuel : Nat} {chunks : List Bytes}
    (h : cat fetch none block fuel = (chunks, .done)) :
    ∃ flat bytes size m visit, Flat.parse block = .ok flat ∧ (flat.data.type = .file ∨ flat.data.type = .raw) ∧
      visitParsed none flat = .ok (bytes, size, m, visit) ∧
      ((visit = none ∧ bytes = chunks.flatten) ∨
        ∃ v rest, visit = some v ∧ catLoop fetch fuel v = (rest, .done) ∧ chunks.flatten = bytes ++ rest.flatten) := by
  unfold cat at h
  cases hp : Flat.parse block with
  | error e =>
    unfold visitStart FileReader.fromBlock parseFlat at h
    rw [hp] at h
    cases e <;> cases h
  | ok flat =>
    rw [visitStart_parsed hp] at h
    cases hq : visitParsed none flat with
    | error e =>
      rw [hq] at h
      cases e <;> cases h
    | ok r =>
      rw [hq] at h
      obtain ⟨bytes, size, m, visit⟩ := r
      have htype : flat.data.type = .file ∨ flat.data.type = .raw := by
        refine Classical.byContradiction fun hn => ?_
        have h0 : flat.data.type ≠ .file ∧ flat.data.type ≠ .raw := by
          exact ⟨fun a => hn (Or.inl a), fun a => hn (Or.inr a)⟩
        unfold visitParsed FileReader.fromParts at hq
        simp only [if_pos h0] at hq
        cases hq
      refine ⟨flat, bytes, size, m, visit, rfl, htype, hq, ?_⟩
      simp only at h
      cases visit with
      | none =>
        left
        simp only [Prod.mk.injEq, and_true] at h
        refine ⟨rfl, ?_⟩
        rw [← h]
        cases bytes <;> simp
      | some v =>
        right
        simp only at h
        cases hrest : catLoop fetch fuel v with
        | mk rest end' =>
          rw [hrest] at h
          simp only [Prod.mk.injEq] at h
          obtain ⟨h1, h2⟩ := h
          subst h2
          refine ⟨v, rest, rfl, hrest, ?_⟩
          rw [← h1, List.flatten_append]
          cases bytes <;> simp

/-- The size and the metadata are those of the first block. -/
theorem visitParsed_meta {flat : Flat} {bytes : Bytes} {size : Nat} {m : Metadata} {visit : Option Visit}
    (h : visitParsed none flat = .ok (bytes, size, m, visit)) :
    flat.data.filesize = some size ∧ m = Metadata.of flat.data := by
  unfold visitParsed at h
  cases hf : FileReader.fromParts flat 0 (Metadata.of flat.data) with
  | error e => rw [hf] at h; cases h
  | ok fr =>
    rw [hf] at h
    have h1 : fr.fileSize = size ∧ fr.metadata = m := by
      unfold startFromReader at h
      simp only at h
      split at h
      · split at h
        · cases h
        · cases h; exact ⟨rfl, rfl⟩
      · split at h
        · cases h
        · cases h; exact ⟨rfl, rfl⟩
        · cases h; exact ⟨rfl, rfl⟩
    have h2 : flat.data.filesize = some fr.fileSize ∧ fr.metadata = Metadata.of flat.data := by
      unfold FileReader.fromParts at hf
      simp only at hf
      split at hf
      · cases hf
      split at hf
      · cases hf
      split at hf
      · cases hf
      split at hf
      · cases hf
      split at hf
      · cases hf
      · split at hf
        · cases hf
        · rename_i hs
          cases hf
          exact ⟨hs, rfl⟩
    exact ⟨by rw [h2.1, h1.1], by rw [← h1.2, h2.2]⟩

end Verif.Unixfs
