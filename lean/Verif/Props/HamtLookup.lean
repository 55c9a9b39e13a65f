import Verif.Unixfs.Dir

/-!
# C15: looking up a name in a HAMT-sharded directory
-/

namespace Verif.Props

open Verif Verif.Unixfs

/-! ### Specification -/

/-- The buckets reachable from a block: the links with names of two bytes lead to further ones. -/
inductive Bucket (fetch : Cid → Option Bytes) (root : Bytes) : Bytes → Prop where
  | root : Bucket fetch root root
  | child {b b' : Bytes} {flat : Flat} {l : PBLink} {c : Cid} : Bucket fetch root b →
      Flat.parse b = .ok flat → l ∈ flat.links → l.nameOr.length = 2 → l.cid = some c →
      fetch c = some b' → Bucket fetch root b'

/-- A link of the bucket has the name, after two bytes that are the position in the bucket. -/
def HasName (b name : Bytes) (l : PBLink) : Prop :=
  ∃ flat, Flat.parse b = .ok flat ∧ l ∈ flat.links ∧ ∃ x y, l.nameOr = x :: y :: name

/-- The bucket has the entry. -/
def Holds (b name : Bytes) (c : Cid) : Prop := ∃ l, HasName b name l ∧ l.cid = some c

/-- A finite tree of buckets. -/
inductive Shard where
  | node (block : Bytes) (children : List Shard)

def Shard.block : Shard → Bytes
  | .node b _ => b

mutual
/-- The number of buckets. -/
def Shard.size : Shard → Nat
  | .node _ ch => 1 + sizes ch

def sizes : List Shard → Nat
  | [] => 0
  | t :: ts => t.size + sizes ts
end

/-- A bucket as the code supports them: the right parameters, names that can be cut after two bytes,
links that are cids, and the name at most once. -/
structure GoodBucket (name b : Bytes) (flat : Flat) : Prop where
  parsed : Flat.parse b = .ok flat
  type : flat.data.type = .hamtShard
  fanout : flat.data.fanout = some 256
  hashType : flat.data.hashType = some 34
  filesize : flat.data.filesize = none
  blocksizes : flat.data.blocksizes = []
  cuttable : ∀ l ∈ flat.links, 2 < l.nameOr.length → cut2 l.nameOr = some (l.nameOr.drop 2)
  cids : ∀ l ∈ flat.links, l.cid.isSome
  once : flat.links.Pairwise (fun l l' => ¬ (l.nameOr.drop 2 = name ∧ l'.nameOr.drop 2 = name))

mutual
/-- The tree is stored: its buckets are good and the children are the blocks of the links with names of
two bytes, in order. -/
def IsShard (fetch : Cid → Option Bytes) (name : Bytes) : Shard → Prop
  | .node b ch => ∃ flat, GoodBucket name b flat ∧
      Kids fetch name ((flat.links.filter (fun l => l.nameOr.length = 2)).filterMap PBLink.cid) ch

def Kids (fetch : Cid → Option Bytes) (name : Bytes) : List Cid → List Shard → Prop
  | [], [] => True
  | c :: cs, t :: ts => fetch c = some t.block ∧ IsShard fetch name t ∧ Kids fetch name cs ts
  | _, _ => False
end

/-! ### Helpers -/

/-- The cids of the child buckets. -/
def bucketCids (links : List PBLink) : List Cid :=
  (links.filter (fun l => l.nameOr.length = 2)).filterMap PBLink.cid

theorem cut2_some {n r : Bytes} (h : cut2 n = some r) : r = n.drop 2 := by
  unfold cut2 at h
  split at h
  · rename_i h1; simp at h; rw [h1, h]
  · rename_i h1
    split at h
    · cases h
    · simp at h; rw [h1, h]

theorem drop2_eq {n name : Bytes} (hl : 2 < n.length) (h : n.drop 2 = name) : ∃ x y, n = x :: y :: name := by
  match n, hl with
  | x :: y :: n, _ => exact ⟨x, y, by simpa using h⟩

theorem partition_ok {name : Bytes} {links : List PBLink} {found f : Option Cid} {work w : List Cid}
    (hname : name ≠ []) (h : partition name links found work = .ok (f, w)) :
    w = work ++ bucketCids links ∧
    (f = none → found = none ∧ ∀ l ∈ links, ¬ ∃ x y, l.nameOr = x :: y :: name) ∧
    (∀ c, f = some c → found = some c ∨ ∃ l ∈ links, (∃ x y, l.nameOr = x :: y :: name) ∧ l.cid = some c) := by
  induction links generalizing found work with
  | nil =>
    simp only [partition, Except.ok.injEq, Prod.mk.injEq] at h
    obtain ⟨rfl, rfl⟩ := h
    refine ⟨by simp [bucketCids], fun h => ⟨h, by simp⟩, fun c h => Or.inl h⟩
  | cons l links ih =>
    simp only [partition] at h
    have lift : ∀ {found' work'}, partition name links found' work' = .ok (f, w) → found' = found →
        (¬ ∃ x y, l.nameOr = x :: y :: name) → work' ++ bucketCids links = work ++ bucketCids (l :: links) →
        w = work ++ bucketCids (l :: links) ∧
        (f = none → found = none ∧ ∀ l' ∈ l :: links, ¬ ∃ x y, l'.nameOr = x :: y :: name) ∧
        (∀ c, f = some c → found = some c ∨
          ∃ l' ∈ l :: links, (∃ x y, l'.nameOr = x :: y :: name) ∧ l'.cid = some c) := by
      intro found' work' hp hf hn hw
      subst hf
      obtain ⟨h1, h2, h3⟩ := ih hp
      refine ⟨by rw [h1, hw], ?_, ?_⟩
      · intro hh
        refine ⟨(h2 hh).1, ?_⟩
        intro l' hl'
        rcases List.mem_cons.mp hl' with rfl | hl'
        · exact hn
        · exact (h2 hh).2 l' hl'
      · intro c hc
        rcases h3 c hc with h | ⟨l', hl', h⟩
        · exact Or.inl h
        · exact Or.inr ⟨l', by simp [hl'], h⟩
    split at h
    · rename_i hlen
      have hb : bucketCids (l :: links) = bucketCids links := by
        unfold bucketCids
        rw [List.filter_cons_of_neg (by simp; omega)]
      split at h
      · cases h
      · rename_i rest hcut
        have hr := cut2_some hcut
        split at h
        · rename_i hmatch
          obtain ⟨x, y, hxy⟩ := drop2_eq hlen (hr.symm.trans hmatch)
          split at h
          · cases h
          · split at h
            · cases h
            · rename_i c hc
              obtain ⟨h1, h2, h3⟩ := ih h
              refine ⟨by rw [h1, hb], ?_, ?_⟩
              · intro hf; exact absurd (h2 hf).1 (by simp)
              · intro c' hc'
                rcases h3 c' hc' with h | ⟨l', hl', h⟩
                · simp at h
                  subst h
                  exact Or.inr ⟨l, by simp, ⟨x, y, hxy⟩, hc⟩
                · exact Or.inr ⟨l', by simp [hl'], h⟩
        · rename_i hmatch
          refine lift h rfl ?_ (by rw [hb])
          rintro ⟨x, y, hxy⟩
          rw [hr, hxy] at hmatch
          exact hmatch rfl
    · rename_i hlen
      have hno : ¬ ∃ x y, l.nameOr = x :: y :: name := by
        rintro ⟨x, y, hxy⟩
        rw [hxy] at hlen
        apply hlen
        cases name with
        | nil => exact absurd rfl hname
        | cons a t => simp
      split at h
      · rename_i h2
        split at h
        · cases h
        · rename_i c hc
          refine lift h rfl hno ?_
          unfold bucketCids
          rw [List.filter_cons_of_pos (by simp [h2])]
          simp [hc]
      · rename_i h2
        refine lift h rfl hno ?_
        unfold bucketCids
        rw [List.filter_cons_of_neg (by simp [h2])]

theorem lookupBucket_ok {name : Bytes} {hamt : Flat} {queue : List Cid} {m : Maybe} (hname : name ≠ [])
    (h : lookupBucket name hamt queue = .ok m) :
    (∀ c, m = .found c → ∃ l ∈ hamt.links, (∃ x y, l.nameOr = x :: y :: name) ∧ l.cid = some c) ∧
    (m = .notFound → queue ++ bucketCids hamt.links = [] ∧
      ∀ l ∈ hamt.links, ¬ ∃ x y, l.nameOr = x :: y :: name) ∧
    (∀ q, m = .more q → q = queue ++ bucketCids hamt.links ∧
      ∀ l ∈ hamt.links, ¬ ∃ x y, l.nameOr = x :: y :: name) := by
  unfold lookupBucket at h
  split at h
  · cases h
  · split at h
    · cases h
    · rename_i c w hp
      obtain ⟨h1, h2, h3⟩ := partition_ok hname hp
      simp only [Except.ok.injEq] at h
      subst h
      refine ⟨?_, by intro h; (cases h), by intro q h; (cases h)⟩
      intro c' hc'
      simp only [Maybe.found.injEq] at hc'
      rcases h3 c rfl with h | h
      · cases h
      · rw [← hc']; exact h
    · rename_i hp
      obtain ⟨h1, h2, h3⟩ := partition_ok hname hp
      simp only [Except.ok.injEq] at h
      subst h
      exact ⟨by intro c h; (cases h), fun _ => ⟨h1.symm, (h2 rfl).2⟩, by intro q h; (cases h)⟩
    · rename_i q qs hp
      obtain ⟨h1, h2, h3⟩ := partition_ok hname hp
      simp only [Except.ok.injEq] at h
      subst h
      refine ⟨by intro c h; (cases h), by intro h; (cases h), ?_⟩
      intro q' hq
      simp only [Maybe.more.injEq] at hq
      subst hq
      exact ⟨h1, (h2 rfl).2⟩

theorem continueWalk_ok {name block : Bytes} {queue : List Cid} {m : Maybe}
    (h : continueWalk name queue block = .ok m) :
    ∃ flat, Flat.parse block = .ok flat ∧ lookupBucket name flat queue = .ok m := by
  unfold continueWalk at h
  split at h
  · cases h
  · rename_i flat hp
    split at h
    · exact ⟨flat, hp, h⟩
    · cases h

theorem mem_bucketCids {links : List PBLink} {c : Cid} (h : c ∈ bucketCids links) :
    ∃ l ∈ links, l.nameOr.length = 2 ∧ l.cid = some c := by
  unfold bucketCids at h
  obtain ⟨l, hl, hc⟩ := List.mem_filterMap.mp h
  have := List.mem_filter.mp hl
  exact ⟨l, this.1, by simpa using this.2, hc⟩

theorem Bucket.trans {fetch : Cid → Option Bytes} {a b c : Bytes} (h1 : Bucket fetch a b)
    (h2 : Bucket fetch b c) : Bucket fetch a c := by
  induction h2 with
  | root => exact h1
  | child _ hp hl hn hc hf ih => exact .child ih hp hl hn hc hf

/-- A bucket is the root or below one of its children. -/
theorem Bucket.split {fetch : Cid → Option Bytes} {a b : Bytes} {flat : Flat} (h : Bucket fetch a b)
    (hp : Flat.parse a = .ok flat) :
    b = a ∨ ∃ l ∈ flat.links, l.nameOr.length = 2 ∧ ∃ c, l.cid = some c ∧ ∃ b', fetch c = some b' ∧ Bucket fetch b' b := by
  induction h with
  | root => exact Or.inl rfl
  | @child b b' flat' l c _ hp' hl hn hc hf ih =>
    rcases ih with rfl | ⟨l0, hl0, hn0, c0, hc0, b0, hf0, hb0⟩
    · rw [hp] at hp'
      simp only [Except.ok.injEq] at hp'
      subst hp'
      exact Or.inr ⟨l, hl, hn, c, hc, b', hf, .root⟩
    · exact Or.inr ⟨l0, hl0, hn0, c0, hc0, b0, hf0, .child hb0 hp' hl hn hc hf⟩

theorem feed_found {fetch : Cid → Option Bytes} {name root : Bytes} {fuel : Nat} {queue : List Cid} {c : Cid}
    (hname : name ≠ []) (hq : ∀ x ∈ queue, ∀ b, fetch x = some b → Bucket fetch root b)
    (h : feed fetch name fuel queue = .found c) : ∃ b, Bucket fetch root b ∧ Holds b name c := by
  induction fuel generalizing queue with
  | zero => simp [feed] at h
  | succ fuel ih =>
    cases queue with
    | nil => simp [feed] at h
    | cons x queue =>
      simp only [feed] at h
      split at h
      · cases h
      · rename_i block hf
        have hb := hq x (by simp) block hf
        split at h
        · cases h
        · rename_i c' hc
          simp only [Lookup.found.injEq] at h
          subst h
          obtain ⟨flat, hp, hl⟩ := continueWalk_ok hc
          obtain ⟨l, hl1, hl2, hl3⟩ := (lookupBucket_ok hname hl).1 _ rfl
          exact ⟨block, hb, l, ⟨flat, hp, hl1, hl2⟩, hl3⟩
        · cases h
        · rename_i q hc
          obtain ⟨flat, hp, hl⟩ := continueWalk_ok hc
          obtain ⟨rfl, -⟩ := (lookupBucket_ok hname hl).2.2 _ rfl
          refine ih ?_ h
          intro y hy b' hfb
          rcases List.mem_append.mp hy with hy | hy
          · exact hq y (by simp [hy]) b' hfb
          · obtain ⟨l, hl1, hl2, hl3⟩ := mem_bucketCids hy
            exact .child hb hp hl1 hl2 hl3 hfb

theorem feed_notFound {fetch : Cid → Option Bytes} {name : Bytes} {fuel : Nat} {queue : List Cid}
    (hname : name ≠ []) (h : feed fetch name fuel queue = .notFound) :
    ∀ x ∈ queue, ∀ b0, fetch x = some b0 → ∀ b, Bucket fetch b0 b → ∀ l, ¬ HasName b name l := by
  induction fuel generalizing queue with
  | zero => simp [feed] at h
  | succ fuel ih =>
    cases queue with
    | nil => simp
    | cons x queue =>
      simp only [feed] at h
      split at h
      · cases h
      · rename_i block hf
        have fin : ∀ flat, Flat.parse block = .ok flat →
            (∀ l ∈ flat.links, ¬ ∃ x y, l.nameOr = x :: y :: name) →
            (∀ z ∈ queue ++ bucketCids flat.links, ∀ b0, fetch z = some b0 → ∀ b, Bucket fetch b0 b →
              ∀ l, ¬ HasName b name l) →
            ∀ z ∈ x :: queue, ∀ b0, fetch z = some b0 → ∀ b, Bucket fetch b0 b → ∀ l, ¬ HasName b name l := by
          intro flat hp hno hrest z hz b0 hz0 b hb l
          rcases List.mem_cons.mp hz with rfl | hz
          · rw [hf] at hz0
            simp only [Option.some.injEq] at hz0
            subst hz0
            rcases hb.split hp with rfl | ⟨l', hl', hn', c, hc, b', hfb, hb'⟩
            · rintro ⟨flat', hp', hl', hxy⟩
              rw [hp] at hp'
              simp only [Except.ok.injEq] at hp'
              subst hp'
              exact hno l hl' hxy
            · refine hrest c ?_ b' hfb b hb' l
              refine List.mem_append.mpr (Or.inr ?_)
              unfold bucketCids
              exact List.mem_filterMap.mpr ⟨l', List.mem_filter.mpr ⟨hl', by simp [hn']⟩, hc⟩
          · exact hrest z (by simp [hz]) b0 hz0 b hb l
        split at h
        · cases h
        · cases h
        · rename_i hc
          obtain ⟨flat, hp, hl⟩ := continueWalk_ok hc
          obtain ⟨hnil, hno⟩ := (lookupBucket_ok hname hl).2.1 rfl
          exact fin flat hp hno (by rw [hnil]; simp)
        · rename_i q hc
          obtain ⟨flat, hp, hl⟩ := continueWalk_ok hc
          obtain ⟨rfl, hno⟩ := (lookupBucket_ok hname hl).2.2 _ rfl
          exact fin flat hp hno (ih h)

theorem dirResolve_hamt {root name : Bytes} {flat : Flat} (hp : Flat.parse root = .ok flat)
    (ht : flat.data.type = .hamtShard) {m : Maybe} :
    dirResolve root name = .ok m ↔ lookupBucket name flat [] = .ok m := by
  unfold dirResolve
  simp only [hp, ht, if_true]
  split <;> simp_all

/-! ### C15 -/

/-- **C15**: whatever the blocks are, an answer is right: the cid found is the one of an entry with the
name in a reachable bucket. -/
theorem C15_found_is_held (fetch : Cid → Option Bytes) (name root : Bytes) (fuel : Nat) (c : Cid) (flat : Flat)
    (hname : name ≠ []) (hp : Flat.parse root = .ok flat) (ht : flat.data.type = .hamtShard)
    (h : hamtLookup fetch name fuel root = .found c) : ∃ b, Bucket fetch root b ∧ Holds b name c := by
  unfold hamtLookup at h
  split at h
  · cases h
  · rename_i c' hc
    simp only [Lookup.found.injEq] at h
    subst h
    rw [dirResolve_hamt hp ht] at hc
    obtain ⟨l, hl1, hl2, hl3⟩ := (lookupBucket_ok hname hc).1 _ rfl
    exact ⟨root, .root, l, ⟨flat, hp, hl1, hl2⟩, hl3⟩
  · cases h
  · rename_i q hc
    rw [dirResolve_hamt hp ht] at hc
    obtain ⟨rfl, -⟩ := (lookupBucket_ok hname hc).2.2 _ rfl
    refine feed_found hname ?_ h
    intro x hx b hf
    obtain ⟨l, hl1, hl2, hl3⟩ := mem_bucketCids (by simpa using hx)
    exact .child .root hp hl1 hl2 hl3 hf

/-- **C15**: whatever the blocks are, "not found" means that no reachable bucket has the name. -/
theorem C15_not_found (fetch : Cid → Option Bytes) (name root : Bytes) (fuel : Nat) (flat : Flat)
    (hname : name ≠ []) (hp : Flat.parse root = .ok flat) (ht : flat.data.type = .hamtShard)
    (h : hamtLookup fetch name fuel root = .notFound) :
    ∀ b, Bucket fetch root b → ∀ l, ¬ HasName b name l := by
  unfold hamtLookup at h
  have fin : (∀ l ∈ flat.links, ¬ ∃ x y, l.nameOr = x :: y :: name) →
      (∀ z ∈ bucketCids flat.links, ∀ b0, fetch z = some b0 → ∀ b, Bucket fetch b0 b →
        ∀ l, ¬ HasName b name l) → ∀ b, Bucket fetch root b → ∀ l, ¬ HasName b name l := by
    intro hno hrest b hb l
    rcases hb.split hp with rfl | ⟨l', hl', hn', c, hc, b', hfb, hb'⟩
    · rintro ⟨flat', hp', hl', hxy⟩
      rw [hp] at hp'
      simp only [Except.ok.injEq] at hp'
      subst hp'
      exact hno l hl' hxy
    · refine hrest c ?_ b' hfb b hb' l
      unfold bucketCids
      exact List.mem_filterMap.mpr ⟨l', List.mem_filter.mpr ⟨hl', by simp [hn']⟩, hc⟩
  split at h
  · cases h
  · cases h
  · rename_i hc
    rw [dirResolve_hamt hp ht] at hc
    obtain ⟨hnil, hno⟩ := (lookupBucket_ok hname hc).2.1 rfl
    simp only [List.nil_append] at hnil
    exact fin hno (by rw [hnil]; simp)
  · rename_i q hc
    rw [dirResolve_hamt hp ht] at hc
    obtain ⟨rfl, hno⟩ := (lookupBucket_ok hname hc).2.2 _ rfl
    exact fin hno (by simpa using feed_notFound hname h)

theorem partition_good {name : Bytes} {links : List PBLink} {found : Option Cid} {work : List Cid}
    (hcut : ∀ l ∈ links, 2 < l.nameOr.length → cut2 l.nameOr = some (l.nameOr.drop 2))
    (hcid : ∀ l ∈ links, l.cid.isSome)
    (honce : links.Pairwise (fun l l' => ¬ (l.nameOr.drop 2 = name ∧ l'.nameOr.drop 2 = name)))
    (hfound : found.isSome → ∀ l ∈ links, l.nameOr.drop 2 ≠ name) :
    ∃ r, partition name links found work = .ok r := by
  induction links generalizing found work with
  | nil => exact ⟨_, rfl⟩
  | cons l links ih =>
    rw [List.pairwise_cons] at honce
    have ih' := fun found work hf => ih (found := found) (work := work)
      (fun x hx => hcut x (by simp [hx])) (fun x hx => hcid x (by simp [hx])) honce.2 hf
    obtain ⟨c, hc⟩ := Option.isSome_iff_exists.mp (hcid l (by simp))
    simp only [partition, hc]
    split
    · rename_i hlen
      rw [hcut l (by simp) hlen]
      simp only []
      split
      · rename_i hm
        cases found with
        | some x => exact absurd hm (hfound rfl l (by simp))
        | none =>
          simp only []
          exact ih' _ _ (fun _ x hx hxn => honce.1 x hx ⟨hm, hxn⟩)
      · exact ih' _ _ (fun h x hx => hfound h x (by simp [hx]))
    · split
      · exact ih' _ _ (fun h x hx => hfound h x (by simp [hx]))
      · exact ih' _ _ (fun h x hx => hfound h x (by simp [hx]))

theorem lookupBucket_good {name b : Bytes} {flat : Flat} (hg : GoodBucket name b flat)
    (queue : List Cid) : ∃ m, lookupBucket name flat queue = .ok m := by
  unfold lookupBucket
  have hs : shardSupported flat.data = .ok () := by
    simp [shardSupported, hg.fanout, hg.hashType, hg.filesize, hg.blocksizes]
  rw [hs]
  obtain ⟨⟨f, w⟩, hr⟩ := partition_good (found := none) (work := queue) hg.cuttable hg.cids hg.once
    (by simp)
  rw [hr]
  cases f with
  | some c => exact ⟨_, rfl⟩
  | none => cases w with
    | nil => exact ⟨_, rfl⟩
    | cons q qs => exact ⟨_, rfl⟩

theorem Kids.append {fetch : Cid → Option Bytes} {name : Bytes} {cs ds : List Cid} {ts us : List Shard}
    (h1 : Kids fetch name cs ts) (h2 : Kids fetch name ds us) : Kids fetch name (cs ++ ds) (ts ++ us) := by
  induction cs generalizing ts with
  | nil => cases ts with
    | nil => exact h2
    | cons t ts => simp [Kids] at h1
  | cons c cs ih => cases ts with
    | nil => simp [Kids] at h1
    | cons t ts =>
      simp only [Kids] at h1
      simp only [List.cons_append, Kids]
      exact ⟨h1.1, h1.2.1, ih h1.2.2⟩

theorem sizes_append (ts us : List Shard) : sizes (ts ++ us) = sizes ts + sizes us := by
  induction ts with
  | nil => simp [sizes]
  | cons t ts ih => simp [sizes, ih]; omega

theorem feed_good {fetch : Cid → Option Bytes} {name : Bytes} (hname : name ≠ []) {fuel : Nat} {queue : List Cid}
    {ts : List Shard} (hk : Kids fetch name queue ts) (hf : sizes ts < fuel) :
    (∃ c, feed fetch name fuel queue = .found c) ∨ feed fetch name fuel queue = .notFound := by
  induction fuel generalizing queue ts with
  | zero => omega
  | succ fuel ih =>
    cases queue with
    | nil => exact Or.inr rfl
    | cons c queue =>
      cases ts with
      | nil => simp [Kids] at hk
      | cons t ts =>
        obtain ⟨b, ch⟩ := t
        simp only [Kids] at hk
        obtain ⟨h1, h2, h3⟩ := hk
        simp only [IsShard] at h2
        obtain ⟨flat, hg, hch⟩ := h2
        obtain ⟨m, hm⟩ := lookupBucket_good hg queue
        have hcw : continueWalk name queue b = .ok m := by
          simp [continueWalk, hg.parsed, hg.type, hm]
        simp only [feed, h1, Shard.block, hcw]
        cases m with
        | found c => exact Or.inl ⟨c, rfl⟩
        | notFound => exact Or.inr rfl
        | more q =>
          obtain ⟨rfl, -⟩ := (lookupBucket_ok hname hm).2.2 _ rfl
          refine ih (h3.append hch) ?_
          rw [sizes_append]
          simp only [sizes, Shard.size] at hf
          omega

/-- The lookup in a stored tree of good buckets ends with an answer. -/
theorem C15_ends (fetch : Cid → Option Bytes) (name : Bytes) (T : Shard) (fuel : Nat) (hname : name ≠ [])
    (h : IsShard fetch name T) (hf : T.size ≤ fuel) :
    (∃ c, hamtLookup fetch name fuel T.block = .found c) ∨ hamtLookup fetch name fuel T.block = .notFound := by
  obtain ⟨b, ch⟩ := T
  simp only [IsShard] at h
  obtain ⟨flat, hg, hch⟩ := h
  obtain ⟨m, hm⟩ := lookupBucket_good hg []
  have hd := (dirResolve_hamt hg.parsed hg.type (name := name)).mpr hm
  simp only [hamtLookup, Shard.block, hd]
  cases m with
  | found c => exact Or.inl ⟨c, rfl⟩
  | notFound => exact Or.inr rfl
  | more q =>
    obtain ⟨rfl, -⟩ := (lookupBucket_ok hname hm).2.2 _ rfl
    refine feed_good hname (ts := ch) (by simpa [bucketCids] using hch) ?_
    simp only [Shard.size] at hf
    omega

/-- **C15**: in a stored tree of good buckets the lookup ends with the cid of the entry if just one entry
of the reachable buckets has the name, and with "not found" if none has. -/
theorem C15_lookup (fetch : Cid → Option Bytes) (name : Bytes) (T : Shard) (fuel : Nat) (hname : name ≠ [])
    (h : IsShard fetch name T) (hf : T.size ≤ fuel) :
    (∀ c b, Bucket fetch T.block b → Holds b name c →
      (∀ b' c', Bucket fetch T.block b' → Holds b' name c' → c' = c) →
      hamtLookup fetch name fuel T.block = .found c) ∧
    ((∀ b l, Bucket fetch T.block b → ¬ HasName b name l) →
      hamtLookup fetch name fuel T.block = .notFound) := by
  have hroot : ∃ flat, Flat.parse T.block = .ok flat ∧ flat.data.type = .hamtShard := by
    obtain ⟨b, ch⟩ := T
    simp only [IsShard] at h
    obtain ⟨flat, hg, -⟩ := h
    exact ⟨flat, hg.parsed, hg.type⟩
  obtain ⟨flat, hp, ht⟩ := hroot
  rcases C15_ends fetch name T fuel hname h hf with ⟨c0, h0⟩ | h0
  · obtain ⟨b0, hb0, hh0⟩ := C15_found_is_held fetch name T.block fuel c0 flat hname hp ht h0
    constructor
    · intro c b hb hh huniq
      rw [← huniq b0 c0 hb0 hh0]; exact h0
    · intro hno
      obtain ⟨l, hl, -⟩ := hh0
      exact absurd hl (hno b0 l hb0)
  · have hno := C15_not_found fetch name T.block fuel flat hname hp ht h0
    constructor
    · rintro c b hb ⟨l, hl, -⟩ _
      exact absurd hl (hno b hb l)
    · intro _; exact h0

/-- A name twice in one bucket is an error, not a guess. -/
theorem C15_twice (name : Bytes) (links : List PBLink) (found : Option Cid) (work : List Cid)
    (hname : name ≠ []) (c : Cid) (pre mid post : List PBLink) (l l' : PBLink)
    (he : links = pre ++ l :: mid ++ l' :: post) (hl : ∃ x y, l.nameOr = x :: y :: name)
    (hl' : ∃ x y, l'.nameOr = x :: y :: name) (hc : l.cid = some c) :
    ∃ e, partition name links found work = .error e := by
  subst he
  have hne : 0 < name.length := List.length_pos_iff.mpr hname
  -- after a match the accumulator stays, and meeting the other one is an error
  have second : ∀ mid found work, found.isSome → ∃ e, partition name (mid ++ l' :: post) found work = .error e := by
    intro mid
    induction mid with
    | nil =>
      intro found work hf
      obtain ⟨x, y, hxy⟩ := hl'
      obtain ⟨f, rfl⟩ := Option.isSome_iff_exists.mp hf
      simp only [List.nil_append, partition, hxy, List.length_cons]
      rw [if_pos (by omega)]
      cases hcut : cut2 (x :: y :: name) with
      | none => exact ⟨_, rfl⟩
      | some r =>
        have := cut2_some hcut
        simp only [List.drop_succ_cons, List.drop_zero] at this
        simp [this]
    | cons m mid ih =>
      intro found work hf
      simp only [List.cons_append, partition]
      repeat' split
      all_goals first
        | exact ⟨_, rfl⟩
        | exact ih _ _ hf
        | exact ih _ _ rfl
        | skip
  induction pre generalizing found work with
  | nil =>
    obtain ⟨x, y, hxy⟩ := hl
    simp only [List.nil_append, List.cons_append, partition, hxy, List.length_cons, hc]
    rw [if_pos (by omega)]
    cases hcut : cut2 (x :: y :: name) with
    | none => exact ⟨_, rfl⟩
    | some r =>
      have := cut2_some hcut
      simp only [List.drop_succ_cons, List.drop_zero] at this
      simp only [this, if_true]
      cases found with
      | some f => exact ⟨_, rfl⟩
      | none => exact second mid _ _ rfl
  | cons p pre ih =>
    simp only [List.cons_append, partition] at ih ⊢
    repeat' split
    all_goals first
      | exact ⟨_, rfl⟩
      | exact ih _ _

/-! ### Examples -/

/-- A bucket. -/
def exBucket (links : List PBLink) : Bytes :=
  Flat.write ⟨links, { type := .hamtShard, hashType := some 34, fanout := some 256 }⟩

def exInner : Bytes := exBucket [⟨some (Cid.v0 (List.replicate 32 3)).toBytes, some "0Aname".toUTF8.toList, some 1⟩]

/-- A directory with an entry and a bucket, the bucket with another entry. -/
def exShard : Bytes := exBucket
  [⟨some (Cid.v0 (List.replicate 32 1)).toBytes, some "0Aother".toUTF8.toList, some 1⟩,
   ⟨some (Cid.v0 (List.replicate 32 2)).toBytes, some "1B".toUTF8.toList, some 1⟩]

def exFetch (c : Cid) : Option Bytes := if c = Cid.v0 (List.replicate 32 2) then some exInner else none

/-- The entry of the inner bucket and the one of the outer one are found, others are not. -/
example : hamtLookup exFetch "name".toUTF8.toList 2 exShard = .found (Cid.v0 (List.replicate 32 3)) ∧
    hamtLookup exFetch "other".toUTF8.toList 2 exShard = .found (Cid.v0 (List.replicate 32 1)) ∧
    hamtLookup exFetch "none".toUTF8.toList 2 exShard = .notFound := by decide +kernel

instance (name b : Bytes) (flat : Flat) : Decidable (GoodBucket name b flat) :=
  decidable_of_iff (Flat.parse b = .ok flat ∧ flat.data.type = .hamtShard ∧ flat.data.fanout = some 256 ∧
    flat.data.hashType = some 34 ∧ flat.data.filesize = none ∧ flat.data.blocksizes = [] ∧
    (∀ l ∈ flat.links, 2 < l.nameOr.length → cut2 l.nameOr = some (l.nameOr.drop 2)) ∧
    (∀ l ∈ flat.links, l.cid.isSome) ∧
    flat.links.Pairwise (fun l l' => ¬ (l.nameOr.drop 2 = name ∧ l'.nameOr.drop 2 = name)))
    ⟨fun ⟨a, b, c, d, e, f, g, h, i⟩ => ⟨a, b, c, d, e, f, g, h, i⟩,
     fun ⟨a, b, c, d, e, f, g, h, i⟩ => ⟨a, b, c, d, e, f, g, h, i⟩⟩

/-- It is a tree of two good buckets. -/
example : IsShard exFetch "name".toUTF8.toList (.node exShard [.node exInner []]) := by
  simp only [IsShard]
  refine ⟨_, show GoodBucket _ _ ⟨[⟨some (Cid.v0 (List.replicate 32 1)).toBytes, some "0Aother".toUTF8.toList, some 1⟩,
   ⟨some (Cid.v0 (List.replicate 32 2)).toBytes, some "1B".toUTF8.toList, some 1⟩],
   { type := .hamtShard, hashType := some 34, fanout := some 256 }⟩ by decide +kernel, ?_⟩
  rw [show (List.filterMap PBLink.cid (List.filter (fun l => decide (l.nameOr.length = 2)) _)) =
    [Cid.v0 (List.replicate 32 2)] by decide +kernel]
  simp only [Kids, IsShard, Shard.block, and_true]
  refine ⟨by decide +kernel, _, show GoodBucket _ _
    ⟨[⟨some (Cid.v0 (List.replicate 32 3)).toBytes, some "0Aname".toUTF8.toList, some 1⟩],
     { type := .hamtShard, hashType := some 34, fanout := some 256 }⟩ by decide +kernel, ?_⟩
  rw [show (List.filterMap PBLink.cid (List.filter (fun l => decide (l.nameOr.length = 2)) _)) =
    [] by decide +kernel]
  simp only [Kids]

/-- A name that cannot be cut after two bytes makes the code panic. -/
theorem C15_panics : hamtLookup exFetch "name".toUTF8.toList 2
    (exBucket [⟨some [], some "0é".toUTF8.toList, none⟩]) = .failed (.lookup .panic) := by decide +kernel

end Verif.Props
