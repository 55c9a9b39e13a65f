import Verif.Props.TreeWalk

/-!
# C61: walking any tree, sharded directories included
-/

namespace Verif.Props

open Verif Verif.Unixfs

/-! ### Specification -/

/-- What there is to report at one place of a tree. -/
inductive RepKind where
  | dir (m : Metadata)
  | shard (m : Metadata)
  | bucket
  | leaf (seen : Seen)

structure Rep where
  path : List Bytes
  cid : Cid
  kind : RepKind

/-- A directory without what it must not have. -/
structure PlainDir (d : UnixFs) : Prop where
  type : d.type = .directory
  filesize : d.filesize = none
  blocksizes : d.blocksizes = []
  hashType : d.hashType = none
  fanout : d.fanout = none
  data : d.data.getD [] = []

/-- A bucket of the one kind in use. -/
structure PlainShard (d : UnixFs) : Prop where
  type : d.type = .hamtShard
  fanout : d.fanout = some 256
  hashType : d.hashType = some 34
  filesize : d.filesize = none
  blocksizes : d.blocksizes = []

mutual
/-- The tree at a cid, and what there is to report about it, everything below a place directly after it and in the
order of the links. -/
inductive Lays (fetch : Cid → Option Bytes) : Cid → List Bytes → List Rep → Prop
  | leaf {c : Cid} {P : List Bytes} {seen : Seen} : LeafIs fetch c seen → Lays fetch c P [⟨P, c, .leaf seen⟩]
  | dir {c : Cid} {P : List Bytes} {block : Bytes} {flat : Flat} {rs : List Rep} : fetch c = some block →
      Flat.parse block = .ok flat → PlainDir flat.data → LaysDir fetch flat.links P rs →
      Lays fetch c P (⟨P, c, .dir (Metadata.of flat.data)⟩ :: rs)
  | shard {c : Cid} {P : List Bytes} {block : Bytes} {flat : Flat} {rs : List Rep} : fetch c = some block →
      Flat.parse block = .ok flat → PlainShard flat.data → LaysShard fetch flat.links P rs →
      Lays fetch c P (⟨P, c, .shard (Metadata.of flat.data)⟩ :: rs)

/-- The links of a directory. -/
inductive LaysDir (fetch : Cid → Option Bytes) : List PBLink → List Bytes → List Rep → Prop
  | nil {P : List Bytes} : LaysDir fetch [] P []
  | cons {link : PBLink} {links : List PBLink} {P : List Bytes} {c : Cid} {n : Bytes} {r1 r2 : List Rep} :
      link.cid = some c → link.name = some n → PlainName n → Lays fetch c (P ++ [n]) r1 → LaysDir fetch links P r2 →
      LaysDir fetch (link :: links) P (r1 ++ r2)

/-- The links of a bucket: after two characters the name of an entry, or nothing for another bucket. -/
inductive LaysShard (fetch : Cid → Option Bytes) : List PBLink → List Bytes → List Rep → Prop
  | nil {P : List Bytes} : LaysShard fetch [] P []
  | entry {link : PBLink} {links : List PBLink} {P : List Bytes} {c : Cid} {a b x : UInt8} {n : Bytes} {r1 r2 : List Rep} :
      link.cid = some c → link.name = some (a :: b :: x :: n) → isCont x = false → PlainName (x :: n) →
      Lays fetch c (P ++ [x :: n]) r1 → LaysShard fetch links P r2 → LaysShard fetch (link :: links) P (r1 ++ r2)
  | bucket {link : PBLink} {links : List PBLink} {P : List Bytes} {c : Cid} {a b : UInt8} {block : Bytes} {flat : Flat}
      {r1 r2 : List Rep} :
      link.cid = some c → link.name = some [a, b] → fetch c = some block → Flat.parse block = .ok flat →
      PlainShard flat.data → LaysShard fetch flat.links P r1 → LaysShard fetch links P r2 →
      LaysShard fetch (link :: links) P (⟨P, c, .bucket⟩ :: (r1 ++ r2))
end

def RepKind.isDir : RepKind → Bool
  | .dir _ => true
  | _ => false

def RepKind.isBucket : RepKind → Bool
  | .bucket => true
  | _ => false

/-- How one place is reported. `top` is the cid reported for buckets. -/
def ShowsRep (root : Bool) (top : Option Cid) (r : Rep) (items : List WItem) : Prop :=
  match r.kind with
  | .dir m => items = [if root then .rootDirectory r.cid (joinSlash r.path) m else .directory r.cid (joinSlash r.path) m]
  | .shard m => items = [.rootDirectory r.cid (joinSlash r.path) m]
  | .bucket => items = [.bucket (top.getD r.cid) (joinSlash r.path)]
  | .leaf seen => Shows false r.cid (joinSlash r.path) items seen

/-- How all that follows the root is reported. Buckets between the root and the first thing that is not a bucket are
reported with the cid of the root. -/
def ShowsReps : Option Cid → List Rep → List WItem → Prop
  | _, [], items => items = []
  | top, r :: rs, items => ∃ a b, items = a ++ b ∧ ShowsRep false top r a ∧
      ShowsReps (if r.kind.isBucket then top else none) rs b

/-- What is reported until a bucket follows a plain directory, and whether that happens. `d`: was the last one a plain
directory? -/
def untilClash : Bool → List Rep → List Rep × Bool
  | _, [] => ([], false)
  | d, r :: rs =>
    if d && r.kind.isBucket then ([], true)
    else (r :: (untilClash r.kind.isDir rs).1, (untilClash r.kind.isDir rs).2)

/-! ### Helpers -/

def dirAfter (d : Bool) (rs : List Rep) : Bool := rs.foldl (fun _ r => r.kind.isDir) d

def topAfter (top : Option Cid) (rs : List Rep) : Option Cid := rs.foldl (fun t r => if r.kind.isBucket then t else none) top

theorem untilClash_false {rs : List Rep} : ∀ {d : Bool}, (untilClash d rs).2 = false → (untilClash d rs).1 = rs := by
  induction rs with
  | nil => intro d _; rfl
  | cons r rs ih =>
    intro d h
    unfold untilClash at h ⊢
    split at h
    · cases h
    · rename_i hc
      rw [if_neg hc]
      simp only at h ⊢
      rw [ih h]

theorem untilClash_append {a b : List Rep} : ∀ {d : Bool}, untilClash d (a ++ b) =
    if (untilClash d a).2 then untilClash d a else (a ++ (untilClash (dirAfter d a) b).1, (untilClash (dirAfter d a) b).2) := by
  induction a with
  | nil => intro d; rfl
  | cons r a ih =>
    intro d
    rw [List.cons_append, untilClash, untilClash, ih (d := r.kind.isDir)]
    have e : dirAfter d (r :: a) = dirAfter r.kind.isDir a := rfl
    rw [e]
    split
    · rfl
    · simp only
      split <;> rfl

theorem showsReps_append {a b : List Rep} : ∀ {top : Option Cid} {x y : List WItem}, ShowsReps top a x →
    ShowsReps (topAfter top a) b y → ShowsReps top (a ++ b) (x ++ y) := by
  induction a with
  | nil => intro top x y h1 h2; cases h1; exact h2
  | cons r a ih =>
    intro top x y h1 h2
    obtain ⟨p, q, rfl, h3, h4⟩ := h1
    exact ⟨p, q ++ y, by simp, h3, ih h4 h2⟩

def isDirKind : WKind → Bool
  | .rootDirectory => true
  | .directory => true
  | _ => false

/-- Where the walker is, whether a plain directory was reported last, and what buckets are reported as. -/
structure St (w : Walker) (P : List Bytes) (d : Bool) (top : Option Cid) (e : WEntry) : Prop where
  current : w.current = some e
  place : At P e
  dir : isDirKind e.kind = d
  withTop : ∀ c, top = some c → e.kind = .bucketAtRoot ∧ e.cid = c ∧ e.path = joinSlash P ∧ e.depth = P.length + 1
  noTop : top = none → e.kind ≠ .bucketAtRoot

theorem St.up {w : Walker} {P : List Bytes} {k : Bytes} {d : Bool} {e : WEntry} (h : St w (P ++ [k]) d none e) : St w P d none e :=
  ⟨h.current, h.place.up, h.dir, by simp, h.noTop⟩

theorem St.idle {w : Walker} {P : List Bytes} {d : Bool} {top : Option Cid} {e : WEntry} (h : St w P d top e) :
    ∀ e, w.current = some e → e.kind.idle = true := by
  intro e' he'
  rw [h.current] at he'
  cases he'
  exact h.place.idle

section
variable {fetch : Cid → Option Bytes}

/-- The walker will panic on the next block. -/
def Panics (fetch : Cid → Option Bytes) (w : Walker) : Prop :=
  ∃ c block, w.shouldContinue = true ∧ w.wanted = some c ∧ fetch c = some block ∧ w.step block = .error .panic

/-- What comes of reporting some places. -/
def Comes (fetch : Cid → Option Bytes) (w : Walker) (d : Bool) (top : Option Cid) (P : List Bytes) (rest : List Todo)
    (rs : List Rep) : Prop :=
  ∃ items w', WSteps fetch w items w' ∧ ShowsReps top (untilClash d rs).1 items ∧
    if (untilClash d rs).2 then Panics fetch w'
    else OnStack w' rest ∧ ∃ e, St w' P (dirAfter d rs) (topAfter top rs) e

theorem comes_append {w : Walker} {d : Bool} {top : Option Cid} {P : List Bytes} {rest1 rest : List Todo} {a b : List Rep}
    (h1 : Comes fetch w d top P rest1 a)
    (h2 : ∀ w' e, OnStack w' rest1 → St w' P (dirAfter d a) (topAfter top a) e →
      Comes fetch w' (dirAfter d a) (topAfter top a) P rest b) : Comes fetch w d top P rest (a ++ b) := by
  obtain ⟨items, w', s1, s2, s3⟩ := h1
  unfold Comes
  rw [untilClash_append]
  cases hc : (untilClash d a).2 with
  | true =>
    rw [hc, if_pos rfl] at s3
    simp only [if_true]
    exact ⟨items, w', s1, s2, by rw [hc]; exact s3⟩
  | false =>
    rw [hc] at s3
    obtain ⟨t1, e, t2⟩ := s3
    rw [untilClash_false hc] at s2
    obtain ⟨items2, w2, u1, u2, u3⟩ := h2 w' e t1 t2
    simp only [Bool.false_eq_true, if_false]
    refine ⟨items ++ items2, w2, s1.trans u1, showsReps_append s2 u2, ?_⟩
    split
    · rename_i h; rw [h] at u3; exact u3
    · rename_i h
      rw [if_neg h] at u3
      obtain ⟨v1, e', v2⟩ := u3
      refine ⟨v1, e', ?_⟩
      have e1 : dirAfter d (a ++ b) = dirAfter (dirAfter d a) b := by simp [dirAfter, List.foldl_append]
      have e2 : topAfter top (a ++ b) = topAfter (topAfter top a) b := by simp [topAfter, List.foldl_append]
      rw [e1, e2]
      exact v2

theorem comes_cons {w w1 : Walker} {d : Bool} {top : Option Cid} {P : List Bytes} {rest : List Todo} {r : Rep}
    {i : WItem} {block : Bytes} {b : List Rep}
    (hn : (d && r.kind.isBucket) = false) (hc : w.shouldContinue = true) (hw : w.wanted = some r.cid) (hf : fetch r.cid = some block)
    (hs : w.step block = .ok (i, w1)) (hi : ShowsRep false top r [i])
    (h2 : Comes fetch w1 r.kind.isDir (if r.kind.isBucket then top else none) P rest b) : Comes fetch w d top P rest (r :: b) := by
  obtain ⟨items2, w2, u1, u2, u3⟩ := h2
  unfold Comes
  have hu : untilClash d (r :: b) = (r :: (untilClash r.kind.isDir b).1, (untilClash r.kind.isDir b).2) := by
    rw [untilClash, hn]; rfl
  rw [hu]
  exact ⟨i :: items2, w2, .step hc hw hf hs u1, ⟨[i], items2, rfl, hi, u2⟩, u3⟩

/-! ### Steps -/

theorem dirSupported_plain {d : UnixFs} (h : PlainDir d) : dirSupported d = true := by
  simp [dirSupported, h.filesize, h.blocksizes, h.hashType, h.fanout, h.data]

theorem shardSupported_plain {d : UnixFs} (h : PlainShard d) : shardSupported d = .ok () := by
  simp [shardSupported, h.filesize, h.blocksizes, h.hashType, h.fanout]

/-- Visiting a leaf, at the root or elsewhere. -/
theorem leaf_comes {w : Walker} {c : Cid} {name path : Bytes} {depth : Nat} {rest : List Todo} {seen : Seen}
    (hi : ∀ e, w.current = some e → e.kind.idle = true) (hs : OnStack w ((c, name, depth) :: rest))
    (hb : ∀ kind m, become w.debug w.current kind c name depth m = some ⟨c, kind, path, m, depth⟩) (hl : LeafIs fetch c seen) :
    ∃ items w' e, WSteps fetch w items w' ∧ Shows false c path items seen ∧ OnStack w' rest ∧ w'.current = some e ∧
      e.path = path ∧ e.depth = depth ∧ (e.kind = .symlink ∨ ∃ n, e.kind = .file none n) := by
  obtain ⟨hnext, hpend, hcont⟩ := hs
  have hwanted := wanted_idle hnext hi
  cases hl with
  | @symlink block flat hf hp ht =>
    have hstep : w.step block = .ok (.symlink (flat.data.data.getD []) c path (Metadata.of flat.data),
        w.advance ⟨c, .symlink, path, Metadata.of flat.data, depth⟩ rest) := by
      rw [step_idle hi, Walker.nextEntry, hp]
      simp only [ht, Walker.nextSymlink, hnext, hb, hpend]
    obtain ⟨a1, a2, _⟩ := onStack_advance w ⟨c, .symlink, path, Metadata.of flat.data, depth⟩ rest
    exact ⟨_, _, _, .step hcont hwanted hf hstep (.refl _), rfl, a1, a2, rfl, rfl, Or.inl rfl⟩
  | @file block fuel size' chunks flat' hf hp' hsz hcat =>
    obtain ⟨flat, bytes, size, m, visit, hp, ht, hv, hcase⟩ := visitParsed_of_cat hcat
    rw [hp'] at hp
    cases hp
    obtain ⟨v1, v2⟩ := visitParsed_meta hv
    rw [hsz] at v1
    cases v1
    subst v2
    have hstep : w.step block = .ok (.file bytes true visit.isNone c path (Metadata.of flat'.data) size',
        { w with
          current := some ⟨c, .file visit size', path, Metadata.of flat'.data, depth⟩,
          next := rest.head?, pending := rest.tail, shouldContinue := visit.isSome || rest.head?.isSome }) := by
      have h1 : w.startFile flat' = .ok (.file bytes true visit.isNone c path (Metadata.of flat'.data) size',
        { w with
          current := some ⟨c, .file visit size', path, Metadata.of flat'.data, depth⟩,
          next := rest.head?, pending := rest.tail, shouldContinue := visit.isSome || rest.head?.isSome }) := by
        simp only [Walker.startFile, hv, hnext, hb, hpend]
      rw [step_idle hi, Walker.nextEntry, hp']
      rcases ht with ht | ht <;> simp only [ht, h1]
    rcases hcase with ⟨rfl, hb'⟩ | ⟨v, rest', rfl, hloop, hb'⟩
    · refine ⟨_, _, _, .step hcont hwanted hf hstep (.refl _), ⟨[bytes], by simp, by simpa using hb', rfl⟩, ?_, rfl,
        rfl, rfl, Or.inr ⟨_, rfl⟩⟩
      cases rest <;> simp [OnStack]
    · obtain ⟨segs, s1, s2, s3⟩ := walk_visit hloop
        (w := { w with
          current := some ⟨c, .file (some v) size', path, Metadata.of flat'.data, depth⟩,
          next := rest.head?, pending := rest.tail, shouldContinue := (some v).isSome || rest.head?.isSome })
        (e := ⟨c, .file (some v) size', path, Metadata.of flat'.data, depth⟩) rfl rfl rfl
      refine ⟨_, _, _, .step hcont hwanted hf hstep s3, ⟨bytes :: segs, by simp, ?_, ?_⟩, ?_, rfl, rfl, rfl, Or.inr ⟨_, rfl⟩⟩
      · rw [List.flatten_cons, s2, hb']
      · cases segs with
        | nil => exact absurd rfl s1
        | cons x xs => rfl
      · cases rest <;> simp [OnStack]

theorem plain_no47 {n : Bytes} (h : PlainName n) : n.contains 47 = false := by
  cases hc : n.contains 47 with
  | false => rfl
  | true => exact absurd rfl (h.noSlash 47 (List.contains_iff_mem.mp hc))

/-- What is to be visited for the links of a directory. -/
def linkTodo (depth : Nat) (l : PBLink) : Todo := (l.cid.getD (Cid.v0 []), l.name.getD [], depth)

theorem dir_links {links : List PBLink} {P : List Bytes} {rs : List Rep} (h : LaysDir fetch links P rs) (depth : Nat) :
    ∀ nth, convertLinks (convertLink depth) nth links = .ok (links.map (linkTodo depth)) := by
  induction links generalizing rs with
  | nil => intro nth; rfl
  | cons link links ih =>
    intro nth
    cases h with
    | cons h1 h2 h3 _ h5 =>
      rw [convertLinks, ih h5]
      have h47 := plain_no47 h3
      simp only [convertLink, h1, h2, if_neg h3.nonempty, h47, Bool.false_eq_true, if_false, List.map_cons, linkTodo, Option.getD_some]

/-- What is to be visited for the links of a bucket. -/
def slotTodo (depth : Nat) (l : PBLink) : Todo :=
  if (l.name.getD []).length = 2 then (l.cid.getD (Cid.v0 []), [], depth)
  else (l.cid.getD (Cid.v0 []), (l.name.getD []).drop 2, depth + 1)

theorem shard_links {links : List PBLink} {P : List Bytes} {rs : List Rep} (h : LaysShard fetch links P rs) (depth : Nat) :
    ∀ nth, convertLinks (convertShardedLink (depth + 1) depth) nth links = .ok (links.map (slotTodo depth)) := by
  induction links generalizing rs with
  | nil => intro nth; rfl
  | cons link links ih =>
    intro nth
    cases h with
    | @entry _ _ _ c a b x n _ _ h1 h2 h0 h3 _ h5 =>
      rw [convertLinks, ih h5]
      have h47 := plain_no47 h3
      have hcut : cut2 (a :: b :: x :: n) = some (x :: n) := by
        simp [cut2, h0]
      simp only [convertShardedLink, h1, h2, List.length_cons, show n.length + 1 + 1 + 1 > 2 by omega, if_true, hcut, h47, Bool.false_eq_true,
        if_false, List.map_cons, slotTodo, Option.getD_some, show ¬ n.length + 1 + 1 + 1 = 2 by omega]
      rfl
    | @bucket _ _ _ c a b _ _ _ _ h1 h2 _ _ _ _ h5 =>
      rw [convertLinks, ih h5]
      simp [convertShardedLink, h1, h2, slotTodo]

/-- A plain directory below the root. -/
theorem step_dir {w : Walker} {P : List Bytes} {k : Bytes} {d : Bool} {top : Option Cid} {e : WEntry} {c : Cid} {rest : List Todo}
    {block : Bytes} {flat : Flat} {rs : List Rep} (hw : St w P d top e) (hs : OnStack w ((c, k, P.length + 2) :: rest)) (hk : PlainName k)
    (hp : Flat.parse block = .ok flat) (hd : PlainDir flat.data) (hl : LaysDir fetch flat.links (P ++ [k]) rs) :
    ∃ w1 e1, w.step block = .ok (.directory c (joinSlash (P ++ [k])) (Metadata.of flat.data), w1) ∧
      OnStack w1 (flat.links.map (linkTodo (P.length + 3)) ++ rest) ∧ St w1 (P ++ [k]) true none e1 := by
  obtain ⟨hnext, hpend, hcont⟩ := hs
  have hstep : w.step block = .ok (.directory c (joinSlash (P ++ [k])) (Metadata.of flat.data),
      w.advance ⟨c, .directory, joinSlash (P ++ [k]), Metadata.of flat.data, P.length + 2⟩
        (flat.links.map (linkTodo (P.length + 3)) ++ rest)) := by
    rw [step_idle hw.idle, Walker.nextEntry, hp]
    simp only [hd.type]
    have hconv := dir_links hl (P.length + 2 + 1) 0
    simp only [Walker.nextDirectory, if_pos (dirSupported_plain hd), hnext, hconv, hw.current, become, Option.isNone_some,
      Bool.false_eq_true, if_false, become_plain hw.place hk, hpend]
  obtain ⟨a1, a2, _⟩ := onStack_advance w ⟨c, .directory, joinSlash (P ++ [k]), Metadata.of flat.data, P.length + 2⟩
    (flat.links.map (linkTodo (P.length + 3)) ++ rest)
  exact ⟨_, _, hstep, a1, a2, at_snoc hw.place.plain hk rfl, rfl, by simp, by simp⟩

/-- A sharded directory below the root. -/
theorem step_shard {w : Walker} {P : List Bytes} {k : Bytes} {d : Bool} {top : Option Cid} {e : WEntry} {c : Cid} {rest : List Todo}
    {block : Bytes} {flat : Flat} {rs : List Rep} (hw : St w P d top e) (hs : OnStack w ((c, k, P.length + 2) :: rest)) (hk : PlainName k)
    (hp : Flat.parse block = .ok flat) (hd : PlainShard flat.data) (hl : LaysShard fetch flat.links (P ++ [k]) rs) :
    ∃ w1 e1, w.step block = .ok (.rootDirectory c (joinSlash (P ++ [k])) (Metadata.of flat.data), w1) ∧
      OnStack w1 (flat.links.map (slotTodo (P.length + 2)) ++ rest) ∧ St w1 (P ++ [k]) false none e1 := by
  obtain ⟨hnext, hpend, hcont⟩ := hs
  have hstep : w.step block = .ok (.rootDirectory c (joinSlash (P ++ [k])) (Metadata.of flat.data),
      w.advance ⟨c, .rootBucket, joinSlash (P ++ [k]), Metadata.of flat.data, P.length + 2⟩
        (flat.links.map (slotTodo (P.length + 2)) ++ rest)) := by
    rw [step_idle hw.idle, Walker.nextEntry, hp]
    simp only [hd.type]
    have hconv := shard_links hl (P.length + 2) 0
    simp only [Walker.nextShard, shardSupported_plain hd, hnext, hconv, hw.current, if_neg hk.nonempty,
      become_plain hw.place hk, hpend]
  obtain ⟨a1, a2, _⟩ := onStack_advance w ⟨c, .rootBucket, joinSlash (P ++ [k]), Metadata.of flat.data, P.length + 2⟩
    (flat.links.map (slotTodo (P.length + 2)) ++ rest)
  exact ⟨_, _, hstep, a1, a2, at_snoc hw.place.plain hk rfl, rfl, by simp, by simp⟩

/-- A bucket of the directory the walker is in, after anything but a plain directory. -/
theorem step_bucket {w : Walker} {P : List Bytes} {top : Option Cid} {e : WEntry} {c : Cid} {rest : List Todo}
    {block : Bytes} {flat : Flat} {rs : List Rep} (hw : St w P false top e) (hs : OnStack w ((c, [], P.length + 1) :: rest))
    (hp : Flat.parse block = .ok flat) (hd : PlainShard flat.data) (hl : LaysShard fetch flat.links P rs) :
    ∃ w1 e1, w.step block = .ok (.bucket (top.getD c) (joinSlash P), w1) ∧
      OnStack w1 (flat.links.map (slotTodo (P.length + 1)) ++ rest) ∧ St w1 P false top e1 := by
  obtain ⟨hnext, hpend, hcont⟩ := hs
  have hconv := shard_links hl (P.length + 1) 0
  cases top with
  | some t =>
    obtain ⟨k1, k2, k3, k4⟩ := hw.withTop t rfl
    have hb : e.asBucket c [] (P.length + 1) = some e := by
      unfold WEntry.asBucket
      simp only [k1, k4, if_true]
    have hstep : w.step block = .ok (.bucket t (joinSlash P), w.advance e (flat.links.map (slotTodo (P.length + 1)) ++ rest)) := by
      rw [step_idle hw.idle, Walker.nextEntry, hp]
      simp only [hd.type]
      simp only [Walker.nextShard, shardSupported_plain hd, hnext, hconv, hw.current, if_true, hb, hpend, k2, k3]
    obtain ⟨a1, a2, _⟩ := onStack_advance w e (flat.links.map (slotTodo (P.length + 1)) ++ rest)
    exact ⟨_, _, hstep, a1, a2, hw.place, hw.dir, hw.withTop, hw.noTop⟩
  | none =>
    obtain ⟨s, q1, q2, q3⟩ := hw.place.place
    have hi := hw.place.idle
    have hdir := hw.dir
    have hnt := hw.noTop rfl
    have hb : e.asBucket c [] (P.length + 1) = some { e with cid := c, kind := .bucket, path := joinSlash P, depth := P.length + 1 } := by
      unfold WEntry.asBucket
      rw [q2, q3, popDepth_plain q1]
      simp only [if_true, ne_eq, not_true_eq_false, if_false]
      cases hk : e.kind with
      | rootDirectory => rw [hk] at hdir; cases hdir
      | directory => rw [hk] at hdir; cases hdir
      | bucketAtRoot => exact absurd hk hnt
      | rootBucket => rfl
      | bucket => rfl
      | symlink => rfl
      | file v n =>
        cases v with
        | none => rfl
        | some v => rw [hk] at hi; cases hi
    have hstep : w.step block = .ok (.bucket c (joinSlash P),
        w.advance { e with cid := c, kind := .bucket, path := joinSlash P, depth := P.length + 1 }
          (flat.links.map (slotTodo (P.length + 1)) ++ rest)) := by
      rw [step_idle hw.idle, Walker.nextEntry, hp]
      simp only [hd.type]
      simp only [Walker.nextShard, shardSupported_plain hd, hnext, hconv, hw.current, if_true, hb, hpend]
    obtain ⟨a1, a2, _⟩ := onStack_advance w { e with cid := c, kind := .bucket, path := joinSlash P, depth := P.length + 1 }
      (flat.links.map (slotTodo (P.length + 1)) ++ rest)
    refine ⟨_, _, hstep, a1, a2, ⟨rfl, [], ?_, by simp, by simp⟩, rfl, by simp, by simp⟩
    simpa using hw.place.plain

/-- A bucket after a plain directory. -/
theorem step_clash {w : Walker} {P : List Bytes} {top : Option Cid} {e : WEntry} {c : Cid} {depth : Nat} {rest : List Todo}
    {block : Bytes} {flat : Flat} {rs : List Rep} (hw : St w P true top e) (hs : OnStack w ((c, [], depth) :: rest))
    (hf : fetch c = some block) (hp : Flat.parse block = .ok flat) (hd : PlainShard flat.data) (hl : LaysShard fetch flat.links P rs) :
    Panics fetch w := by
  obtain ⟨hnext, hpend, hcont⟩ := hs
  refine ⟨c, block, hcont, wanted_idle hnext hw.idle, hf, ?_⟩
  have hconv := shard_links hl depth 0
  have hb : e.asBucket c [] depth = none := by
    have hdir := hw.dir
    unfold WEntry.asBucket
    cases hk : e.kind with
    | rootDirectory => rfl
    | directory => rfl
    | _ => rw [hk] at hdir; cases hdir
  rw [step_idle hw.idle, Walker.nextEntry, hp]
  simp only [hd.type]
  simp only [Walker.nextShard, shardSupported_plain hd, hnext, hconv, hw.current, if_true, hb]

/-! ### Everything below a place -/

theorem topAfter_none (rs : List Rep) : topAfter none rs = none := by
  unfold topAfter
  induction rs with
  | nil => rfl
  | cons r rs ih => simp only [List.foldl_cons, ite_self]; exact ih

theorem comes_up {w : Walker} {d : Bool} {P : List Bytes} {k : Bytes} {rest : List Todo} {rs : List Rep}
    (h : Comes fetch w d none (P ++ [k]) rest rs) : Comes fetch w d none P rest rs := by
  obtain ⟨items, w', h1, h2, h3⟩ := h
  refine ⟨items, w', h1, h2, ?_⟩
  split
  · rename_i hc; rw [if_pos hc] at h3; exact h3
  · rename_i hc
    rw [if_neg hc] at h3
    obtain ⟨h4, e, h5⟩ := h3
    rw [topAfter_none] at h5 ⊢
    exact ⟨h4, e, h5.up⟩

/-- Something in a directory. -/
def WalksEntry (fetch : Cid → Option Bytes) (c : Cid) (Q : List Bytes) (rs : List Rep) : Prop :=
  ∀ P k, Q = P ++ [k] → PlainName k → ∀ w d top e rest, St w P d top e → OnStack w ((c, k, P.length + 2) :: rest) →
    Comes fetch w d top P rest rs

/-- All that is in a directory. -/
def WalksLinks (fetch : Cid → Option Bytes) (links : List PBLink) (P : List Bytes) (rs : List Rep) : Prop :=
  ∀ w d top e rest, St w P d top e → OnStack w (links.map (linkTodo (P.length + 2)) ++ rest) → Comes fetch w d top P rest rs

/-- All that is in a bucket. -/
def WalksSlots (fetch : Cid → Option Bytes) (links : List PBLink) (P : List Bytes) (rs : List Rep) : Prop :=
  ∀ w d top e rest, St w P d top e → OnStack w (links.map (slotTodo (P.length + 1)) ++ rest) → Comes fetch w d top P rest rs

theorem entry_leaf {c : Cid} {Q : List Bytes} {seen : Seen} (hl : LeafIs fetch c seen) :
    WalksEntry fetch c Q [⟨Q, c, .leaf seen⟩] := by
  rintro P k rfl hk w d top e rest hw hs
  obtain ⟨items, w', e', h1, h2, h3, h4, h5, h6, h7⟩ := leaf_comes (path := joinSlash (P ++ [k])) hw.idle hs
    (fun kind m => by rw [hw.current]; exact become_plain hw.place hk w.debug kind c m) hl
  have hu : untilClash d [⟨P ++ [k], c, .leaf seen⟩] = ([⟨P ++ [k], c, .leaf seen⟩], false) := by
    simp [untilClash, RepKind.isBucket]
  unfold Comes
  rw [hu]
  refine ⟨items, w', h1, ⟨items, [], by simp, h2, rfl⟩, ?_⟩
  simp only [Bool.false_eq_true, if_false]
  have hat : At (P ++ [k]) e' := by
    refine ⟨?_, [], ?_, by simpa using h5, by simpa using h6⟩
    · rcases h7 with h7 | ⟨n, h7⟩ <;> rw [h7] <;> rfl
    · intro n hn
      simp only [List.append_nil, List.mem_append, List.mem_singleton] at hn
      rcases hn with hn | rfl
      · exact hw.place.plain n hn
      · exact hk
  refine ⟨h3, e', h4, hat.up, ?_, ?_, ?_⟩
  · rcases h7 with h7 | ⟨n, h7⟩ <;> rw [h7] <;> rfl
  · intro t ht; cases ht
  · intro _; rcases h7 with h7 | ⟨n, h7⟩ <;> rw [h7] <;> simp

theorem entry_dir {c : Cid} {Q : List Bytes} {block : Bytes} {flat : Flat} {rs : List Rep} (hf : fetch c = some block)
    (hp : Flat.parse block = .ok flat) (hd : PlainDir flat.data) (hl : LaysDir fetch flat.links Q rs)
    (ih : WalksLinks fetch flat.links Q rs) : WalksEntry fetch c Q (⟨Q, c, .dir (Metadata.of flat.data)⟩ :: rs) := by
  rintro P k rfl hk w d top e rest hw hs
  obtain ⟨w1, e1, h1, h2, h3⟩ := step_dir hw hs hk hp hd hl
  refine comes_cons (by simp [RepKind.isBucket]) hs.2.2 (wanted_idle hs.1 hw.idle) hf h1 rfl ?_
  refine comes_up (k := k) (ih w1 true none e1 rest h3 ?_)
  simpa using h2

theorem entry_shard {c : Cid} {Q : List Bytes} {block : Bytes} {flat : Flat} {rs : List Rep} (hf : fetch c = some block)
    (hp : Flat.parse block = .ok flat) (hd : PlainShard flat.data) (hl : LaysShard fetch flat.links Q rs)
    (ih : WalksSlots fetch flat.links Q rs) : WalksEntry fetch c Q (⟨Q, c, .shard (Metadata.of flat.data)⟩ :: rs) := by
  rintro P k rfl hk w d top e rest hw hs
  obtain ⟨w1, e1, h1, h2, h3⟩ := step_shard hw hs hk hp hd hl
  refine comes_cons (by simp [RepKind.isBucket]) hs.2.2 (wanted_idle hs.1 hw.idle) hf h1 rfl ?_
  refine comes_up (k := k) (ih w1 false none e1 rest h3 ?_)
  simpa using h2

theorem comes_nil {w : Walker} {d : Bool} {top : Option Cid} {P : List Bytes} {e : WEntry} {rest : List Todo} (hw : St w P d top e)
    (hs : OnStack w rest) : Comes fetch w d top P rest [] :=
  ⟨[], w, .refl _, rfl, hs, e, hw⟩

theorem links_cons {link : PBLink} {links : List PBLink} {P : List Bytes} {c : Cid} {n : Bytes} {r1 r2 : List Rep}
    (h1 : link.cid = some c) (h2 : link.name = some n) (h3 : PlainName n) (ih1 : WalksEntry fetch c (P ++ [n]) r1)
    (ih2 : WalksLinks fetch links P r2) : WalksLinks fetch (link :: links) P (r1 ++ r2) := by
  intro w d top e rest hw hs
  have ht : linkTodo (P.length + 2) link = (c, n, P.length + 2) := by simp [linkTodo, h1, h2]
  rw [List.map_cons, ht] at hs
  exact comes_append (ih1 P n rfl h3 w d top e _ hw hs) (fun w' e' a b => ih2 w' _ _ e' rest b a)

theorem slots_entry {link : PBLink} {links : List PBLink} {P : List Bytes} {c : Cid} {a b x : UInt8} {n : Bytes} {r1 r2 : List Rep}
    (h1 : link.cid = some c) (h2 : link.name = some (a :: b :: x :: n)) (h3 : PlainName (x :: n))
    (ih1 : WalksEntry fetch c (P ++ [x :: n]) r1) (ih2 : WalksSlots fetch links P r2) :
    WalksSlots fetch (link :: links) P (r1 ++ r2) := by
  intro w d top e rest hw hs
  have ht : slotTodo (P.length + 1) link = (c, x :: n, P.length + 2) := by simp [slotTodo, h1, h2]
  rw [List.map_cons, ht] at hs
  exact comes_append (ih1 P (x :: n) rfl h3 w d top e _ hw hs) (fun w' e' a b => ih2 w' _ _ e' rest b a)

theorem slots_bucket {link : PBLink} {links : List PBLink} {P : List Bytes} {c : Cid} {a b : UInt8} {block : Bytes} {flat : Flat}
    {r1 r2 : List Rep} (h1 : link.cid = some c) (h2 : link.name = some [a, b]) (hf : fetch c = some block)
    (hp : Flat.parse block = .ok flat) (hd : PlainShard flat.data) (hl : LaysShard fetch flat.links P r1)
    (ih1 : WalksSlots fetch flat.links P r1) (ih2 : WalksSlots fetch links P r2) :
    WalksSlots fetch (link :: links) P (⟨P, c, .bucket⟩ :: (r1 ++ r2)) := by
  intro w d top e rest hw hs
  have ht : slotTodo (P.length + 1) link = (c, [], P.length + 1) := by simp [slotTodo, h1, h2]
  rw [List.map_cons, ht] at hs
  cases d with
  | true => exact ⟨[], w, .refl _, rfl, step_clash hw hs hf hp hd hl⟩
  | false =>
    obtain ⟨w1, e1, k1, k2, k3⟩ := step_bucket hw hs hp hd hl
    refine comes_cons rfl hs.2.2 (wanted_idle hs.1 hw.idle) hf k1 rfl ?_
    exact comes_append (ih1 w1 false top e1 _ k3 k2) (fun w' e' a b => ih2 w' _ _ e' rest b a)

theorem walksLinks {links : List PBLink} {P : List Bytes} {rs : List Rep} (h : LaysDir fetch links P rs) :
    WalksLinks fetch links P rs :=
  LaysDir.rec (fetch := fetch) (motive_1 := fun c Q rs _ => WalksEntry fetch c Q rs)
    (motive_2 := fun ls Q rs _ => WalksLinks fetch ls Q rs) (motive_3 := fun ls Q rs _ => WalksSlots fetch ls Q rs)
    (fun hl => entry_leaf hl) (fun hf hp hd hl ih => entry_dir hf hp hd hl ih) (fun hf hp hd hl ih => entry_shard hf hp hd hl ih)
    (fun _ _ _ _ _ hw hs => comes_nil hw hs) (fun h1 h2 h3 _ _ i1 i2 => links_cons h1 h2 h3 i1 i2)
    (fun _ _ _ _ _ hw hs => comes_nil hw hs) (fun h1 h2 _ h3 _ _ i1 i2 => slots_entry h1 h2 h3 i1 i2)
    (fun h1 h2 hf hp hd hl _ i1 i2 => slots_bucket h1 h2 hf hp hd hl i1 i2) h

theorem walksSlots {links : List PBLink} {P : List Bytes} {rs : List Rep} (h : LaysShard fetch links P rs) :
    WalksSlots fetch links P rs :=
  LaysShard.rec (fetch := fetch) (motive_1 := fun c Q rs _ => WalksEntry fetch c Q rs)
    (motive_2 := fun ls Q rs _ => WalksLinks fetch ls Q rs) (motive_3 := fun ls Q rs _ => WalksSlots fetch ls Q rs)
    (fun hl => entry_leaf hl) (fun hf hp hd hl ih => entry_dir hf hp hd hl ih) (fun hf hp hd hl ih => entry_shard hf hp hd hl ih)
    (fun _ _ _ _ _ hw hs => comes_nil hw hs) (fun h1 h2 h3 _ _ i1 i2 => links_cons h1 h2 h3 i1 i2)
    (fun _ _ _ _ _ hw hs => comes_nil hw hs) (fun h1 h2 _ h3 _ _ i1 i2 => slots_entry h1 h2 h3 i1 i2)
    (fun h1 h2 hf hp hd hl _ i1 i2 => slots_bucket h1 h2 hf hp hd hl i1 i2) h

theorem feed_panics {w w' : Walker} {is : List WItem} (h : WSteps fetch w is w') (hp : Panics fetch w') {fuel : Nat}
    (hf : is.length < fuel) : w.feed fetch fuel = (is, .failed .panic) := by
  induction h generalizing fuel with
  | refl w =>
    obtain ⟨c, block, p1, p2, p3, p4⟩ := hp
    cases fuel with
    | zero => cases hf
    | succ fuel => simp [Walker.feed, p1, p2, p3, p4]
  | step a b c d _ ih =>
    cases fuel with
    | zero => cases hf
    | succ fuel =>
      rw [List.length_cons] at hf
      simp only [Walker.feed, a, b, c, d, if_true, ih hp (Nat.lt_of_succ_lt_succ hf)]

/-- What comes of it as a whole. -/
theorem comes_feed {w : Walker} {d : Bool} {top : Option Cid} {P : List Bytes} {rs : List Rep} (h : Comes fetch w d top P [] rs) :
    ∃ items, ShowsReps top (untilClash d rs).1 items ∧ ∀ fuel, items.length < fuel →
      w.feed fetch fuel = (items, if (untilClash d rs).2 then .failed .panic else .done) := by
  obtain ⟨items, w', h1, h2, h3⟩ := h
  refine ⟨items, h2, fun fuel hf => ?_⟩
  cases hc : (untilClash d rs).2 with
  | true => rw [hc, if_pos rfl] at h3; exact feed_panics h1 h3 hf
  | false =>
    rw [hc] at h3
    exact h1.feed h3.1.2.2 (Nat.le_of_lt hf)

end

/-! ### Theorems -/

/-- The cid that the buckets right after the root are reported with. -/
def Rep.top (r : Rep) : Option Cid :=
  match r.kind with
  | .shard _ => some r.cid
  | _ => none

/-- How a tree is reported: the root, and what follows it. -/
def ShowsTree : List Rep → List WItem → Prop
  | [], _ => False
  | r :: rs, items => ∃ a b, items = a ++ b ∧ ShowsRep true none r a ∧ ShowsReps r.top rs b

/-- C61. Whatever the tree — files, symlinks, directories and directories in buckets, in any combination — a walk
reports every place of it once, in order, at its path below the name given for the root, and ends there; unless a
bucket follows a plain directory, right before which it panics. -/
theorem C61_walk {fetch : Cid → Option Bytes} {c : Cid} {name : Bytes} (hname : name = [] ∨ PlainName name) {rs : List Rep}
    (h : Lays fetch c (if name = [] then [] else [name]) rs) (debug : Bool) :
    ∃ items, ShowsTree (untilClash false rs).1 items ∧ ∀ fuel, items.length < fuel →
      (Walker.new debug c name).feed fetch fuel =
        (items, if (untilClash false rs).2 then .failed .panic else .done) := by
  generalize hP : (if name = [] then [] else [name]) = P at h
  have hPl : ∀ x ∈ P, PlainName x := by
    intro x hx
    subst hP
    split at hx
    · cases hx
    · rename_i h0
      rw [List.mem_singleton] at hx
      rcases hname with h1 | h1
      · exact absurd h1 h0
      · exact hx ▸ h1
  have hjoin : joinSlash P = name := by subst hP; split <;> simp_all [joinSlash]
  have hlen : P.length + 1 = if name = [] then 1 else 2 := by subst hP; split <;> rfl
  have hpush : pathPush [] name = name := by
    unfold pathPush
    have : name.head? ≠ some 47 := by
      rcases hname with rfl | h1
      · simp
      · intro he
        cases hn : name with
        | nil => rw [hn] at he; cases he
        | cons c x => rw [hn] at he h1; cases he; exact h1.noSlash 47 List.mem_cons_self rfl
    rw [if_neg this, if_pos (Or.inl rfl)]
    rfl
  generalize hw : Walker.new debug c name = w
  have hcur : w.current = none := by rw [← hw]; rfl
  have hi : ∀ e, w.current = some e → e.kind.idle = true := by intro e he; rw [hcur] at he; cases he
  have hs : OnStack w [(c, name, P.length + 1)] := by rw [hlen, ← hw]; exact ⟨rfl, rfl, rfl⟩
  have hroot : ∀ kind m, kind.idle = true → At P ⟨c, kind, name, m, P.length + 1⟩ := fun kind m hk =>
    ⟨hk, [], by simpa using hPl, by simp [hjoin], by simp⟩
  cases h with
  | @leaf _ _ seen hl =>
    obtain ⟨items, w', e', h1, h2, h3, _⟩ := leaf_comes (path := name) hi hs
      (fun kind m => by rw [hcur]; simp [become, WEntry.newRoot, hpush]) hl
    refine ⟨items, ⟨items, [], by simp, ?_, rfl⟩, fun fuel hf => h1.feed h3.2.2 (Nat.le_of_lt hf)⟩
    simp only [ShowsRep, hjoin]
    exact h2
  | @dir _ _ block flat rs hf hp hd hl =>
    have hstep : w.step block = .ok (.rootDirectory c name (Metadata.of flat.data),
        w.advance ⟨c, .rootDirectory, name, Metadata.of flat.data, P.length + 1⟩ (flat.links.map (linkTodo (P.length + 2)) ++ [])) := by
      rw [step_idle hi, Walker.nextEntry, hp]
      simp only [hd.type]
      have hconv := dir_links hl (P.length + 1 + 1) 0
      simp only [Walker.nextDirectory, if_pos (dirSupported_plain hd), hs.1, hs.2.1, hconv, hcur, become, Option.isNone_none, if_true,
        WEntry.newRoot, hpush]
    obtain ⟨a1, a2, _⟩ := onStack_advance w ⟨c, .rootDirectory, name, Metadata.of flat.data, P.length + 1⟩
      (flat.links.map (linkTodo (P.length + 2)) ++ [])
    obtain ⟨items, b1, b2⟩ := comes_feed (walksLinks hl _ true none _ [] ⟨a2, hroot _ _ rfl, rfl, by simp, by simp⟩ a1)
    refine ⟨.rootDirectory c name (Metadata.of flat.data) :: items, ⟨[_], items, rfl, ?_, b1⟩, ?_⟩
    · simp only [ShowsRep, hjoin, if_true]
    · intro fuel hfuel
      cases fuel with
      | zero => cases hfuel
      | succ fuel =>
        rw [List.length_cons] at hfuel
        have := b2 fuel (Nat.lt_of_succ_lt_succ hfuel)
        simp only [Walker.feed, hs.2.2, wanted_idle hs.1 hi, hf, hstep, this, if_true]
        rfl
  | @shard _ _ block flat rs hf hp hd hl =>
    have hstep : w.step block = .ok (.rootDirectory c name (Metadata.of flat.data),
        w.advance ⟨c, .bucketAtRoot, name, Metadata.of flat.data, P.length + 1⟩ (flat.links.map (slotTodo (P.length + 1)) ++ [])) := by
      rw [step_idle hi, Walker.nextEntry, hp]
      simp only [hd.type]
      have hconv := shard_links hl (P.length + 1) 0
      simp only [Walker.nextShard, shardSupported_plain hd, hs.1, hs.2.1, hconv, hcur, WEntry.newRoot, hpush]
    obtain ⟨a1, a2, _⟩ := onStack_advance w ⟨c, .bucketAtRoot, name, Metadata.of flat.data, P.length + 1⟩
      (flat.links.map (slotTodo (P.length + 1)) ++ [])
    obtain ⟨items, b1, b2⟩ := comes_feed (walksSlots hl _ false (some c) _ []
      ⟨a2, hroot _ _ rfl, rfl, by intro t ht; cases ht; exact ⟨rfl, rfl, hjoin.symm, rfl⟩, by simp⟩ a1)
    refine ⟨.rootDirectory c name (Metadata.of flat.data) :: items, ⟨[_], items, rfl, ?_, b1⟩, ?_⟩
    · simp only [ShowsRep, hjoin]
    · intro fuel hfuel
      cases fuel with
      | zero => cases hfuel
      | succ fuel =>
        rw [List.length_cons] at hfuel
        have := b2 fuel (Nat.lt_of_succ_lt_succ hfuel)
        simp only [Walker.feed, hs.2.2, wanted_idle hs.1 hi, hf, hstep, this, if_true]
        rfl

/-- C61. Without such a place the whole tree is reported. -/
theorem C61_whole {fetch : Cid → Option Bytes} {c : Cid} {name : Bytes} (hname : name = [] ∨ PlainName name) {rs : List Rep}
    (h : Lays fetch c (if name = [] then [] else [name]) rs)
    (hno : ∀ before r b after, rs = before ++ r :: b :: after → r.kind.isDir = true → b.kind.isBucket = false) (debug : Bool) :
    ∃ items, ShowsTree rs items ∧ ∀ fuel, items.length < fuel → (Walker.new debug c name).feed fetch fuel = (items, .done) := by
  have key : ∀ (rs : List Rep) (d : Bool),
      (∀ before r b after, rs = before ++ r :: b :: after → r.kind.isDir = true → b.kind.isBucket = false) →
      (d = true → ∀ r t, rs = r :: t → r.kind.isBucket = false) → untilClash d rs = (rs, false) := by
    intro rs
    induction rs with
    | nil => intro d _ _; rfl
    | cons r rs ih =>
      intro d h1 h2
      have h3 : (d && r.kind.isBucket) = false := by
        cases d with
        | false => rfl
        | true => rw [h2 rfl r rs rfl]; rfl
      rw [untilClash, h3, ih r.kind.isDir]
      · rfl
      · intro before x b after he
        exact h1 (r :: before) x b after (by rw [he]; rfl)
      · intro hd b t he
        exact h1 [] r b t (by rw [he]; rfl) hd
  obtain ⟨items, h1, h2⟩ := C61_walk hname h debug
  rw [key rs false hno (by simp)] at h1 h2
  exact ⟨items, h1, h2⟩

/-! ### Examples -/

def exTreeCid (x : UInt8) : Cid := Cid.v0 (List.replicate 32 x)

def exTreeLink (x : UInt8) (name : Bytes) : PBLink := ⟨some (exTreeCid x).toBytes, some name, some 9⟩

/-- A bucket with these links. -/
def exTreeShard (links : List PBLink) : Flat :=
  ⟨links, { type := .hamtShard, data := some [3], hashType := some 34, fanout := some 256 }⟩

/-- A directory with these links. -/
def exTreeDir (links : List PBLink) : Flat := ⟨links, { type := .directory }⟩

def exTreeSymlink : Flat := ⟨[], { type := .symlink, data := some [98] }⟩

def exTreeFile : Flat := ⟨[], { type := .file, data := some [104, 105], filesize := some 2 }⟩

/-- The links of a bucket: a directory `d` and a symlink `l`. -/
def exTreeSlots : List PBLink := [exTreeLink 3 [49, 65, 100], exTreeLink 4 [50, 66, 108]]

/-- A directory in buckets (1) with a bucket (2), that has a directory (3) and a symlink (4), and a file `z` (5), and another one (6) with
an empty directory (7) before that bucket. -/
def exTreeBlocks : List (Cid × Flat) :=
  [(exTreeCid 1, exTreeShard [exTreeLink 2 [48, 66], exTreeLink 5 [48, 68, 122]]),
   (exTreeCid 2, exTreeShard exTreeSlots),
   (exTreeCid 3, exTreeDir [exTreeLink 5 [102]]),
   (exTreeCid 4, exTreeSymlink),
   (exTreeCid 5, exTreeFile),
   (exTreeCid 6, exTreeShard [exTreeLink 7 [48, 65, 100], exTreeLink 2 [48, 66]]),
   (exTreeCid 7, exTreeDir [])]

def exTreeFetch (c : Cid) : Option Bytes := (AMap.get exTreeBlocks c).map Flat.write

theorem exTree_name (x : UInt8) (h : x ≠ 46 ∧ x ≠ 47) : PlainName [x] :=
  ⟨by simp, by simp [h.1], by intro c hc; simp at hc; rw [hc]; exact h.2⟩

theorem exTree_file (P : List Bytes) : Lays exTreeFetch (exTreeCid 5) P [⟨P, exTreeCid 5, .leaf (.file [[104, 105]].flatten 2 {})⟩] :=
  .leaf (.file (flat := exTreeFile) (fuel := 0) (block := exTreeFile.write) (by decide +kernel) (by decide +kernel) rfl (by decide +kernel))

theorem exTree_bucket (P : List Bytes) : LaysShard exTreeFetch exTreeSlots P
    ((⟨P ++ [[100]], exTreeCid 3, .dir {}⟩ :: ([⟨P ++ [[100]] ++ [[102]], exTreeCid 5, .leaf (.file [[104, 105]].flatten 2 {})⟩] ++ [])) ++
      ([⟨P ++ [[108]], exTreeCid 4, .leaf (.symlink [98] {})⟩] ++ [])) := by
  refine .entry (c := exTreeCid 3) (x := 100) (n := []) (by decide +kernel) rfl (by decide) (exTree_name _ (by decide)) ?_
    (.entry (c := exTreeCid 4) (x := 108) (n := []) (by decide +kernel) rfl (by decide) (exTree_name _ (by decide)) ?_ .nil)
  · refine .dir (flat := exTreeDir [exTreeLink 5 [102]]) (block := (exTreeDir [exTreeLink 5 [102]]).write)
      (by decide +kernel) (by decide +kernel) ⟨rfl, rfl, rfl, rfl, rfl, rfl⟩ ?_
    exact .cons (n := [102]) (by decide +kernel) rfl (exTree_name _ (by decide)) (exTree_file _) .nil
  · exact .leaf (.symlink (flat := exTreeSymlink) (block := exTreeSymlink.write) (by decide +kernel) (by decide +kernel) rfl)

/-- What there is to report. -/
def exTreeReps (P : List Bytes) : List Rep :=
  ⟨P, exTreeCid 1, .shard {}⟩ :: ⟨P, exTreeCid 2, .bucket⟩ ::
    (((⟨P ++ [[100]], exTreeCid 3, .dir {}⟩ :: ([⟨P ++ [[100]] ++ [[102]], exTreeCid 5, .leaf (.file [[104, 105]].flatten 2 {})⟩] ++ [])) ++
      ([⟨P ++ [[108]], exTreeCid 4, .leaf (.symlink [98] {})⟩] ++ [])) ++
      ([⟨P ++ [[122]], exTreeCid 5, .leaf (.file [[104, 105]].flatten 2 {})⟩] ++ []))

/-- The hypotheses of `C61_walk` and of `C61_whole` hold for it. -/
example : Lays exTreeFetch (exTreeCid 1) [[120]] (exTreeReps [[120]]) ∧ untilClash false (exTreeReps [[120]]) = (exTreeReps [[120]], false) := by
  refine ⟨.shard (flat := exTreeShard [exTreeLink 2 [48, 66], exTreeLink 5 [48, 68, 122]])
    (block := (exTreeShard [exTreeLink 2 [48, 66], exTreeLink 5 [48, 68, 122]]).write)
    (by decide +kernel) (by decide +kernel) ⟨rfl, rfl, rfl, rfl, rfl⟩
    (.bucket (c := exTreeCid 2) (flat := exTreeShard exTreeSlots) (block := (exTreeShard exTreeSlots).write)
      (by decide +kernel) rfl (by decide +kernel) (by decide +kernel) ⟨rfl, rfl, rfl, rfl, rfl⟩ (exTree_bucket _)
      (.entry (c := exTreeCid 5) (x := 122) (n := []) (by decide +kernel) rfl (by decide) (exTree_name _ (by decide))
        (exTree_file _) .nil)), rfl⟩

/-- What is reported: the bucket with the cid of the root. -/
example : (Walker.new true (exTreeCid 1) [120]).feed exTreeFetch 20 =
    ([.rootDirectory (exTreeCid 1) [120] {}, .bucket (exTreeCid 1) [120], .directory (exTreeCid 3) [120, 47, 100] {},
      .file [104, 105] true true (exTreeCid 5) [120, 47, 100, 47, 102] {} 2, .symlink [98] (exTreeCid 4) [120, 47, 108] {},
      .file [104, 105] true true (exTreeCid 5) [120, 47, 122] {} 2], .done) := by
  decide +kernel

/-! ### What does not hold -/

/-- A well-formed directory in buckets with an empty directory before a bucket cannot be walked: it panics. -/
theorem C61_clash : ∃ rs, Lays exTreeFetch (exTreeCid 6) [] rs ∧ rs.length = 6 ∧
    ∀ debug, (Walker.new debug (exTreeCid 6) []).feed exTreeFetch 20 =
      ([.rootDirectory (exTreeCid 6) [] {}, .directory (exTreeCid 7) [100] {}], .failed .panic) := by
  refine ⟨_, .shard (flat := exTreeShard [exTreeLink 7 [48, 65, 100], exTreeLink 2 [48, 66]])
    (block := (exTreeShard [exTreeLink 7 [48, 65, 100], exTreeLink 2 [48, 66]]).write)
    (by decide +kernel) (by decide +kernel) ⟨rfl, rfl, rfl, rfl, rfl⟩
    (.entry (c := exTreeCid 7) (x := 100) (n := []) (by decide +kernel) rfl (by decide) (exTree_name _ (by decide))
      (.dir (flat := exTreeDir []) (block := (exTreeDir []).write)
        (by decide +kernel) (by decide +kernel) ⟨rfl, rfl, rfl, rfl, rfl, rfl⟩ .nil)
    (.bucket (c := exTreeCid 2) (flat := exTreeShard exTreeSlots) (block := (exTreeShard exTreeSlots).write)
      (by decide +kernel) rfl (by decide +kernel) (by decide +kernel) ⟨rfl, rfl, rfl, rfl, rfl⟩ (exTree_bucket _) .nil)), rfl,
    by decide +kernel⟩

/-- The buckets right below a root are reported with the cid of the root instead of their own. -/
theorem C61_bucket_cid : ∃ c b : Cid, ∃ block, c ≠ b ∧ exTreeFetch b = some block ∧
    .bucket c [] ∈ ((Walker.new false c []).feed exTreeFetch 20).1 ∧
    ∀ path, .bucket b path ∉ ((Walker.new false c []).feed exTreeFetch 20).1 := by
  refine ⟨exTreeCid 1, exTreeCid 2, (exTreeShard exTreeSlots).write, by decide +kernel, by decide +kernel, by decide +kernel, ?_⟩
  have : (Walker.new false (exTreeCid 1) []).feed exTreeFetch 20 =
    ([.rootDirectory (exTreeCid 1) [] {}, .bucket (exTreeCid 1) [], .directory (exTreeCid 3) [100] {},
      .file [104, 105] true true (exTreeCid 5) [100, 47, 102] {} 2, .symlink [98] (exTreeCid 4) [108] {},
      .file [104, 105] true true (exTreeCid 5) [122] {} 2], .done) := by decide +kernel
  rw [this]
  intro path h
  simp only [List.mem_cons, List.not_mem_nil, reduceCtorEq, or_false, false_or, WItem.bucket.injEq] at h
  have h2 : exTreeCid 2 ≠ exTreeCid 1 := by decide +kernel
  exact h2 h.1

end Verif.Props
