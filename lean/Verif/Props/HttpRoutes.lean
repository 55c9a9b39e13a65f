import Verif.Http.Routes
import Verif.Props.HttpSwarm

/-!
# C76: which handler a request reaches, and what becomes of a rejection

Stated with the names of the API as one writes them, without the filters of `Http/Routes`.
-/

namespace Verif.Props

open Verif Verif.Http

/-! ### The names -/

/-- What is served, by name. -/
def served : List (String × Ep) :=
  [("shutdown", .shutdown), ("id", .id), ("add", .add), ("cat", .cat), ("dns", .dns), ("get", .get),
    ("refs/local", .refsLocal), ("refs", .refs), ("resolve", .resolve), ("version", .version),
    ("bitswap/wantlist", .bitswapWantlist), ("bitswap/stat", .bitswapStat),
    ("block/get", .blockGet), ("block/put", .blockPut), ("block/rm", .blockRm), ("block/stat", .blockStat),
    ("bootstrap/list", .bootstrapList), ("bootstrap/add", .bootstrapAdd), ("bootstrap/add/default", .bootstrapAddDefault),
    ("bootstrap/rm", .bootstrapRm), ("bootstrap/rm/all", .bootstrapRmAll),
    ("dag/put", .dagPut), ("dag/resolve", .dagResolve),
    ("dht/findpeer", .dhtFindPeer), ("dht/findprovs", .dhtFindProvs), ("dht/provide", .dhtProvide), ("dht/query", .dhtQuery),
    ("pubsub/peers", .pubsubPeers), ("pubsub/ls", .pubsubLs), ("pubsub/pub", .pubsubPub), ("pubsub/sub", .pubsubSub),
    ("swarm/addrs/local", .swarmAddrsLocal), ("swarm/addrs", .swarmAddrs), ("swarm/connect", .swarmConnect),
    ("swarm/disconnect", .swarmDisconnect), ("swarm/peers", .swarmPeers),
    ("pin/add", .pinAdd), ("pin/ls", .pinLs), ("pin/rm", .pinRm)]

/-- What is known not to be implemented: these names and everything below them, -/
def lacking : List String := ["config", "key", "name", "object", "ping", "repo", "stats"]

/-- and these names. -/
def lackingOnly : List String := ["dht/get", "dht/put"]

/-- The text of a path, from its parts. -/
def written (l : List String) : Bytes := l.flatMap (fun s => s.toUTF8.toList)

/-- A path is a name of the API, maybe with a slash behind. -/
def Names (name : String) (path : Bytes) : Prop :=
  path = written ["/api/v0/", name] ∨ path = written ["/api/v0/", name, "/"]

/-- A path is a name of the API or below it. -/
def Under (name : String) (path : Bytes) : Prop :=
  path = written ["/api/v0/", name] ∨ ∃ more, path = written ["/api/v0/", name, "/"] ++ more

/-- How urgent a reason is. -/
def urgency : Reason → Nat
  | .notImplemented => 0
  | .argumentMissing _ => 1
  | .nonUtf8Topic => 2
  | .invalidQuery _ => 3
  | .string _ => 4
  | .invalidPeerId => 5
  | .methodNotAllowed => 6
  | .lengthRequired => 7
  | .other => 8

/-- The status and the message for a reason. -/
def verdict : Reason → Nat × Bytes
  | .notImplemented => (501, "Not implemented".toUTF8.toList)
  | .argumentMissing n => (400, "required argument \"".toUTF8.toList ++ n ++ "\" missing".toUTF8.toList)
  | .nonUtf8Topic => (400, "non utf8 topic".toUTF8.toList)
  | .invalidQuery t => (400, t)
  | .string t => (500, t)
  | .invalidPeerId => (400, "invalid peer id".toUTF8.toList)
  | .methodNotAllowed => (404, "404 page not found".toUTF8.toList)
  | .lengthRequired => (400, "Missing header: content-length".toUTF8.toList)
  | .other => (500, "UNHANDLED REJECTION".toUTF8.toList)

/-- The texts in a reason. -/
def Reason.Readable : Reason → Prop
  | .argumentMissing n => utf8Ok n = true
  | .invalidQuery t => utf8Ok t = true
  | .string t => utf8Ok t = true
  | _ => True

/-! ### Parts of paths -/

theorem segment_noslash (rest : Bytes) : (47 : UInt8) ∉ segment rest := by
  induction rest with
  | nil => simp [segment]
  | cons c s ih =>
    unfold segment
    split
    · simp
    · rename_i h
      intro hm
      rcases List.mem_cons.1 hm with h' | h'
      · exact h h'.symm
      · exact ih h'

theorem segment_split (rest : Bytes) : rest = segment rest ∨ ∃ r, rest = segment rest ++ 47 :: r := by
  induction rest with
  | nil => left; rfl
  | cons c s ih =>
    unfold segment
    split
    · rename_i h; right; exact ⟨s, by simp [h]⟩
    · rcases ih with h | ⟨r, h⟩
      · left; exact congrArg (c :: ·) h
      · right; exact ⟨r, by simpa using h⟩

theorem segment_self {p : Bytes} (h : (47 : UInt8) ∉ p) : segment p = p := by
  induction p with
  | nil => rfl
  | cons c s ih =>
    simp only [List.mem_cons, not_or] at h
    simp only [segment, if_neg (Ne.symm h.1), ih h.2]

theorem segment_append {p : Bytes} (h : (47 : UInt8) ∉ p) (r : Bytes) : segment (p ++ 47 :: r) = p := by
  induction p with
  | nil => rfl
  | cons c s ih =>
    simp only [List.mem_cons, not_or] at h
    simp only [List.cons_append, segment, if_neg (Ne.symm h.1), ih h.2]

theorem takeSeg_iff {p : Bytes} (h : (47 : UInt8) ∉ p) (rest r : Bytes) :
    takeSeg p rest = some r ↔ (rest = p ∧ r = []) ∨ rest = p ++ 47 :: r := by
  unfold takeSeg
  constructor
  · intro he
    split at he
    · rename_i hp
      rcases segment_split rest with hs | ⟨t, hs⟩
      · left
        refine ⟨hs.trans hp, ?_⟩
        rw [← hs] at he
        simpa using he.symm
      · right
        have hd : List.drop (segment rest).length rest = 47 :: t := by
          conv => lhs; rw [hs]
          rw [segment_append (segment_noslash _)]
          simp
        rw [hd] at he
        simp only [List.drop_succ_cons, List.drop_zero, Option.some.injEq] at he
        rw [← he, ← hp]; exact hs
    · cases he
  · rintro (⟨rfl, rfl⟩ | rfl)
    · rw [segment_self h, if_pos rfl]; simp
    · rw [segment_append h, if_pos rfl]; simp

/-- Parts joined with slashes. -/
def joined : List Bytes → Bytes
  | [] => []
  | [p] => p
  | p :: ps => p ++ 47 :: joined ps

theorem takeSegs_iff {ps : List Bytes} (hne : ps ≠ []) (h : ∀ p ∈ ps, p ≠ [] ∧ (47 : UInt8) ∉ p) (rest r : Bytes) :
    takeSegs ps rest = some r ↔ (rest = joined ps ∧ r = []) ∨ rest = joined ps ++ 47 :: r := by
  induction ps generalizing rest with
  | nil => exact absurd rfl hne
  | cons p ps ih =>
    have hp := h p (List.mem_cons_self ..)
    cases ps with
    | nil =>
      simp only [takeSegs, joined]
      rw [← takeSeg_iff hp.2]
      cases takeSeg p rest <;> simp
    | cons q ps =>
      have hq := h q (List.mem_cons_of_mem _ (List.mem_cons_self ..))
      have ih' := ih (by simp) (fun x hx => h x (List.mem_cons_of_mem _ hx))
      have hj : joined (q :: ps) ≠ [] := by
        cases ps with
        | nil => exact hq.1
        | cons a ps => simp [joined]
      have e : takeSegs (p :: q :: ps) rest = (takeSeg p rest).bind (takeSegs (q :: ps)) := rfl
      have j : joined (p :: q :: ps) = p ++ 47 :: joined (q :: ps) := rfl
      rw [e, j, Option.bind_eq_some_iff]
      constructor
      · rintro ⟨r1, h1, h2⟩
        rcases (takeSeg_iff hp.2 _ _).1 h1 with ⟨_, rfl⟩ | rfl
        · rcases (ih' _).1 h2 with ⟨h3, _⟩ | h3
          · exact absurd h3.symm hj
          · exact absurd h3.symm (by simp)
        · rcases (ih' _).1 h2 with ⟨rfl, rfl⟩ | rfl
          · left; exact ⟨rfl, rfl⟩
          · right; simp
      · rintro (⟨rfl, rfl⟩ | rfl)
        · exact ⟨_, (takeSeg_iff hp.2 _ _).2 (Or.inr rfl), (ih' _).2 (Or.inl ⟨rfl, rfl⟩)⟩
        · exact ⟨joined (q :: ps) ++ 47 :: r, (takeSeg_iff hp.2 _ _).2 (Or.inr (by simp)), (ih' _).2 (Or.inr rfl)⟩

/-! ### One list of routes -/

/-- A route of its own: a handler, or none and whether everything below is meant. -/
structure Flat where
  segs : List Bytes
  to : Option Ep
  below : Bool
deriving DecidableEq

def Flat.came (run : Ep → Routed) (f : Flat) (rest : Bytes) : Came :=
  match f.to with
  | some e => exactly run f.segs e rest
  | none => Http.stub f.segs f.below rest

def Flat.hit (f : Flat) (rest : Bytes) : Bool :=
  match takeSegs f.segs rest with
  | some [] => true
  | some (_ :: _) => f.below
  | none => false

def Flat.win (run : Ep → Routed) (f : Flat) : Came :=
  match f.to with
  | some e => ([e], run e)
  | none => ([], .reply 501 [])

def Flat.fine (f : Flat) : Bool := f.to = none || !f.below

theorem came_eq (run : Ep → Routed) (f : Flat) (hf : f.fine = true) (rest : Bytes) :
    f.came run rest = if f.hit rest then f.win run else notFound := by
  obtain ⟨segs, to, below⟩ := f
  cases to with
  | some e =>
    cases below with
    | true => simp [Flat.fine] at hf
    | false =>
      have e1 : Flat.came run ⟨segs, some e, false⟩ rest = exactly run segs e rest := rfl
      rw [e1]
      rcases ht : takeSegs segs rest with _ | _ | ⟨c, r⟩ <;> simp [exactly, ht, Flat.hit, Flat.win]
  | none =>
    have e1 : Flat.came run ⟨segs, none, below⟩ rest = Http.stub segs below rest := rfl
    rw [e1]
    rcases ht : takeSegs segs rest with _ | _ | ⟨c, r⟩ <;> cases below <;> simp [Http.stub, ht, Flat.hit, Flat.win]

/-- All of them in turn. -/
def orAll (run : Ep → Routed) (rest : Bytes) : List Flat → Came
  | [] => notFound
  | f :: l => orElse (f.came run rest) (fun _ => orAll run rest l)

theorem orElse_notFound_left (b : Unit → Came) : orElse notFound b = b () := by
  simp only [orElse, notFound]
  rcases b () with ⟨ran, r⟩
  cases r <;> rfl

theorem orElse_notFound_right (a : Came) : orElse a (fun _ => notFound) = a := by
  rcases a with ⟨ran, r⟩
  cases r <;> simp [orElse, notFound]

theorem orElse_assoc (a : Came) (b c : Unit → Came) :
    orElse (orElse a b) c = orElse a (fun _ => orElse (b ()) c) := by
  rcases a with ⟨ran, r⟩
  cases r with
  | reply => rfl
  | rejected rs =>
    simp only [orElse]
    rcases b () with ⟨ran', r'⟩
    cases r' with
    | reply => rfl
    | rejected rs' =>
      simp only
      rcases c () with ⟨ran'', r''⟩
      cases r'' <;> simp

theorem orAll_append (run : Ep → Routed) (rest : Bytes) (l m : List Flat) :
    orAll run rest (l ++ m) = orElse (orAll run rest l) (fun _ => orAll run rest m) := by
  induction l with
  | nil => exact (orElse_notFound_left (fun _ => orAll run rest m)).symm
  | cons f l ih =>
    simp only [List.cons_append, orAll]
    rw [orElse_assoc, ih]

def Route.flat : Route → List Flat
  | .one segs e => [⟨segs, some e, false⟩]
  | .group seg l => l.map (fun x => ⟨seg :: x.1, some x.2, false⟩)
  | .stub segs b => [⟨segs, none, b⟩]

theorem within_flat (run : Ep → Routed) (seg : Bytes) (l : List (List Bytes × Ep)) (rest : Bytes) :
    Http.within run seg l rest = orAll run rest (l.map (fun x => ⟨seg :: x.1, some x.2, false⟩)) := by
  induction l with
  | nil => simp only [Http.within, combine, List.map_nil, orAll]; split <;> rfl
  | cons x l ih =>
    obtain ⟨segs, e⟩ := x
    simp only [List.map_cons, orAll]
    rw [← ih]
    simp only [Http.within, Flat.came, exactly, takeSegs]
    cases takeSeg seg rest with
    | none => exact (orElse_notFound_left (fun _ => notFound)).symm
    | some r => rfl

theorem try_flat (run : Ep → Routed) (r : Route) (rest : Bytes) : r.try run rest = orAll run rest (Route.flat r) := by
  cases r with
  | one segs e => exact (orElse_notFound_right _).symm
  | group seg l => exact within_flat run seg l rest
  | stub segs b => exact (orElse_notFound_right _).symm

theorem tryAll_flat (run : Ep → Routed) (l : List Route) (rest : Bytes) :
    tryAll run l rest = orAll run rest (l.flatMap Route.flat) := by
  induction l with
  | nil => rfl
  | cons r l ih =>
    simp only [tryAll, List.flatMap_cons, orAll_append]
    rw [ih, try_flat]

theorem orAll_none (run : Ep → Routed) (rest : Bytes) {l : List Flat} (hf : ∀ f ∈ l, f.fine = true)
    (h : ∀ f ∈ l, f.hit rest = false) : orAll run rest l = notFound := by
  induction l with
  | nil => rfl
  | cons f l ih =>
    simp only [orAll]
    rw [came_eq run f (hf f (List.mem_cons_self ..)), h f (List.mem_cons_self ..), if_neg (by simp), orElse_notFound_left,
      ih (fun g hg => hf g (List.mem_cons_of_mem _ hg)) (fun g hg => h g (List.mem_cons_of_mem _ hg))]

theorem orAll_one (run : Ep → Routed) (rest : Bytes) {l : List Flat} (hf : ∀ f ∈ l, f.fine = true)
    (hp : l.Pairwise (fun f g => ¬ (f.hit rest = true ∧ g.hit rest = true))) {f : Flat} (hm : f ∈ l) (hh : f.hit rest = true) :
    orAll run rest l = f.win run := by
  induction l with
  | nil => cases hm
  | cons g l ih =>
    rw [List.pairwise_cons] at hp
    have hf' := fun x hx => hf x (List.mem_cons_of_mem g hx)
    simp only [orAll]
    rw [came_eq run g (hf g (List.mem_cons_self ..))]
    rcases List.mem_cons.1 hm with rfl | hm
    · rw [if_pos hh, orAll_none run rest hf' (fun x hx => by
        cases hx' : x.hit rest with
        | false => rfl
        | true => exact absurd ⟨hh, hx'⟩ (hp.1 x hx)), orElse_notFound_right]
    · have : g.hit rest = false := by
        cases hg : g.hit rest with
        | false => rfl
        | true => exact absurd ⟨hg, hh⟩ (hp.1 f hm)
      rw [this, if_neg (by simp), orElse_notFound_left]
      exact ih hf' hp.2 hm

/-! ### The routes of the API do not overlap -/

def flats : List Flat := routes.flatMap Route.flat

def Flat.sound (f : Flat) : Bool := f.fine && !f.segs.isEmpty && f.segs.all (fun p => !p.isEmpty && !p.contains 47)

def apart (f g : Flat) : Bool :=
  joined f.segs != joined g.segs && joined f.segs ++ [47] != joined g.segs && joined g.segs ++ [47] != joined f.segs &&
    ((!f.below && !g.below) ||
      (!(joined f.segs ++ [47]).isPrefixOf (joined g.segs) && !(joined g.segs ++ [47]).isPrefixOf (joined f.segs)))

def pairwiseB (r : Flat → Flat → Bool) : List Flat → Bool
  | [] => true
  | f :: l => l.all (r f) && pairwiseB r l

theorem flats_sound : flats.all Flat.sound = true := by decide +kernel

theorem flats_apart : pairwiseB apart flats = true := by decide +kernel

theorem pairwise_of_b {r : Flat → Flat → Bool} {l : List Flat} (h : pairwiseB r l = true) : l.Pairwise (fun f g => r f g = true) := by
  induction l with
  | nil => exact .nil
  | cons f l ih =>
    simp only [pairwiseB, Bool.and_eq_true, List.all_eq_true] at h
    exact .cons h.1 (ih h.2)

theorem sound_parts {f : Flat} (h : f.sound = true) : f.fine = true ∧ f.segs ≠ [] ∧ ∀ p ∈ f.segs, p ≠ [] ∧ (47 : UInt8) ∉ p := by
  simp only [Flat.sound, Bool.and_eq_true, Bool.not_eq_true', List.all_eq_true] at h
  refine ⟨h.1.1, by simpa using h.1.2, fun p hp => ?_⟩
  have := h.2 p hp
  simpa using this

theorem hit_iff {f : Flat} (h : f.sound = true) (rest : Bytes) :
    f.hit rest = true ↔ rest = joined f.segs ∨ rest = joined f.segs ++ [47] ∨ (f.below = true ∧ ∃ r, rest = joined f.segs ++ 47 :: r) := by
  obtain ⟨_, hn, hp⟩ := sound_parts h
  have key := takeSegs_iff hn hp rest
  unfold Flat.hit
  constructor
  · intro hh
    cases ht : takeSegs f.segs rest with
    | none => rw [ht] at hh; cases hh
    | some r =>
      rw [ht] at hh
      cases r with
      | nil => rcases (key []).1 ht with h | h
               · exact Or.inl h.1
               · exact Or.inr (Or.inl h)
      | cons c r =>
        rcases (key _).1 ht with h | h
        · cases h.2
        · exact Or.inr (Or.inr ⟨hh, _, h⟩)
  · rintro (rfl | rfl | ⟨hb, r, rfl⟩)
    · rw [(key []).2 (Or.inl ⟨rfl, rfl⟩)]
    · rw [(key []).2 (Or.inr rfl)]
    · rw [(key r).2 (Or.inr rfl)]
      cases r with
      | nil => rfl
      | cons c r => exact hb

theorem hit_begins {f : Flat} (h : f.sound = true) {rest : Bytes} (hh : f.hit rest = true) :
    rest = joined f.segs ∨ ∃ r, rest = joined f.segs ++ 47 :: r := by
  rcases (hit_iff h rest).1 hh with h | h | ⟨_, h⟩
  · exact Or.inl h
  · exact Or.inr ⟨[], h⟩
  · exact Or.inr h

theorem append_slash_cases {a b x y : Bytes} (h : a ++ 47 :: x = b ++ 47 :: y) :
    a = b ∨ (a ++ [47]) <+: b ∨ (b ++ [47]) <+: a := by
  rcases List.append_eq_append_iff.1 h with ⟨c, h1, h2⟩ | ⟨c, h1, h2⟩
  · cases c with
    | nil => left; simpa using h1.symm
    | cons d c =>
      simp only [List.cons_append, List.cons.injEq] at h2
      right; left
      exact ⟨c, by rw [h1, ← h2.1]; simp⟩
  · cases c with
    | nil => left; simpa using h1
    | cons d c =>
      simp only [List.cons_append, List.cons.injEq] at h2
      right; right
      exact ⟨c, by rw [h1, ← h2.1]; simp⟩

theorem apart_hits {f g : Flat} (hf : f.sound = true) (hg : g.sound = true) (h : apart f g = true) (rest : Bytes) :
    ¬ (f.hit rest = true ∧ g.hit rest = true) := by
  rintro ⟨h1, h2⟩
  simp only [apart, Bool.and_eq_true, Bool.or_eq_true, bne_iff_ne, ne_eq, Bool.not_eq_true'] at h
  obtain ⟨⟨⟨a, b⟩, c⟩, d⟩ := h
  rcases d with ⟨fb, gb⟩ | ⟨d1, d2⟩
  · rcases (hit_iff hf rest).1 h1 with e | e | e
    · rcases (hit_iff hg rest).1 h2 with e' | e' | e'
      · exact a (e.symm.trans e')
      · exact c (e'.symm.trans e)
      · rw [gb] at e'; cases e'.1
    · rcases (hit_iff hg rest).1 h2 with e' | e' | e'
      · exact b (e.symm.trans e')
      · exact a (List.append_cancel_right (e.symm.trans e'))
      · rw [gb] at e'; cases e'.1
    · rw [fb] at e; cases e.1
  · rw [← Bool.not_eq_true, List.isPrefixOf_iff_prefix] at d1 d2
    rcases hit_begins hf h1 with e | ⟨x, e⟩ <;> rcases hit_begins hg h2 with e' | ⟨y, e'⟩
    · exact a (e.symm.trans e')
    · exact d2 ⟨y, by rw [← e, e']; simp⟩
    · exact d1 ⟨x, by rw [← e', e]; simp⟩
    · rcases append_slash_cases (e.symm.trans e') with h | h | h
      · exact a h
      · exact d1 h
      · exact d2 h

theorem flat_sound {f : Flat} (h : f ∈ flats) : f.sound = true := List.all_eq_true.1 flats_sound f h

theorem flats_once (rest : Bytes) : flats.Pairwise (fun f g => ¬ (f.hit rest = true ∧ g.hit rest = true)) :=
  (pairwise_of_b flats_apart).imp_of_mem (fun hf hg h => apart_hits (flat_sound hf) (flat_sound hg) h rest)

theorem tryAll_hit (run : Ep → Routed) {f : Flat} (hm : f ∈ flats) {rest : Bytes} (hh : f.hit rest = true) :
    tryAll run routes rest = f.win run := by
  rw [tryAll_flat]
  exact orAll_one run rest (fun g hg => (sound_parts (flat_sound hg)).1) (flats_once rest) hm hh

theorem tryAll_miss (run : Ep → Routed) {rest : Bytes} (h : ∀ f ∈ flats, f.hit rest = false) :
    tryAll run routes rest = notFound := by
  rw [tryAll_flat]
  exact orAll_none run rest (fun g hg => (sound_parts (flat_sound hg)).1) h


/-! ### Paths of the API -/

/-- The one list, by name. -/
def flatNames : List Flat → List (Bytes × Option Ep × Bool) := List.map (fun f => (joined f.segs, f.to, f.below))

def specs : List (Bytes × Option Ep × Bool) :=
  served.map (fun x => (x.1.toUTF8.toList, some x.2, false)) ++ lacking.map (fun x => (x.toUTF8.toList, none, true)) ++
    lackingOnly.map (fun x => (x.toUTF8.toList, none, false))

theorem specs_in : specs.all (fun x => (flatNames flats).contains x) = true := by decide +kernel

theorem flats_in : (flatNames flats).all (fun x => specs.contains x) = true := by decide +kernel

theorem spec_flat {n : Bytes} {to : Option Ep} {b : Bool} (h : (n, to, b) ∈ specs) :
    ∃ f ∈ flats, joined f.segs = n ∧ f.to = to ∧ f.below = b := by
  have := List.all_eq_true.1 specs_in _ h
  rw [List.contains_iff_mem] at this
  obtain ⟨f, hf, he⟩ := List.mem_map.1 this
  simp only [Prod.mk.injEq] at he
  exact ⟨f, hf, he⟩

theorem flat_spec {f : Flat} (h : f ∈ flats) : (joined f.segs, f.to, f.below) ∈ specs := by
  have := List.all_eq_true.1 flats_in _ (List.mem_map.2 ⟨f, h, rfl⟩)
  rwa [List.contains_iff_mem] at this

theorem written_start : "/api/v0/".toUTF8.toList = 47 :: (joined [tx "api", tx "v0"] ++ [47]) := by decide +kernel

theorem slash_text : "/".toUTF8.toList = [47] := by decide +kernel

theorem api_mounted (run : Ep → Routed) (rest : Bytes) :
    api run true ("/api/v0/".toUTF8.toList ++ rest) = tryAll run routes rest := by
  have h : takeSegs [tx "api", tx "v0"] (startPath ("/api/v0/".toUTF8.toList ++ rest)) = some rest := by
    rw [takeSegs_iff (by simp) (by decide +kernel)]
    right
    rw [written_start]
    simp [startPath]
  simp only [api, if_true, h]

theorem api_found {run : Ep → Routed} {path : Bytes} (h : path.head? = some 47) :
    api run true path = notFound ∨ path = 47 :: joined [tx "api", tx "v0"] ∨ ∃ rest, path = "/api/v0/".toUTF8.toList ++ rest := by
  cases path with
  | nil => cases h
  | cons c p =>
    simp only [List.head?_cons, Option.some.injEq] at h
    subst h
    simp only [api, if_true]
    cases ht : takeSegs [tx "api", tx "v0"] (startPath (47 :: p)) with
    | none => left; rfl
    | some r =>
      right
      rw [takeSegs_iff (by simp) (by decide +kernel)] at ht
      have hs : startPath (47 :: p) = p := by simp [startPath]
      rw [hs] at ht
      rcases ht with ⟨h, _⟩ | h
      · left; rw [h]
      · right; exact ⟨r, by rw [written_start, h]; simp⟩

theorem miss_empty (run : Ep → Routed) : api run true (47 :: joined [tx "api", tx "v0"]) = notFound := by
  have h : takeSegs [tx "api", tx "v0"] (startPath (47 :: joined [tx "api", tx "v0"])) = some [] := by decide +kernel
  simp only [api, if_true, h]
  exact tryAll_miss run (by decide +kernel)

/-! ### C76 -/

/-- **C76**: a POST to a name of the API, maybe with a slash behind, runs the handler of that name and no other, and is
answered with what it replies; if it rejects the request with what `recover` makes of its reasons alone. -/
theorem C76_endpoint (run : Ep → Routed) {name : String} {e : Ep} (hm : (name, e) ∈ served) {path : Bytes} (h : Names name path) :
    (serveApi run true path).1 = [e] ∧ (∀ s b, run e = .reply s b → (serveApi run true path).2 = (s, b)) ∧
    (∀ rs, run e = .rejected rs → (serveApi run true path).2 = recover rs) := by
  have hs : (name.toUTF8.toList, some e, false) ∈ specs := by
    simp only [specs, List.mem_append, List.mem_map]
    exact Or.inl (Or.inl ⟨_, hm, rfl⟩)
  obtain ⟨f, hf, hj, ht, hb⟩ := spec_flat hs
  have ha : api run true path = ([e], run e) := by
    have hw : f.win run = ([e], run e) := by simp [Flat.win, ht]
    rcases h with rfl | rfl
    · have : written ["/api/v0/", name] = "/api/v0/".toUTF8.toList ++ name.toUTF8.toList := by simp [written]
      rw [this, api_mounted, ← hw]
      exact tryAll_hit run hf ((hit_iff (flat_sound hf) _).2 (Or.inl hj.symm))
    · have : written ["/api/v0/", name, "/"] = "/api/v0/".toUTF8.toList ++ (name.toUTF8.toList ++ "/".toUTF8.toList) := by
        simp [written]
      rw [this, api_mounted, ← hw]
      exact tryAll_hit run hf ((hit_iff (flat_sound hf) _).2 (Or.inr (Or.inl (by rw [hj, slash_text]))))
  simp only [serveApi, ha]
  cases hr : run e with
  | reply s b => simp
  | rejected rs => simp

/-- **C76**: what is known not to be implemented is answered 501 without a body, and nothing is run. -/
theorem C76_lacking (run : Ep → Routed) {path : Bytes}
    (h : (∃ name ∈ lacking, Under name path) ∨ ∃ name ∈ lackingOnly, Names name path) :
    serveApi run true path = ([], 501, []) := by
  have key : ∀ (f : Flat) (rest : Bytes), f ∈ flats → f.to = none → f.hit rest = true → path = "/api/v0/".toUTF8.toList ++ rest →
      serveApi run true path = ([], 501, []) := by
    intro f rest hf ht hh hp
    have ha : api run true path = ([], .reply 501 []) := by
      rw [hp, api_mounted, tryAll_hit run hf hh]
      simp [Flat.win, ht]
    simp only [serveApi, ha]
  rcases h with ⟨name, hm, h⟩ | ⟨name, hm, h⟩
  · have hs : (name.toUTF8.toList, none, true) ∈ specs := by
      simp only [specs, List.mem_append, List.mem_map]
      exact Or.inl (Or.inr ⟨_, hm, rfl⟩)
    obtain ⟨f, hf, hj, ht, hb⟩ := spec_flat hs
    rcases h with rfl | ⟨more, rfl⟩
    · exact key f name.toUTF8.toList hf ht ((hit_iff (flat_sound hf) _).2 (Or.inl hj.symm)) (by simp [written])
    · refine key f (name.toUTF8.toList ++ 47 :: more) hf ht ((hit_iff (flat_sound hf) _).2 (Or.inr (Or.inr ⟨hb, more, by rw [hj]⟩))) ?_
      simp only [written, List.flatMap_cons, List.flatMap_nil, slash_text]
      simp
  · have hs : (name.toUTF8.toList, none, false) ∈ specs := by
      simp only [specs, List.mem_append, List.mem_map]
      exact Or.inr ⟨_, hm, rfl⟩
    obtain ⟨f, hf, hj, ht, hb⟩ := spec_flat hs
    rcases h with rfl | rfl
    · exact key f name.toUTF8.toList hf ht ((hit_iff (flat_sound hf) _).2 (Or.inl hj.symm)) (by simp [written])
    · refine key f (name.toUTF8.toList ++ [47]) hf ht ((hit_iff (flat_sound hf) _).2 (Or.inr (Or.inl (by rw [hj])))) ?_
      simp only [written, List.flatMap_cons, List.flatMap_nil, slash_text]
      simp

/-- **C76**: every other request is answered 404, and nothing is run: one with another method, and one with another path,
for paths that begin with a slash as those of requests do. -/
theorem C76_unknown (run : Ep → Routed) {post : Bool} {path : Bytes} (hs : path.head? = some 47)
    (h : post = false ∨ ((∀ x ∈ served, ¬ Names x.1 path) ∧ (∀ name ∈ lacking, ¬ Under name path) ∧
      ∀ name ∈ lackingOnly, ¬ Names name path)) :
    serveApi run post path = ([], 404, "404 page not found".toUTF8.toList) := by
  cases post with
  | false => rfl
  | true =>
    rcases h with h | ⟨h1, h2, h3⟩
    · cases h
    have ha : api run true path = notFound := by
      rcases api_found (run := run) hs with h | rfl | ⟨rest, rfl⟩
      · exact h
      · exact miss_empty run
      · rw [api_mounted]
        refine tryAll_miss run (fun f hf => ?_)
        cases hh : f.hit rest with
        | false => rfl
        | true =>
          exfalso
          have hp := flat_spec hf
          have hc := (hit_iff (flat_sound hf) rest).1 hh
          simp only [specs, List.mem_append, List.mem_map, Prod.mk.injEq] at hp
          rcases hp with (⟨x, hx, hn, ht, hb⟩ | ⟨x, hx, hn, ht, hb⟩) | ⟨x, hx, hn, ht, hb⟩
          · refine h1 x hx ?_
            rw [← hn] at hc
            rcases hc with rfl | rfl | ⟨h, _⟩
            · left; simp [written]
            · right; simp only [written, List.flatMap_cons, List.flatMap_nil, slash_text]; simp
            · rw [← hb] at h; cases h
          · refine h2 x hx ?_
            rw [← hn] at hc
            rcases hc with rfl | rfl | ⟨_, r, rfl⟩
            · left; simp [written]
            · right; refine ⟨[], ?_⟩; simp only [written, List.flatMap_cons, List.flatMap_nil, slash_text]; simp
            · right; refine ⟨r, ?_⟩; simp only [written, List.flatMap_cons, List.flatMap_nil, slash_text]; simp
          · refine h3 x hx ?_
            rw [← hn] at hc
            rcases hc with rfl | rfl | ⟨h, _⟩
            · left; simp [written]
            · right; simp only [written, List.flatMap_cons, List.flatMap_nil, slash_text]; simp
            · rw [← hb] at h; cases h
    simp only [serveApi, ha]
    rfl

/-- **C76**: every handler has one name. -/
theorem C76_all (e : Ep) : ∃ name, (name, e) ∈ served ∧ ∀ other, (other, e) ∈ served → other = name := by
  cases e <;> simp [served]

theorem find_skip {f : Reason → Option Bytes} {rs : List Reason} (h : ∀ x ∈ rs, f x = none) : findReason f rs = none := by
  simp only [findReason, List.findSome?_eq_none_iff]
  exact h

theorem find_first {f : Reason → Option Bytes} {before after : List Reason} {r : Reason} {t : Bytes} (h : ∀ x ∈ before, f x = none)
    (hr : f r = some t) : findReason f (before ++ r :: after) = some t := by
  have := find_skip h
  simp only [findReason] at *
  rw [List.findSome?_append, this]
  simp [hr]

theorem argument_none {x : Reason} (h : urgency x ≠ 1) : Reason.argument x = none := by
  cases x <;> simp_all [urgency, Reason.argument]

theorem query_none {x : Reason} (h : urgency x ≠ 3) : Reason.query x = none := by
  cases x <;> simp_all [urgency, Reason.query]

theorem reasonText_none {x : Reason} (h : urgency x ≠ 4) : Reason.text x = none := by
  cases x <;> simp_all [urgency, Reason.text]

theorem not_mem_of_urgency {rs : List Reason} {r : Reason} {k : Nat} (h : ∀ x ∈ rs, k ≤ urgency x) (hr : urgency r < k) : r ∉ rs :=
  fun hm => absurd (h r hm) (by omega)

/-- Only the most urgent reason matters, the first of those that are equally urgent. -/
theorem recover_urgent {before after : List Reason} {r : Reason} (hb : ∀ x ∈ before, urgency r < urgency x)
    (ha : ∀ x ∈ after, urgency r ≤ urgency x) : recover (before ++ r :: after) = recover [r] := by
  have all : ∀ x ∈ before ++ r :: after, urgency r ≤ urgency x := by
    intro x hx
    rcases List.mem_append.1 hx with h | h
    · exact Nat.le_of_lt (hb x h)
    · rcases List.mem_cons.1 h with rfl | h
      · exact Nat.le_refl _
      · exact ha x h
  have me : r ∈ before ++ r :: after := by simp
  have ne : before ++ r :: after ≠ [] := by simp
  have gone : ∀ c, urgency c < urgency r → c ∉ before ++ r :: after := fun c hc => not_mem_of_urgency all hc
  have noArg : urgency r > 1 → findReason Reason.argument (before ++ r :: after) = none :=
    fun h => find_skip (fun x hx => argument_none (by have := all x hx; omega))
  have noQuery : urgency r > 3 → findReason Reason.query (before ++ r :: after) = none :=
    fun h => find_skip (fun x hx => query_none (by have := all x hx; omega))
  have noText : urgency r > 4 → findReason Reason.text (before ++ r :: after) = none :=
    fun h => find_skip (fun x hx => reasonText_none (by have := all x hx; omega))
  generalize hrs : before ++ r :: after = rs at *
  cases r with
  | notImplemented => simp [recover, me]
  | argumentMissing n =>
    have hf : findReason Reason.argument rs = some n := by
      rw [← hrs]; exact find_first (fun x hx => argument_none (by have := hb x hx; have e : urgency (.argumentMissing n) = 1 := rfl; omega)) rfl
    simp only [recover, gone .notImplemented (by simp [urgency]), hf]
    simp [findReason, Reason.argument]
  | nonUtf8Topic =>
    simp only [recover, gone .notImplemented (by simp [urgency]), noArg (by decide), me]
    simp [findReason, Reason.argument]
  | invalidQuery t =>
    have hf : findReason Reason.query rs = some t := by
      rw [← hrs]; exact find_first (fun x hx => query_none (by have := hb x hx; have e : urgency (.invalidQuery t) = 3 := rfl; omega)) rfl
    simp only [recover, gone .notImplemented (by simp [urgency]), noArg (by simp [urgency]), gone .nonUtf8Topic (by simp [urgency]), hf]
    simp [findReason, Reason.argument, Reason.query]
  | string t =>
    have hf : findReason Reason.text rs = some t := by
      rw [← hrs]; exact find_first (fun x hx => reasonText_none (by have := hb x hx; have e : urgency (.string t) = 4 := rfl; omega)) rfl
    simp only [recover, gone .notImplemented (by simp [urgency]), noArg (by simp [urgency]), gone .nonUtf8Topic (by simp [urgency]),
      noQuery (by simp [urgency]), hf]
    simp [findReason, Reason.argument, Reason.query, Reason.text]
  | invalidPeerId =>
    simp only [recover, gone .notImplemented (by simp [urgency]), noArg (by decide), gone .nonUtf8Topic (by simp [urgency]),
      noQuery (by decide), noText (by decide), me]
    simp [findReason, Reason.argument, Reason.query, Reason.text]
  | methodNotAllowed =>
    simp only [recover, gone .notImplemented (by simp [urgency]), noArg (by decide), gone .nonUtf8Topic (by simp [urgency]),
      noQuery (by decide), noText (by decide), gone .invalidPeerId (by simp [urgency]), me]
    simp [findReason, Reason.argument, Reason.query, Reason.text]
  | lengthRequired =>
    simp only [recover, gone .notImplemented (by simp [urgency]), noArg (by decide), gone .nonUtf8Topic (by simp [urgency]),
      noQuery (by decide), noText (by decide), gone .invalidPeerId (by simp [urgency]), gone .methodNotAllowed (by simp [urgency]), ne, me]
    simp [findReason, Reason.argument, Reason.query, Reason.text]
  | other =>
    simp only [recover, gone .notImplemented (by simp [urgency]), noArg (by decide), gone .nonUtf8Topic (by simp [urgency]),
      noQuery (by decide), noText (by decide), gone .invalidPeerId (by simp [urgency]), gone .methodNotAllowed (by simp [urgency]),
      gone .lengthRequired (by simp [urgency]), ne]
    simp [findReason, Reason.argument, Reason.query, Reason.text]

theorem most_urgent (rs : List Reason) (h : rs ≠ []) : ∃ before r after, rs = before ++ r :: after ∧
    (∀ x ∈ before, urgency r < urgency x) ∧ ∀ x ∈ after, urgency r ≤ urgency x := by
  induction rs with
  | nil => exact absurd rfl h
  | cons x rs ih =>
    by_cases hn : rs = []
    · subst hn; exact ⟨[], x, [], rfl, by simp, by simp⟩
    · obtain ⟨before, r, after, rfl, hb, ha⟩ := ih hn
      by_cases hx : urgency x ≤ urgency r
      · refine ⟨[], x, before ++ r :: after, rfl, by simp, fun y hy => ?_⟩
        rcases List.mem_append.1 hy with h | h
        · have := hb y h; omega
        · rcases List.mem_cons.1 h with rfl | h
          · exact hx
          · have := ha y h; omega
      · refine ⟨x :: before, r, after, rfl, fun y hy => ?_, ha⟩
        rcases List.mem_cons.1 hy with rfl | h
        · omega
        · exact hb y h

theorem recover_single (r : Reason) (hr : Reason.Readable r) :
    if r = .methodNotAllowed then recover [r] = verdict r else complaint (some (recover [r])) = some (verdict r) := by
  cases r with
  | notImplemented => exact complaint_message 501 (by decide +kernel)
  | argumentMissing n =>
    have e : recover [.argumentMissing n] = (400, (messageResponse (verdict (.argumentMissing n)).2).write) := by
      have h : tx "required argument " ++ quoted n ++ tx " missing" = "required argument \"".toUTF8.toList ++ n ++ "\" missing".toUTF8.toList := by
        have h1 : "required argument \"".toUTF8.toList = tx "required argument " ++ [34] := by decide +kernel
        have h2 : "\" missing".toUTF8.toList = 34 :: tx " missing" := by decide +kernel
        rw [h1, h2]; simp [quoted]
      simp only [recover, verdict, ← h]
      simp [findReason, Reason.argument]
    rw [if_neg (by simp), e]
    refine complaint_message 400 ?_
    have h1 : utf8Ok ("required argument \"".toUTF8.toList ++ n) = true := by rw [utf8Ok_append (by decide +kernel)]; exact hr
    show utf8Ok ("required argument \"".toUTF8.toList ++ n ++ "\" missing".toUTF8.toList) = true
    rw [utf8Ok_append h1]
    decide +kernel
  | nonUtf8Topic => exact complaint_message 400 (by decide +kernel)
  | invalidQuery t => exact complaint_message 400 hr
  | string t => exact complaint_message 500 hr
  | invalidPeerId => exact complaint_message 400 (by decide +kernel)
  | methodNotAllowed => rfl
  | lengthRequired => exact complaint_message 400 (by decide +kernel)
  | other => exact complaint_message 500 (by decide +kernel)

/-- **C76**: of the reasons for rejecting a request the client is told the most urgent one, and of those that are
equally urgent the first: its status and its message, or the plain text of a 404. Without a reason it is a 404. -/
theorem C76_recover (rs : List Reason) (hr : ∀ r ∈ rs, Reason.Readable r) :
    (rs = [] → recover rs = (404, "404 page not found".toUTF8.toList)) ∧
    (rs ≠ [] → ∃ before r after, rs = before ++ r :: after ∧ (∀ x ∈ before, urgency r < urgency x) ∧ (∀ x ∈ after, urgency r ≤ urgency x) ∧
      (r = .methodNotAllowed → recover rs = verdict r) ∧ (r ≠ .methodNotAllowed → complaint (some (recover rs)) = some (verdict r))) := by
  refine ⟨fun h => by subst h; rfl, fun h => ?_⟩
  obtain ⟨before, r, after, rfl, hb, ha⟩ := most_urgent rs h
  refine ⟨before, r, after, rfl, hb, ha, ?_⟩
  rw [recover_urgent hb ha]
  have := recover_single r (hr r (by simp))
  constructor
  · intro h; rwa [if_pos h] at this
  · intro h; rwa [if_neg h] at this

/-- **C76**: shutting down is answered 200 if the signal could be sent, and 501 otherwise. -/
theorem C76_shutdown (run : Ep → Routed) (sent : Bool) (hrun : run .shutdown = shutdownReply sent) {path : Bytes}
    (h : Names "shutdown" path) : serveApi run true path = ([.shutdown], if sent then 200 else 501, []) := by
  obtain ⟨h1, h2, _⟩ := C76_endpoint run (name := "shutdown") (e := .shutdown) (by simp [served]) h
  have := h2 _ _ hrun
  exact Prod.ext h1 this

/-- **C76**: a client that asks for the version with flags that are given at most once and are booleans reads the version
and the commit of the build, whatever the flags are; any other query is answered as a bad query. -/
theorem C76_version (run : Ep → Routed) (q : QueryEnv) (version commit bad query : Bytes) (hv : utf8Ok version = true)
    (hc : utf8Ok commit = true) (hb : utf8Ok bad = true) (hrun : run .version = versionReply q version commit query bad)
    {path : Bytes} (h : Names "version" path) {ps : List (Bytes × Bytes)} (hq : Decoded q query ps) :
    ((∀ flag ∈ ["number", "commit", "repo", "all"], ∃ x, Given readBool flag.toUTF8.toList ps x) →
      ∃ j, heardJson (some (serveApi run true path).2) = some j ∧ (jsonField "Version" j).bind jsonText = some version ∧
        (jsonField "Commit" j).bind jsonText = some commit ∧
        ∀ name ∈ ["Repo", "ipfs-http-client", "interface-ipfs-core"], (jsonField name j).bind jsonText = some []) ∧
    ((∃ flag ∈ ["number", "commit", "repo", "all"], ∀ x, ¬ Given readBool flag.toUTF8.toList ps x) →
      complaint (some (serveApi run true path).2) = some (400, bad)) := by
  obtain ⟨_, h2, h3⟩ := C76_endpoint run (name := "version") (e := .version) (by simp [served]) h
  rw [hrun] at h2 h3
  have hp : formPairs q.lossy query = ps := (decoded_iff q query ps).1 hq
  have pe : RefsOptions.parseBool = readBool := parseBool_eq
  have field : ∀ flag : String, (∃ x, queryField RefsOptions.parseBool (tx flag) ps = .ok x) ↔ ∃ x, Given readBool flag.toUTF8.toList ps x := by
    intro flag
    rw [pe]
    exact exists_congr (fun x => queryField_iff)
  constructor
  · intro hg
    obtain ⟨a, ea⟩ := (field "number").2 (hg _ (by simp))
    obtain ⟨b, eb⟩ := (field "commit").2 (hg _ (by simp))
    obtain ⟨c, ec⟩ := (field "repo").2 (hg _ (by simp))
    obtain ⟨d, ed⟩ := (field "all").2 (hg _ (by simp))
    have e : versionReply q version commit query bad = .reply 200 (Json.obj [(tx "Version", .str version), (tx "Commit", .str commit),
      (tx "Repo", .str []), (tx "ipfs-http-client", .str []), (tx "interface-ipfs-core", .str [])]).write := by
      simp only [versionReply, hp, ea, eb, ec, ed]
    rw [h2 _ _ e]
    refine ⟨_, heard_write ?_ ?_ ?_, ?_⟩
    · exact ⟨by decide +kernel, hv, by decide +kernel, hc, by decide +kernel, rfl, by decide +kernel, rfl, by decide +kernel, rfl, trivial⟩
    · simp [nesting, nestingMap]
    · intro n; simp
    · have n1 : tx "Version" ≠ tx "Commit" := by decide +kernel
      have n2 : tx "Version" ≠ tx "Repo" ∧ tx "Commit" ≠ tx "Repo" := by decide +kernel
      have n3 : tx "Version" ≠ tx "ipfs-http-client" ∧ tx "Commit" ≠ tx "ipfs-http-client" ∧ tx "Repo" ≠ tx "ipfs-http-client" := by
        decide +kernel
      have n4 : tx "Version" ≠ tx "interface-ipfs-core" ∧ tx "Commit" ≠ tx "interface-ipfs-core" ∧
          tx "Repo" ≠ tx "interface-ipfs-core" ∧ tx "ipfs-http-client" ≠ tx "interface-ipfs-core" := by decide +kernel
      have fe : ∀ (name : String) m, jsonField name (.obj m) = AMap.get m (tx name) := fun _ _ => rfl
      refine ⟨?_, ?_, ?_⟩
      · simp only [fe, AMap.get, if_true, Option.bind_some, jsonText]
      · simp only [fe, AMap.get, if_neg n1, if_true, Option.bind_some, jsonText]
      · intro name hn
        simp only [List.mem_cons, List.not_mem_nil, or_false] at hn
        rcases hn with rfl | rfl | rfl
        · simp only [fe, AMap.get, if_neg n2.1, if_neg n2.2, if_true, Option.bind_some, jsonText]
        · simp only [fe, AMap.get, if_neg n3.1, if_neg n3.2.1, if_neg n3.2.2, if_true, Option.bind_some, jsonText]
        · simp only [fe, AMap.get, if_neg n4.1, if_neg n4.2.1, if_neg n4.2.2.1, if_neg n4.2.2.2, if_true, Option.bind_some, jsonText]
  · rintro ⟨flag, hf, hno⟩
    have e : versionReply q version commit query bad = .rejected [.invalidQuery bad] := by
      have hn : ¬ ∃ x, queryField RefsOptions.parseBool (tx flag) ps = .ok x := fun ⟨x, hx⟩ => by
        obtain ⟨y, hy⟩ := (field flag).1 ⟨x, hx⟩
        exact hno y hy
      simp only [versionReply, hp]
      simp only [List.mem_cons, List.not_mem_nil, or_false] at hf
      rcases hf with rfl | rfl | rfl | rfl
      all_goals
        split
        · exfalso; apply hn; exact ⟨_, by assumption⟩
        · rfl
    rw [h3 _ e]
    exact complaint_message 400 hb

/-! ### Examples -/

/-- A path with a slash behind, and a rejection. -/
example : serveApi (fun e => if e = .swarmAddrs then .rejected [.string (tx "busy")] else .reply 200 []) true
    "/api/v0/swarm/addrs/".toUTF8.toList = ([.swarmAddrs], 500, (messageResponse (tx "busy")).write) := by decide +kernel

example : ("swarm/addrs", Ep.swarmAddrs) ∈ served ∧ Names "swarm/addrs" "/api/v0/swarm/addrs/".toUTF8.toList := by
  constructor
  · decide +kernel
  · right; decide +kernel

/-- Below what is not implemented, and beside it. -/
example : Under "config" "/api/v0/config/show".toUTF8.toList := Or.inr ⟨"show".toUTF8.toList, by decide +kernel⟩

example : serveApi (fun _ => .reply 200 []) true "/api/v0/configs".toUTF8.toList = ([], 404, "404 page not found".toUTF8.toList) ∧
    serveApi (fun _ => .reply 200 []) true "/api/v0/id//".toUTF8.toList = ([], 404, "404 page not found".toUTF8.toList) ∧
    serveApi (fun _ => .reply 200 []) true "/api/v0/i%64".toUTF8.toList = ([], 404, "404 page not found".toUTF8.toList) ∧
    serveApi (fun _ => .reply 200 []) false "/api/v0/id".toUTF8.toList = ([], 404, "404 page not found".toUTF8.toList) := by
  decide +kernel

/-- A query that is not well-formed is told of before a method that is not allowed. -/
example : recover [.methodNotAllowed, .invalidQuery (tx "bad"), .lengthRequired] = (400, (messageResponse (tx "bad")).write) ∧
    recover [.lengthRequired, .methodNotAllowed] = (404, tx "404 page not found") ∧
    recover [.other, .string (tx "a"), .string (tx "b")] = (500, (messageResponse (tx "a")).write) := by decide +kernel

/-- A flag that is a boolean, one that is none, and one that is given twice. -/
example : versionReply exQueryEnv (tx "0.1") (tx "abc") (tx "number=true&other=1") (tx "bad") =
      .reply 200 (tx "{\"Version\":\"0.1\",\"Commit\":\"abc\",\"Repo\":\"\",\"ipfs-http-client\":\"\",\"interface-ipfs-core\":\"\"}") ∧
    versionReply exQueryEnv (tx "0.1") (tx "abc") (tx "all=1") (tx "bad") = .rejected [.invalidQuery (tx "bad")] ∧
    versionReply exQueryEnv (tx "0.1") (tx "abc") (tx "all=true&all=true") (tx "bad") = .rejected [.invalidQuery (tx "bad")] := by
  decide +kernel

end Verif.Props
