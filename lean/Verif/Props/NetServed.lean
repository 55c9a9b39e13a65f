import Verif.Props.PinNet
import Verif.Props.KeptAdd

/-!
# C92: what was added at one node and pinned at another is served there from then on
-/

namespace Verif.Props

open Verif Verif.Repo Verif.Repo.Subs Verif.Bitswap Verif.Net Verif.Ipld Verif.Ipfs.Pin Verif.Ipfs.Refs Verif.Unixfs Verif.Http
open Verif.Bitswap.Bitswap

variable {P : Type} [DecidableEq P] {α : Type}

/-! ### Specification -/

/-- Whether this is pinned recursively, with the walk ended. -/
def RootIn (g : MemPins) (c : Cid) : Prop := ∃ doc n, g.get c = some doc ∧ doc.recursive = .count n

/-! ### Helpers: when a recursive pin goes well -/

def recOf (g : MemPins) (c : Cid) : Recursive := ((g.get c).map PinDocument.recursive).getD .not

theorem insert_indirect (le : Cid → Cid → Bool) (g : MemPins) (c r : Cid) :
    ∃ ch g', g.insertPin le c (.indirectFrom r) = .ok (ch, g') ∧ ∀ d, recOf g' d = recOf g d := by
  have hset : ∀ (doc : PinDocument), recOf g c = doc.recursive → ∀ d, recOf (g.set c doc) d = recOf g d := by
    intro doc hdoc d
    by_cases h : d = c
    · subst h; rw [hdoc]; simp [recOf, AMap.get_set]
    · simp only [recOf, AMap.get_set_ne _ _ h]
  unfold MemPins.insertPin
  cases hg : g.get c with
  | none =>
    exact ⟨true, g.set c { indirectBy := [Cid.asV1 r] }, by simp [PinDocument.update], hset _ (by simp [recOf, hg])⟩
  | some doc =>
    simp only [PinDocument.update]
    by_cases he : doc.indirectBy.isEmpty
    · simp only [he, if_true]
      exact ⟨true, _, rfl, hset _ (by simp [recOf, hg])⟩
    · simp only [he, if_true]
      by_cases hc : (toSet le doc.indirectBy).contains (Cid.asV1 r)
      · exact ⟨false, g, by simp only [hc]; rfl, fun _ => rfl⟩
      · exact ⟨true, _, by simp only [hc]; rfl, hset _ (by simp [recOf, hg])⟩

theorem insertRefs_all (le : Cid → Cid → Bool) (r : Cid) (L : List Cid) (g : MemPins) (n : Nat) :
    ∃ g', MemPins.insertRefs le (.indirectFrom r) g (L.map some) n = (.ok (n + L.length), g') ∧ ∀ d, recOf g' d = recOf g d := by
  induction L generalizing g n with
  | nil => exact ⟨g, rfl, fun _ => rfl⟩
  | cons c L ih =>
    obtain ⟨ch, g1, h1, h2⟩ := insert_indirect le g c r
    obtain ⟨g2, h3, h4⟩ := ih g1 (n + 1)
    refine ⟨g2, ?_, fun d => by rw [h4, h2]⟩
    simp only [List.map_cons, MemPins.insertRefs, h1, h3, List.length_cons]
    rw [Nat.add_assoc, Nat.add_comm 1]

theorem rootIn_iff (g : MemPins) (c : Cid) : RootIn g c ↔ ∃ n, recOf g c = .count n := by
  unfold RootIn recOf
  cases hg : g.get c with
  | none => simp
  | some doc => simp

/-- A recursive pin of something that can be read goes well unless there is one. -/
theorem insertRecursive_ok (le : Cid → Cid → Bool) (g : MemPins) (c : Cid) (L : List Cid) :
    (g.insertRecursive le c (L.map some)).1.isOk = true ↔ ¬ RootIn g c := by
  rw [rootIn_iff]
  unfold MemPins.insertRecursive
  have hset : ∀ doc : PinDocument, recOf (g.set c doc) c = doc.recursive := by intro doc; simp [recOf, AMap.get_set]
  have key : (∃ n, recOf g c = .count n) ∧ g.insertPin le c .recursiveIntention = .error .alreadyPinnedRecursive ∨
      (¬ ∃ n, recOf g c = .count n) ∧ ∃ ch g', g.insertPin le c .recursiveIntention = .ok (ch, g') ∧ recOf g' c = .intent := by
    unfold MemPins.insertPin
    cases hg : g.get c with
    | none =>
      right
      exact ⟨by simp [recOf, hg], true, g.set c { recursive := .intent }, by simp [PinDocument.update], by rw [hset]⟩
    | some doc =>
      simp only [PinDocument.update, if_true]
      have hr : recOf g c = doc.recursive := by simp [recOf, hg]
      rw [hr]
      cases hd : doc.recursive with
      | count n => left; exact ⟨⟨n, rfl⟩, rfl⟩
      | intent => right; exact ⟨by simp, false, g, rfl, by rw [hr, hd]⟩
      | not => right; exact ⟨by simp, true, _, rfl, by rw [hset]⟩
  rcases key with ⟨h1, h2⟩ | ⟨h1, ch, g1, h2, h3⟩
  · simp [h2, h1, Except.isOk, Except.toBool]
  · obtain ⟨g2, h4, h5⟩ := insertRefs_all le (Cid.asV1 c) L g1 0
    have hlast : ∃ ch g3, g2.insertPin le c (.recursive (0 + L.length)) = .ok (ch, g3) := by
      have hr : recOf g2 c = .intent := by rw [h5, h3]
      unfold MemPins.insertPin
      cases hg : g2.get c with
      | none => simp [recOf, hg] at hr
      | some doc =>
        have hd : doc.recursive = .intent := by simpa [recOf, hg] using hr
        simp only [PinDocument.update, if_true, hd]
        exact ⟨_, _, rfl⟩
    obtain ⟨ch', g3, h6⟩ := hlast
    simp only [h2, h4, h6]
    simp [h1, Except.isOk, Except.toBool]

/-- The blocks of a dag of dag-pb documents can all be read. -/
theorem pb_whole {blocks : List (Cid × Bytes)} (hcl : PbClosed blocks) {top : Cid × Bytes} (htop : top ∈ blocks) (env : PinEnv)
    {content : Cid → Bytes} (hcon : ∀ b ∈ blocks, content b.1 = b.2) :
    ∃ N ls, ∀ fuel, N ≤ fuel → ∃ items, Whole { env with fuel := fuel } content top.1 ls items := by
  have hg : ∀ b ∈ blocks, (fun c => some (content c)) b.1 = some b.2 := fun b hb => by simp [hcon b hb]
  obtain ⟨ls, hls, hin⟩ := pb_look (env := env) (get := fun c => some (content c)) hcl hg htop
  obtain ⟨N, hN⟩ := C38_unique_terminates walkOpts (fullLook env content) [(top.1, ls)] rfl (blocks.map Prod.fst)
    (by
      intro r hr l hl
      obtain rfl := List.mem_singleton.mp hr
      obtain ⟨b, hb, he⟩ := hin l hl
      exact List.mem_map.2 ⟨b, hb, he⟩)
    (by
      intro c hc lc hlc l hl
      obtain ⟨b, hb, rfl⟩ := List.mem_map.1 hc
      obtain ⟨ls', h3, h4⟩ := pb_look (env := env) (get := fun c => some (content c)) hcl hg hb
      rw [fullLook, h3] at hlc
      cases hlc
      obtain ⟨b', hb', he⟩ := h4 l hl
      exact List.mem_map.2 ⟨b', hb', he⟩)
  refine ⟨N, ls, fun fuel hf => ?_⟩
  obtain ⟨r, hr⟩ := Option.isSome_iff_exists.mp (refs_more hf hN)
  have hfine : none ∉ stream r := by
    refine walk_fine (P := CidOf blocks) ?_ hin hr
    rintro d ⟨b, hb, rfl⟩
    exact pb_look (env := env) (get := fun c => some (content c)) hcl hg hb
  obtain ⟨g1, g2⟩ := stream_ok hr hfine
  obtain ⟨items, en⟩ := r
  simp only at g1
  subst g1
  exact ⟨items, hls, hr, g2⟩

/-! ### The theorems -/

/-- **C92**: a form was added over HTTP at some node, and pinned recursively at `x` by the cid in the last line of the answer. From then on, as
long as it is not unpinned, whatever happens at `x` and in the network: `x` answers requests for each file with the bytes that were sent and
requests for all of it with an archive of exactly what was sent, from its own store, and none of the blocks is removed. -/
theorem C92_served {sha : Bytes → Bytes} (hsha : Digest32 sha) {H : Hashes} (hH : H mhSha256 = some sha) {put : Unixfs.Block → Bool} {args : AddArgs}
    (hw : args.wrap = true) {parts : List FormPart} {broken : Bool} {ev : List AddEvent}
    (hfit : ∀ p ∈ parts, Fits args.chunk args.bf p.chunks.flatten)
    (hs : ∀ p ∈ parts, ∀ raw, p.filename = some raw → raw.length < 2 ^ 30)
    (hbig : ∀ p ∈ parts, p.chunks.flatten.length < 2 ^ 33)
    (htot : FormTotals sha args parts) (h : addStream sha put args parts broken = (ev, .ok ())) :
    ∃ top total, (linesOf ev).getLast? = some (.added [] top total) ∧
      ∀ (env : PinEnv) (content : Cid → Bytes) (U : Cid → Prop), (∀ b ∈ putsOf ev, U b.1) → (∀ c d, U c → Authentic H c d → d = content c) →
        (∀ a b, U a → U b → a.mh = b.mh → a = b) → (∀ a b, U a → LinkTo env content a b → U b) →
        ∀ (debug : Bool) (le : Cid → Cid → Bool) (x : P) (s : PinNet P) (k : KeptPins), PinRun H debug env le x (PinOk H U x) s k → k.root top = true →
          (∀ (q : QueryEnv), (∀ t, utf8Ok t = true → q.lossy t = t) → ∀ (sv : Served) (esc : UInt8 → Bool), esc 37 = true → esc 38 = true → esc 43 = true →
            ServesForm q { sv with fetch := localBlocks (s.net.node x) } esc parts top) ∧
          ∀ b ∈ putsOf ev, s.step H debug env le x (.remove b.1) = if s.lock.isSome then none else some (s, some (.remove b.1, false)) := by
  obtain ⟨top, total, hl, htop, hcl, hreach, hv0⟩ := added_dag hsha hw hfit hs htot h
  refine ⟨top.1, total, hl, ?_⟩
  intro env content U hin hdata hU hlinks debug le x s k hrun hroot
  have hcon : ∀ b ∈ putsOf ev, content b.1 = b.2 := by
    intro b hb
    refine (hdata b.1 b.2 (hin b hb) ?_).symm
    rw [hv0 b hb]
    exact ⟨sha, hH, List.prefix_rfl⟩
  have hall : ∀ b ∈ putsOf ev, (s.net.node x).store.getBlock b.1 = some ⟨b.1, b.2⟩ ∧
      s.step H debug env le x (.remove b.1) = if s.lock.isSome then none else some (s, some (.remove b.1, false)) := by
    intro b hb
    rw [← hcon b hb]
    refine C91_keeps hdata hU hlinks hrun b.1 ?_
    rcases inTree_of_reach (env := env) hcl hcon htop (hreach b hb) with he | he
    · rw [he]; exact Or.inr (Or.inr (Or.inl hroot))
    · exact Or.inr (Or.inr (Or.inr ⟨top.1, hroot, he⟩))
  have hfetch : ∀ b ∈ putsOf ev, localBlocks (s.net.node x) b.1 = some b.2 := fun b hb => by simp [localBlocks, (hall b hb).1]
  refine ⟨fun q hq sv esc e1 e2 e3 => ⟨?_, ?_⟩, fun b hb => (hall b hb).2⟩
  · obtain ⟨top', total', hl', hc⟩ := C66_added hsha hw hfit hs htot h q hq { sv with fetch := localBlocks (s.net.node x) } hfetch esc e1 e2 e3
    rw [hl] at hl'
    cases hl'
    exact hc
  · obtain ⟨top', total', hl', hc⟩ := C67_archive hsha hw hfit hs hbig htot h q hq { sv with fetch := localBlocks (s.net.node x) } hfetch esc e1 e2 e3
    rw [hl] at hl'
    cases hl'
    exact hc

/-- **C92**: a node that was not told that something is pinned recursively can pin it. -/
theorem C92_free {H : Hashes} {debug : Bool} {env : PinEnv} {content : Cid → Bytes} {U : Cid → Prop} {le : Cid → Cid → Bool} {x : P}
    (hdata : ∀ c d, U c → Authentic H c d → d = content c) (hU : ∀ a b, U a → U b → a.mh = b.mh → a = b)
    (hcl : ∀ a b, U a → LinkTo env content a b → U b) {s : PinNet P} {k : KeptPins} (hrun : PinRun H debug env le x (PinOk H U x) s k) (c : Cid) :
    RootIn s.pins c ↔ k.root c = true := by
  obtain ⟨v, hv, hk⟩ := (PinInv.run (oneData_inUse hdata) hU hcl hrun).keeping.pins
  rw [hk.root]
  have hd := hv.doc c
  constructor
  · rintro ⟨doc, n, h1, h2⟩
    change AMap.get (PinNet.repo s x).pins c = some doc at h1
    rw [h1] at hd
    exact ⟨n, by rw [← hd.2.1, h2]⟩
  · rintro ⟨n, hn⟩
    cases hg : AMap.get (PinNet.repo s x).pins c with
    | none =>
      rw [hg] at hd
      have := hd.2.1
      rw [hn] at this
      cases this
    | some doc =>
      rw [hg] at hd
      exact ⟨doc, n, hg, by rw [hd.2.1, hn]⟩

theorem rootLinks_of {env : PinEnv} {content : Cid → Bytes} {c : Cid} {ls : List (Option Bytes × Cid)} (h : fullLook env content c = .links ls) :
    rootLinks env c (content c) = some ls := by
  unfold fullLook look at h
  unfold rootLinks
  dsimp only at h
  split at h
  · cases h
  · rename_i d hd
    split at h
    · cases h
    · rename_i l hl; cases h; simp only [hd, hl]

/-- **C92**: the pin goes well: if a connected node has the blocks of the form and the two are undisturbed, the root arrives, and then the walk
ends well, unless the form is pinned already. -/
theorem C92_pins {sha : Bytes → Bytes} (hsha : Digest32 sha) {H : Hashes} (hH : H mhSha256 = some sha) {put : Unixfs.Block → Bool} {args : AddArgs}
    (hw : args.wrap = true) {parts : List FormPart} {broken : Bool} {ev : List AddEvent}
    (hfit : ∀ p ∈ parts, Fits args.chunk args.bf p.chunks.flatten)
    (hs : ∀ p ∈ parts, ∀ raw, p.filename = some raw → raw.length < 2 ^ 30)
    (htot : FormTotals sha args parts) (h : addStream sha put args parts broken = (ev, .ok ())) (hno : NoOther sha (putsOf ev)) (env : PinEnv) :
    ∃ top total, (linesOf ev).getLast? = some (.added [] top.1 total) ∧ top ∈ putsOf ev ∧
      ∃ N ls, ∀ fuel, N ≤ fuel → rootLinks { env with fuel := fuel } top.1 top.2 = some ls ∧
        ∀ (debug : Bool) (x y : P),
          (∀ (s : NetSt P) (l : Loader (Option Bytes)), RanBeside H debug (putsOf ev) x y (rootProg top.1) s l → l.prog = .ret (some top.2)) ∧
          ∀ (le : Cid → Cid → Bool) (g : MemPins), ¬ RootIn g top.1 → ∀ (s : NetSt P) (l : Loader PinWalk),
            RanBeside H debug (putsOf ev) x y (pinProg { env with fuel := fuel } le g top.1 ls) s l →
            ∃ g', l.prog = .ret (some (.ok (), g')) := by
  obtain ⟨top, total, hl, htop, hcl, hreach, hv0⟩ := added_dag hsha hw hfit hs htot h
  obtain ⟨-, h2, -⟩ := storeOf_v0 hsha hH hv0 hno
  have hcon : ∀ b ∈ putsOf ev, (fun c => (storeOf (putsOf ev) c).getD []) b.1 = b.2 := fun b hb => by simp [h2 b hb]
  obtain ⟨N, ls, hN⟩ := pb_whole hcl htop env (content := fun c => (storeOf (putsOf ev) c).getD []) hcon
  refine ⟨top, total, hl, htop, N, ls, fun fuel hf => ?_⟩
  obtain ⟨items, hwh⟩ := hN fuel hf
  refine ⟨by rw [← hcon top htop]; exact rootLinks_of hwh.1, fun debug x y => ⟨?_, ?_⟩⟩
  · intro s l hran
    have hall : BlocksThere (storeOf (putsOf ev)) (rootProg top.1) := blocksThere_load (h2 top htop) (blocksThere_ret _)
    rw [ran_beside hsha hH hv0 hno hall hran]
    simp [rootProg, Prog.eval, h2 top htop]
  · intro le g hg s l hran
    obtain ⟨g1, g2⟩ := pinProg_whole (le := le) (f := storeOf (putsOf ev)) hwh (by
      intro d hd
      obtain ⟨b, hb, rfl⟩ := inTree_cidOf hcl hcon htop (Or.inr ((hwh.below d).mp hd))
      simp [h2 b hb]) g
    rw [ran_beside hsha hH hv0 hno g1 hran, g2]
    have := (insertRecursive_ok le g top.1 (treeRefs { env with fuel := fuel } (fun c => (storeOf (putsOf ev) c).getD []) top.1)).mpr hg
    rcases hr : g.insertRecursive le top.1 ((treeRefs { env with fuel := fuel } (fun c => (storeOf (putsOf ev) c).getD []) top.1).map some) with ⟨r, g'⟩
    rw [hr] at this
    cases r with
    | ok u => exact ⟨g', rfl⟩
    | error e => cases this

/-! ### Examples -/

/-- The node that pinned the form, after the node it came from has gone. -/
def servedEvs : List (PinEv (Fin 3)) :=
  pinEvs ++ [.done 0] ++ formBlocks.map (fun b => .net (.remove 1 b.1)) ++
    [.net (.event 1), .net (.event 1), .net (.event 1), .net (.event 1), .net (.closed 0 1), .net (.closed 1 0)]

/-- A run that meets the hypotheses of `C92_served`; the second node has removed its blocks and gone. -/
theorem C92_met : ∃ (s : PinNet (Fin 3)) (k : KeptPins), PinRun formHashes false pinFormEnv netLe 0 (PinOk formHashes InForm 0) s k ∧
    k.root netTop = true ∧ (∀ b ∈ formBlocks, (s.net.node 1).store.getBlock b.1 = none) ∧ (s.net.node 0).bits.bs.peers.get 1 = none := by
  obtain ⟨s, k, h1, h2⟩ := pinRun_end (okP := PinOk formHashes InForm 0) (fun _ _ => pinOkB_sound) (evs := servedEvs)
    (φ := fun q => q.2.root netTop && formBlocks.all (fun b => ((q.1.net.node 1).store.getBlock b.1).isNone) &&
      ((q.1.net.node 0).bits.bs.peers.get 1).isNone) (by decide +kernel)
  simp only [Bool.and_eq_true, List.all_eq_true, Option.isNone_iff_eq_none] at h2
  exact ⟨s, k, h1, h2.1.1, h2.1.2, h2.2⟩

/-- So that node serves the form. -/
example : ∃ s : PinNet (Fin 3), (∀ b ∈ formBlocks, (s.net.node 1).store.getBlock b.1 = none) ∧
    ServesForm exQueryEnv { netServed with fetch := localBlocks (s.net.node 0) } exEsc netForm netTop := by
  obtain ⟨s, k, h1, h2, h3, -⟩ := C92_met
  obtain ⟨top, total, hl, hm⟩ := C92_served (P := Fin 3) (tableSha_digest32 netTable) (H := formHashes) rfl (put := fun _ => true) (args := netArgs) rfl
    netForm_fits (by decide +kernel) (by decide +kernel) netForm_totals netAdded_eq
  have he : top = netTop := by
    rw [netAdded_shape.2] at hl
    cases hl
    rfl
  subst he
  exact ⟨s, h3, (hm pinFormEnv pinFormContent InForm (fun b hb => List.mem_map_of_mem hb) form_true form_apart form_closed false netLe 0 s k h1 h2).1
    exQueryEnv (fun _ _ => rfl) netServed exEsc rfl rfl rfl⟩

/-- Runs that meet the hypotheses of `C92_pins`: the root goes over, and, at a node that has nothing, what is below it. -/
theorem C92_pins_met : (∃ s l, RanBeside formHashes false (putsOf netAdded) (0 : Fin 3) 1 (rootProg netTop) s l) ∧
    ∃ s l, RanBeside formHashes false (putsOf netAdded) (0 : Fin 3) 1 (pinProg pinFormEnv netLe [] netTop formLinks) s l :=
  ⟨ran_met (by decide +kernel), ran_met (by decide +kernel)⟩

end Verif.Props
