import Verif.Props.HttpPinRun
import Verif.Props.HttpDetails
import Verif.Props.JsonLines

/-! # C70: statuses, failures and bodies of requests about pins -/

namespace Verif.Props

open Verif Verif.Ipld Verif.Repo Verif.Ipfs.Refs Verif.Ipfs.Pin Verif.Http

variable {σ ε : Type}

/-! ### Specification -/

/-- The first of these pins that fails, when they are made one after another, fails like this. -/
inductive FirstPinFails (env : PinEnv) (st : PinStore σ ε) (recursive : Bool) : RepoState σ → List Cid → PinFail ε → Prop
  | here {s s' : RepoState σ} {c : Cid} {cs : List Cid} {e : PinFail ε} : insertPin env st s c recursive = (.error e, s') →
      FirstPinFails env st recursive s (c :: cs) e
  | later {s s' : RepoState σ} {c : Cid} {cs : List Cid} {e : PinFail ε} : insertPin env st s c recursive = (.ok (), s') →
      FirstPinFails env st recursive s' cs e → FirstPinFails env st recursive s (c :: cs) e

/-- How a failure is answered: with an error, unless it is waited for a block or the walk does not end (there is no
answer then), or there was a panic (the connection is closed). -/
inductive PinFailsAs : PinFail ε → PinReply ε → Prop
  | waiting : PinFailsAs .waiting .waits
  | endless : PinFailsAs .endless .waits
  | panic : PinFailsAs .panic .closed
  | noRoot : PinFailsAs .noRoot (.failed (.pinning .noRoot))
  | decode {x : BlockErr} : PinFailsAs (.decode x) (.failed (.pinning (.decode x)))
  | store {x : ε} : PinFailsAs (.store x) (.failed (.pinning (.store x)))

/-- The document for an entry of a listing. -/
def listed (errText : ε → Bytes) : Except ε (Cid × PinMode) → Json
  | .ok (c, .direct) => .obj [("Cid".toUTF8.toList, .str c.toText), ("Type".toUTF8.toList, .str "direct".toUTF8.toList)]
  | .ok (c, .indirect) => .obj [("Cid".toUTF8.toList, .str c.toText), ("Type".toUTF8.toList, .str "indirect".toUTF8.toList)]
  | .ok (c, .recursive) => .obj [("Cid".toUTF8.toList, .str c.toText), ("Type".toUTF8.toList, .str "recursive".toUTF8.toList)]
  | .error e => .obj [("Err".toUTF8.toList, .str (errText e))]

/-- The document for a cid that was asked for. -/
def described : Cid × PinKind → Json
  | (c, k) => .obj [("Cid".toUTF8.toList, .str c.toText), ("Type".toUTF8.toList, .str (match k with
      | .direct => "direct".toUTF8.toList
      | .recursive _ => "recursive".toUTF8.toList
      | .recursiveIntention => "recursive".toUTF8.toList
      | .indirectFrom r => "indirect through ".toUTF8.toList ++ r.toText))]

/-- The requests about blocks. -/
inductive AboutBlocks : PinRequest → BlockReq → Prop
  | put {q u} : AboutBlocks (.put q u) (.put q u)
  | dagPut {q u} : AboutBlocks (.dagPut q u) (.dagPut q u)
  | get {q t} : AboutBlocks (.get q t) (.get q t)
  | stat {q t} : AboutBlocks (.stat q t) (.stat q t)
  | rm {q} : AboutBlocks (.removeBlocks q) (.rm q)
  | arrive {b} : AboutBlocks (.arrive b) (.arrive b)

/-! ### Theorems -/

/-- **C70**: an answer with status 200 is one that is no error, with its body; and there is none exactly while it is waited, after a panic,
or when a request about blocks has none. -/
theorem C70_status (libText : PinReqFail ε → Bytes) (blockText : BlockFail → Bytes) (r : PinReply ε) :
    (∀ body, pinAnswer libText blockText r = some (200, body) ↔
      r = .ok body ∨ (∃ lines, r = .lines lines ∧ body = lines.flatten) ∨
      ∃ b, r = .block b ∧ httpAnswer blockText b = some (200, body)) ∧
    (pinAnswer libText blockText r = none ↔ r = .waits ∨ r = .closed ∨ ∃ b, r = .block b ∧ httpAnswer blockText b = none) := by
  cases r with
  | ok b => simp [pinAnswer]
  | lines l => simp [pinAnswer, eq_comm]
  | failed e => cases e <;> simp [pinAnswer, pinFailStatus]
  | waits => simp [pinAnswer]
  | closed => simp [pinAnswer]
  | block b => simp [pinAnswer]

theorem pinFailed_as (e : PinFail ε) : PinFailsAs e (pinFailed e) := by
  cases e <;> constructor

theorem insertPins_fails {env : PinEnv} {st : PinStore σ ε} {recursive : Bool} {s : RepoState σ} {cs : List Cid} {e : PinFail ε}
    (h : FirstPinFails env st recursive s cs e) : (insertPins env st recursive s cs).1 = .error e := by
  induction h with
  | here h => simp only [insertPins, h]
  | later h _ ih => simp only [insertPins, h, ih]

/-- **C70**: how a request to pin or unpin that fails is answered. -/
theorem C70_fails (env : PinHttp ε) (st : PinStore σ ε) (ls : PinLister σ ε) (s : RepoState σ) (e : PinFail ε) :
    (∀ query cids r order, AddAsked env.block.q query cids r false → FirstPinFails env.pin st r s (order cids) e →
      PinFailsAs e (servePin env st ls s (.add (some query) order)).2) ∧
    (∀ query c r, UnpinAsked env.block.q (query.getD []) c r → (removePin env.pin st s c r).1 = .error e →
      PinFailsAs e (servePin env st ls s (.rm query)).2) := by
  refine ⟨fun query cids r order hq hf => ?_, fun query c r hq hf => ?_⟩
  · simp only [servePin, pinAdd, addAsked_functional hq, Bool.false_eq_true, if_false, insertPins_fails hf, addedAnswer]
    exact pinFailed_as e
  · simp only [servePin, pinRm, (C70_remove_query ..).mpr hq, hf, removedAnswer]
    exact pinFailed_as e

theorem writable_entry {c : Cid} {t : Bytes} (ht : utf8Ok t = true) :
    Writable (.obj [("Cid".toUTF8.toList, .str c.toText), ("Type".toUTF8.toList, .str t)]) :=
  ⟨by decide +kernel, utf8Ok_toText c, by decide +kernel, ht, trivial⟩

theorem utf8Ok_through (r : Cid) : utf8Ok ("indirect through ".toUTF8.toList ++ r.toText) = true := by
  rw [utf8Ok_append (by decide +kernel)]
  exact utf8Ok_toText r

/-- **C70**: the body of a listing, read line by line, has a document for every entry in order, and one for an error
of the store where it is. -/
theorem C70_body (libText : PinReqFail ε → Bytes) (blockText : BlockFail → Bytes) (q : QueryEnv) (errText : ε → Bytes)
    (he : ∀ e, utf8Ok (errText e) = true) (ls : PinLister σ ε) (s : RepoState σ) (query : Bytes) (filter : Option PinMode) :
    (ListAsked q query [] filter true →
      ∃ body, pinAnswer libText blockText (pinList q errText ls s (some query)) = some (200, body) ∧
        readLines body = some ((ls.list s.pins filter).map (listed errText))) ∧
    (∀ cids details, cids ≠ [] → ListAsked q query cids filter true → ls.query s.pins cids filter = .ok details →
      ∃ body, pinAnswer libText blockText (pinList q errText ls s (some query)) = some (200, body) ∧
        readLines body = some (details.map described)) := by
  refine ⟨fun hq => ?_, fun cids details hc hq hd => ?_⟩
  · have h1 := (C70_list_query q query ⟨[], filter, true⟩).mpr hq
    refine ⟨((ls.list s.pins filter).map (listLine errText)).flatten, by simp only [pinList, h1, if_true, pinAnswer], ?_⟩
    rw [← C65_lines ((ls.list s.pins filter).map (listed errText))]
    · congr 2
      rw [List.map_map]
      refine List.map_congr_left (fun x _ => ?_)
      rcases x with e | ⟨c, m⟩
      · rfl
      · cases m <;> rfl
    · intro j hj
      obtain ⟨x, -, rfl⟩ := List.mem_map.mp hj
      rcases x with e | ⟨c, m⟩
      · exact ⟨⟨by decide +kernel, he e, trivial⟩, by simp [listed, nesting, nestingMap]⟩
      · cases m
        all_goals exact ⟨writable_entry (by decide +kernel), by simp [listed, nesting, nestingMap]⟩
  · have h1 := (C70_list_query q query ⟨cids, filter, true⟩).mpr hq
    refine ⟨(details.map (fun e => pinLine e.1 (kindName e.2))).flatten, by
      simp only [pinList, h1, if_true, if_neg hc, hd, pinAnswer], ?_⟩
    rw [← C65_lines (details.map described)]
    · congr 2
      rw [List.map_map]
      refine List.map_congr_left (fun x _ => ?_)
      rcases x with ⟨c, k⟩
      cases k <;> rfl
    · intro j hj
      obtain ⟨x, -, rfl⟩ := List.mem_map.mp hj
      rcases x with ⟨c, k⟩
      refine ⟨writable_entry ?_, by simp [described, nesting, nestingMap]⟩
      cases k with
      | indirectFrom r => exact utf8Ok_through r
      | direct => decide +kernel
      | recursiveIntention => decide +kernel
      | recursive n => exact (by decide +kernel : utf8Ok "recursive".toUTF8.toList = true)

/-- **C70**: requests about blocks are served as by a node that has the same pins and no requests about them (C68). -/
theorem C70_blocks (env : PinHttp ε) (st : PinStore σ ε) (ls : PinLister σ ε) (s : RepoState σ) (r : PinRequest) (b : BlockReq)
    (h : AboutBlocks r b) : servePin env st ls s r = ((serveBlock env.block st.api s b).1, .block (serveBlock env.block st.api s b).2) := by
  cases h <;> rfl

/-! ### Examples -/

/-- Of two pins, the second fails: there is no block. -/
example : ∃ s, FirstPinFails exPinEnv (fsStore exLe) false s [exLeaf, exRootA] .waiting :=
  ⟨⟨(({} : MemBlocks).put (exBlockOf exLeaf)).1, [], []⟩, .later (s' := _) rfl (.here rfl)⟩

end Verif.Props
