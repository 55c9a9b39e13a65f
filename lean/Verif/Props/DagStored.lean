import Verif.Ipfs.DagStored
import Verif.Props.DagResolve

/-!
# C20: resolving a path over blocks as they are stored
-/

namespace Verif.Props

open Verif Verif.Unixfs Verif.Ipld Verif.Ipfs Verif.Repo

/-! ### Specification -/

/-- The blocks that are stored with the codec they are asked for with. -/
def sameCodec (load : Cid → Option Block) (c : Cid) : Option Bytes :=
  match load c with
  | none => none
  | some b => if b.cid.codec = c.codec then some b.data else none

/-- The cid a block was stored with. -/
def storedAs (load : Cid → Option Block) (c : Cid) : Cid :=
  match load c with
  | none => c
  | some b => b.cid

/-- The node with the document named by another cid. -/
def renamed (f : Cid → Cid) : Node → Node
  | .block c data => .block (f c) data
  | .dagPbData c data => .dagPbData (f c) data
  | .projection c d => .projection (f c) d
  | .link src dest => .link (f src) dest

/-! ### Helpers -/

def renamedLocal (f : Cid → Cid) : Local → Local
  | .complete n => .complete (renamed f n)
  | .incomplete c s q => .incomplete (f c) s q

theorem decodeIpld_codec {e : Env} {size : Nat} {c c' : Cid} (h : c'.codec = c.codec) (data : Bytes) :
    decodeIpld e size c' data = decodeIpld e size c data := by
  simp only [decodeIpld, h]

theorem localIpld_renamed (f : Cid → Cid) {c : Cid} {d : Ipld} {segs : List Bytes} {n : Nat} {r : Local × Nat × List Bytes}
    (h : localIpld c d segs n = .ok r) : localIpld (f c) d segs n = .ok (renamedLocal f r.1, r.2) := by
  induction segs generalizing d n with
  | nil =>
    cases d <;> (simp only [localIpld] at h ⊢; cases h; rfl)
  | cons s segs ih =>
    cases d with
    | link c' =>
      simp only [localIpld] at h ⊢
      split at h
      · rename_i hs; rw [if_pos hs]; cases h; rfl
      · rename_i hs; rw [if_neg hs]; cases h; rfl
    | map m =>
      simp only [localIpld] at h ⊢
      split at h
      · cases h
      · exact ih h
    | list l =>
      simp only [localIpld] at h ⊢
      split at h
      · cases h
      · split at h
        · exact ih h
        · cases h
    | _ => simp only [localIpld] at h; cases h

theorem localDagPb_renamed (f : Cid → Cid) {c : Cid} {data s : Bytes} {last : Bool} {r : Local × Nat}
    (h : localDagPb c data s last = .ok r) : localDagPb (f c) data s last = .ok (renamedLocal f r.1, r.2) := by
  unfold localDagPb at h ⊢
  split at h
  · cases h; rfl
  · cases h; rfl
  · split at h
    · rename_i hs
      rw [if_pos hs]
      split at h
      · cases h
      · cases h; rfl
    · cases h
  · split at h <;> cases h
  · cases h
  · cases h

theorem resolveLocal_renamed (f : Cid → Cid) {e : Env} {size : Nat} {c : Cid} (hc : (f c).codec = c.codec) {data : Bytes}
    {segs : List Bytes} {r : Local × Nat × List Bytes} (h : resolveLocal e size c data segs = .ok r) :
    resolveLocal e size (f c) data segs = .ok (renamedLocal f r.1, r.2) := by
  cases segs with
  | nil => cases h; rfl
  | cons s segs =>
    simp only [resolveLocal, hc, decodeIpld_codec hc] at h ⊢
    split at h
    · rename_i hd
      rw [if_pos hd]
      split at h
      · cases h
      · rename_i x n hl
        rw [localDagPb_renamed f hl]
        cases h
        rfl
    · rename_i hd
      rw [if_neg hd]
      split at h
      · cases h
      · exact localIpld_renamed f h

theorem feed_more {fetch fetch' : Cid → Option Bytes} (hm : ∀ c data, fetch c = some data → fetch' c = some data)
    {s : Bytes} {dest : Cid} : ∀ {fuel : Nat} {queue : List Cid}, feed fetch s fuel queue = .found dest →
      feed fetch' s fuel queue = .found dest
  | 0, _, h => by cases h
  | _ + 1, [], h => by cases h
  | fuel + 1, c :: queue, h => by
    simp only [feed] at h ⊢
    split at h
    · cases h
    · rename_i block hb
      rw [hm _ _ hb]
      simp only []
      split at h
      · cases h
      · exact h
      · cases h
      · exact feed_more hm h

/-! ### C20 -/

/-- **C20**: over the store on disk, which names a block by the cid asked for, resolving is as in the other theorems. -/
theorem C20_disk (e : Env) (size : Nat) (fetch : Cid → Option Bytes) (follow : Bool) (fuel : Nat) (c : Cid)
    (segs : List Bytes) (total : Nat) :
    resolveBlocks e size (fun c => (fetch c).map (Block.mk c)) follow fuel c segs total =
      resolve0 e size fetch follow fuel c segs total := by
  have hf : (fun c => ((fetch c).map (Block.mk c)).map Block.data) = fetch := by
    funext c; cases fetch c <;> rfl
  induction fuel generalizing c segs total with
  | zero => rfl
  | succ fuel ih =>
    simp only [resolveBlocks, resolve0, hf]
    cases fetch c with
    | none => rfl
    | some data =>
      simp only [Option.map_some, ih]
      rfl

/-- **C20**: over the store in memory, a path resolves as in the other theorems as long as the blocks on the way are
stored with the codec they are asked for with; the document is then named by the cid it was stored with. -/
theorem C20_memory (e : Env) (size : Nat) (load : Cid → Option Block) (follow : Bool) (fuel : Nat) (c : Cid)
    (segs : List Bytes) (total : Nat) (node : Node) (n : Nat)
    (h : resolve0 e size (sameCodec load) follow fuel c segs total = some (.ok (node, n))) :
    resolveBlocks e size load follow fuel c segs total = some (.ok (renamed (storedAs load) node, n)) := by
  have hm : ∀ c data, sameCodec load c = some data → (load c).map Block.data = some data := by
    intro c data hd
    unfold sameCodec at hd
    split at hd
    · cases hd
    · rename_i b hb
      split at hd
      · rw [hb]; simpa using hd
      · cases hd
  induction fuel generalizing c segs total with
  | zero => cases h
  | succ fuel ih =>
    simp only [resolve0] at h
    simp only [resolveBlocks]
    cases hl : load c with
    | none => simp [sameCodec, hl] at h
    | some b =>
      by_cases hc : b.cid.codec = c.codec
      · have hs : sameCodec load c = some b.data := by simp [sameCodec, hl, hc]
        have ha : storedAs load c = b.cid := by simp [storedAs, hl]
        rw [hs] at h
        simp only [] at h ⊢
        cases hr : resolveLocal e size c b.data segs with
        | error x => rw [hr] at h; cases h
        | ok r =>
          obtain ⟨r, matched, rest⟩ := r
          have hr' := resolveLocal_renamed (storedAs load) (by rw [ha]; exact hc) hr
          rw [ha] at hr'
          rw [hr'] 
          rw [hr] at h
          cases r with
          | complete nd =>
            cases nd with
            | link src dest =>
              simp only [renamedLocal, renamed] at h ⊢
              split at h
              · rename_i hfl; rw [if_pos hfl]; exact ih _ _ _ h
              · rename_i hfl; rw [if_neg hfl]; cases h; rfl
            | block _ _ => cases h; rfl
            | dagPbData _ _ => cases h; rfl
            | projection _ _ => cases h; rfl
          | incomplete src needle queue =>
            simp only [renamedLocal] at h ⊢
            cases hfe : feed (sameCodec load) needle fuel queue with
            | found dest =>
              rw [feed_more hm hfe]
              rw [hfe] at h
              simp only [] at h ⊢
              split at h
              · rename_i hfl; rw [if_pos hfl]; exact ih _ _ _ h
              · rename_i hfl; rw [if_neg hfl]; cases h; rfl
            | running => rw [hfe] at h; cases h
            | notFound => rw [hfe] at h; cases h
            | missing x => rw [hfe] at h; cases h
            | failed x =>
              rw [hfe] at h
              cases x with
              | lookup y => cases y <;> cases h
              | _ => cases h
      · simp [sameCodec, hl, hc] at h

/-! ### Examples, and a finding -/

/-- A directory with an entry "a". -/
def exPlainDir : Bytes :=
  (PBNode.mk [⟨some (Cid.v0 (List.replicate 32 5)).toBytes, some [97], some 0⟩] (some [8, 1])).write

def exAliasEnv : Env := { hash := fun _ _ => [], jsonEnc := fun _ => none, jsonDec := fun _ => none }

/-- The blocks put, with a toy hash for the digest: the file under "a", and the directory as a dag-pb block. -/
def exDirBlocks : List BlockOp :=
  [.put ⟨Cid.v0 (List.replicate 32 5), [10, 4, 8, 2, 24, 0]⟩, .put ⟨Cid.v0 (List.replicate 32 6), exPlainDir⟩]

/-- **C20** (a finding): the same bytes put before with another codec. Then the directory cannot be entered any more, in
memory: its cid gives a raw block. On disk it can. -/
theorem C20_alias :
    resolveBlocks exAliasEnv 100 (MemBlocks.after exDirBlocks).getBlock true 3 (Cid.v0 (List.replicate 32 6)) [[97]] 0 =
      some (.ok (.block (Cid.v0 (List.replicate 32 5)) [10, 4, 8, 2, 24, 0], 1)) ∧
    resolveBlocks exAliasEnv 100
        (MemBlocks.after (.put ⟨⟨.v1, codecRaw, mhSha256, List.replicate 32 6⟩, exPlainDir⟩ :: exDirBlocks)).getBlock
        true 3 (Cid.v0 (List.replicate 32 6)) [[97]] 0 =
      some (.error (.noLinks ⟨.v1, codecRaw, mhSha256, List.replicate 32 6⟩ 0)) := by decide +kernel

/-- `C20_memory`: the directory of the first store. -/
example : resolve0 exAliasEnv 100 (sameCodec (MemBlocks.after exDirBlocks).getBlock) true 3 (Cid.v0 (List.replicate 32 6)) [[97]] 0 =
    some (.ok (.block (Cid.v0 (List.replicate 32 5)) [10, 4, 8, 2, 24, 0], 1)) := by decide +kernel

/-- A block asked for with version 1 is named by the version it was put with. -/
example : resolveBlocks exAliasEnv 100 (MemBlocks.after exDirBlocks).getBlock true 3
    ⟨.v1, codecDagPb, mhSha256, List.replicate 32 6⟩ [] 0 = some (.ok (.block (Cid.v0 (List.replicate 32 6)) exPlainDir, 0)) := by
  decide +kernel

end Verif.Props
