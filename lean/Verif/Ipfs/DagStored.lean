import Verif.Ipfs.DagResolve
import Verif.Repo.MemBlocks

/-!
# Resolving a path over blocks as they are stored

`resolve0` of src/dag.rs goes on with the cid of the block it was given, not with the one it asked for
(src/dag.rs:280-287, 437). A block store looks blocks up by their multihash: the one on disk makes the block with
the cid asked for (src/repo/fs/blocks.rs:153, 170), the one in memory gives the block that was put
(src/repo/mem.rs:54-62), whatever codec that was put with.
-/

namespace Verif.Ipfs

open Verif Verif.Unixfs Verif.Ipld Verif.Repo

/-- `resolve0` (src/dag.rs:266-315) with a store that gives blocks, as `resolve0` otherwise. -/
def resolveBlocks (e : Env) (size : Nat) (load : Cid → Option Block) (follow : Bool) :
    Nat → Cid → List Bytes → Nat → Option (Except RawErr (Node × Nat))
  | 0, _, _, _ => none
  | fuel + 1, current, segs, total =>
    match load current with
    | none => some (.error (.loading current))
    | some b =>
      match resolveLocal e size b.cid b.data segs with
      | .error x => some (.error (x.addStart total))
      | .ok (.complete (.link src dest), matched, rest) =>
        if follow then resolveBlocks e size load follow fuel dest rest (total + matched)
        else some (.ok (.link src dest, total + matched))
      | .ok (.incomplete src needle queue, matched, rest) =>
        match feed (fun c => (load c).map Block.data) needle fuel queue with
        | .found dest =>
          if follow then resolveBlocks e size load follow fuel dest rest (total + matched)
          else some (.ok (.link src dest, total + matched))
        | .running => none
        | .failed (.lookup .panic) => some (.error .panic)
        | _ => some (.error (.unsupported src))
      | .ok (.complete other, _, _) => some (.ok (other, total))

end Verif.Ipfs
