import Verif.Unixfs.Pb

/-!
# Symlinks

Model of `unixfs/src/symlink.rs`. Writing into a `Vec` does not fail.
-/

namespace Verif.Unixfs

open Verif

/-- `serialize_symlink_block` (unixfs/src/symlink.rs:13-30): the buffer afterwards. -/
def serializeSymlink (target buffer : Bytes) : Bytes :=
  buffer ++ ({ links := [], data := { type := .symlink, data := some target } } : Flat).write

end Verif.Unixfs
