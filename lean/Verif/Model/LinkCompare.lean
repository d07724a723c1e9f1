import Verif.Model.Links
import Verif.Model.LiveHash
/-!
What `walk_real_fs_items` and `hash_fs_item` see of a file system with symbolic links, as answers to the questions of Model/LiveHash.lean.
-/
namespace Snap

/-- As `LinkFs.answers`, and `File::open` with the metadata of the opened file; src/dir.rs:168-192,413-433. -/
def LinkFs.sights (fs : LinkFs) (E : Env) (glob : Path → Bool) (dbPath : Path) : Sights where
  toAnswers := fs.answers E glob dbPath
  opened _ p := (fs.metadata p).bind fun
    | .file c md => .ok (⟨md.ino, md.mtime, BitVec.ofNat 64 c.length⟩, E.rd p c)
    | _ => .err .io

end Snap
