import Verif.Model.Fs
/-! Model of src/filter.rs. -/
namespace Snap

/-- A filter: `Fn(&DirEntry) -> bool`, given the path of the entry; it may look at the file system and panic; src/filter.rs:4-7, src/dir.rs:81-85. -/
abbrev Filter := Fs → Path → Res Bool

/-- Removing a leading `./`: src/filter.rs:26-30 (`strip_prefix("./")`; the rest is written normalised). -/
def stripDot (p : Path) : Path := if Path.startsWith p [46, 47] then Path.ofComps (p.comps.drop 1) else p

/-- `make_filter_fn`; src/filter.rs:4-34. `glob` is the compiled set of exclude patterns (an invalid pattern panics when the filter is made, before anything else;
not modelled). -/
def makeFilter (glob : Path → Bool) (dbPath : Path) : Filter := fun fs path => do
  let canon ← (fs.canonicalize path).unwrap
  let canonDb ← (fs.canonicalize dbPath).unwrap
  if canonDb.isPrefixOf canon then pure false
  else pure (!glob (stripDot path))

end Snap
