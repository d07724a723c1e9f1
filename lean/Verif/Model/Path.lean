import Verif.Model.Basic
/-!
Unix paths as in `std::path` (used throughout src/dir.rs, src/diff.rs, src/filter.rs, src/main.rs). A `Path`/`PathBuf` is its byte string.
-/
namespace Snap

/-- `Path`/`PathBuf` on Unix: any byte string; src/dir.rs:20,83. -/
abbrev Path := Bytes

/-- `/`, `.` and `..`; as components of paths, src/dir.rs:244. -/
def sSlash : Bytes := [47]
/-- src/filter.rs:26. -/
def sDot : Bytes := [46]
/-- As a component of paths, src/dir.rs:244. -/
def sDotDot : Bytes := [46, 46]

/-- The raw `/`-separated segments, including empty ones; inside std::path, src/dir.rs:244,248. -/
def splitSlash : Bytes → List Bytes
  | [] => [[]]
  | b :: bs =>
    if b = 47 then [] :: splitSlash bs
    else
      match splitSlash bs with
      | [] => [[b]]
      | s :: ss => (b :: s) :: ss

/-- `Path::is_absolute`; inside std::path, src/dir.rs:244. -/
def Path.isAbs (p : Path) : Bool := p.head? == some 47

/-- `Path::components`: the root (as `/`), then the segments except empty ones and `.`; a leading `.` of a relative path is kept. Normal components are never
`/`, `.` or `..`, so this list is an injective image of the list of `Component`s; inside `starts_with`, `parent` and `==`; src/dir.rs:248,309. -/
def Path.comps (p : Path) : List Bytes :=
  (if p.isAbs then [sSlash] else if (splitSlash p).head? = some sDot then [sDot] else [])
    ++ (splitSlash p).filter fun s => s ≠ [] ∧ s ≠ sDot

/-- `Path::join` / `PathBuf::push` (used at src/dir.rs:244,310,325,376,410,426, src/diff.rs:144, src/main.rs:443,465,729). -/
def Path.join (p n : Path) : Path :=
  if Path.isAbs n then n
  else if p = [] ∨ p.getLast? = some 47 then p ++ n
  else p ++ 47 :: n

/-- Writing components as a path; inside std::path, src/dir.rs:248. -/
def Path.ofComps : List Bytes → Path
  | [] => []
  | c :: cs => cs.foldl Path.join c

/-- `Path::parent` (used at src/dir.rs:248, src/main.rs:449,725): all components but the last; none for the empty path and the root. The result is written
normalised (Rust keeps repeated slashes and inner `.`, which name the same place). -/
def Path.parent (p : Path) : Option Path :=
  match p.comps.getLast? with
  | none => none
  | some c => if c = sSlash then none else some (Path.ofComps p.comps.dropLast)

/-- `Path::starts_with` (src/dir.rs:309,331, src/filter.rs:22,26, src/diff.rs:184,195): component-wise prefix. -/
def Path.startsWith (p q : Path) : Bool := q.comps.isPrefixOf p.comps

/-- Equality of `Path`s, and the key under which a `HashMap<PathBuf, _>` stores them, is equality of components. `norm` is the representative; src/diff.rs:84-163, src/dir.rs:349-385. -/
def Path.norm (p : Path) : Path := Path.ofComps p.comps

end Snap
