import Verif.Model.Fs
import Verif.Model.Filter
/-!
Specification vocabulary for directory trees: locations, names, what a filter lets through. Uses the types of the model, path joining and the lookup `Fs.at`.
-/
namespace Snap

/-- A component other than the root and `.`. -/
def okComp (n : Bytes) : Prop := n ≠ [] ∧ n ≠ sDot ∧ 47 ∉ n

/-- A name a directory entry can have (NUL excluded). -/
def okName (n : Bytes) : Prop := n ≠ [] ∧ n ≠ sDot ∧ n ≠ sDotDot ∧ 47 ∉ n ∧ 0 ∉ n

instance (n : Bytes) : Decidable (okComp n) := by unfold okComp; infer_instance
instance (n : Bytes) : Decidable (okName n) := by unfold okName; infer_instance

/-- Joining names one after the other. -/
def joins (p : Path) (ns : List Bytes) : Path := ns.foldl Path.join p

/-- The relative path made of the given names. -/
def relPath (ns : List Bytes) : Path := ns.foldl Path.join []

/-- One component of a path, starting from an absolute location; no look at the file system. -/
def lexStep (cur : List Bytes) (s : Bytes) : List Bytes :=
  if s = sSlash then [] else if s = [] ∨ s = sDot then cur else if s = sDotDot then cur.dropLast else cur ++ [s]

/-- The absolute location a path names. -/
def loc (cwd : List Bytes) (p : Path) : List Bytes := p.comps.foldl lexStep cwd

/-- Contents of the file at a location. -/
def Fs.content (fs : Fs) (q : List Bytes) : Option Bytes :=
  match fs.at q with
  | some (.file c _) => some c
  | _ => none

/-- A file tree as operating systems have it: one entry per location, proper names, parents are directories, the current directory exists. -/
structure Fs.Wf (fs : Fs) : Prop where
  nodup : (fs.ents.map (·.1)).Nodup
  names : ∀ e ∈ fs.ents, ∀ n ∈ e.1, okName n
  parents : ∀ q n, fs.at (q ++ [n]) ≠ none → fs.at q = some .dir
  cwd : fs.at fs.cwd = some .dir

/-- The entry reached from `path` through the names `rel`, and all entries on the way, are accepted. -/
def Visible (fs : Fs) (filter : Filter) (path : Path) (rel : List Bytes) : Prop :=
  ∀ r, r ≠ [] → r <+: rel → filter fs (joins path r) = .ok true

end Snap
