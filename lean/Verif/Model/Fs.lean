import Verif.Model.Ds
import Verif.Model.Path
/-!
The part of the operating system used by src/dir.rs, src/filter.rs and src/main.rs: a file tree with a current directory, and the calls of
`std::fs` on it.

* A tree is a list of entries with their absolute location (a list of names, the root is `[]`) in the order in which `read_dir` lists them.
* Symbolic links are followed by all calls the crate makes (`metadata`, `read_dir`, `canonicalize`, `File::open`), so a link to a directory or file is
  represented by what it points to; aliasing between the two places is not modelled here. A dangling link is `broken`. Model/Links.lean
  has links for what `insert` and `commit` see, Model/LinkWrite.lean for what `fetch` and `checkout` do, Model/LinkCompare.lean for what the commands that compare see.
* No other process changes the tree during a command; Model/Live.lean drops this for `insert` and `commit`, Model/LiveHash.lean for `compare`, `status` and `checkout-head`.
* Mutating calls can fail for any reason (permissions, disk full, …): the oracle `faults` says for each successive call whether it fails.
-/
namespace Snap

/-- The metadata src/dir.rs:175-180 uses as cache key. -/
structure FileMeta where
  ino : BitVec 64
  mtime : BitVec 64
  deriving DecidableEq, Repr

/-- What is at a location; as src/dir.rs:88,109,119 distinguish them. -/
inductive Ent where
  | dir
  | file (content : Bytes) (md : FileMeta)
  /-- neither a regular file nor a directory: fifo, socket, device -/
  | special
  /-- `metadata` fails: dangling symbolic link -/
  | broken
  deriving DecidableEq, Repr

/-- The file system as std::fs shows it to src/dir.rs:81-444 and src/main.rs:435-470. -/
structure Fs where
  ents : List (List Bytes × Ent) := []
  cwd : List Bytes := []
  /-- `none`: the next mutating call succeeds; `some n`: it fails (a write: after `n` bytes; a recursive removal: after removing what lies more than `n` levels deep) -/
  faults : List (Option Nat) := []
  /-- inode and mtime of files created or truncated from now on -/
  metas : List FileMeta := []
  deriving Repr

/-- What is at an absolute location; the root always exists; src/dir.rs:86. -/
def Fs.at (fs : Fs) (q : List Bytes) : Option Ent :=
  if q = [] then some .dir else (fs.ents.find? (·.1 == q)).map (·.2)

/-- There is a directory; src/dir.rs:88. -/
def Fs.isDirAt (fs : Fs) (q : List Bytes) : Bool := fs.at q == some .dir

/-- Path resolution: each step needs a directory. `..` goes up lexically, which is right as there are no links; inside every std::fs call, e.g. src/dir.rs:86. -/
def Fs.walk (fs : Fs) : List Bytes → List Bytes → Res (List Bytes)
  | cur, [] => .ok cur
  | cur, s :: ss =>
    match fs.at cur with
    | some .dir =>
      fs.walk (if s = [] ∨ s = sDot then cur else if s = sDotDot then cur.dropLast else cur ++ [s]) ss
    | some .broken => .err .enoent
    | none => .err .enoent
    | some _ => .err .io

/-- Where the path leads; the last component need not exist. Empty paths are `ENOENT`, NUL bytes are rejected; inside every std::fs call, e.g. src/dir.rs:86. -/
def Fs.locate (fs : Fs) (p : Path) : Res (List Bytes) :=
  if p = [] then .err .enoent
  else if 0 ∈ p then .err .io
  else fs.walk (if Path.isAbs p then [] else fs.cwd) (splitSlash p)

/-- `std::fs::metadata` (follows links); src/dir.rs:86,168,311,412. -/
def Fs.metadata (fs : Fs) (p : Path) : Res Ent := do
  let q ← fs.locate p
  match fs.at q with
  | some .broken => .err .enoent
  | some e => .ok e
  | none => .err .enoent

/-- `Path::is_dir`; src/dir.rs:88,313. -/
def Fs.isDir (fs : Fs) (p : Path) : Bool := fs.metadata p == .ok .dir

/-- `Path::exists`; src/main.rs:445. -/
def Fs.exists (fs : Fs) (p : Path) : Bool := (fs.metadata p).isOk

/-- `std::fs::canonicalize`: fails if the path does not exist; the result is an absolute location; src/filter.rs:19-20. -/
def Fs.canonicalize (fs : Fs) (p : Path) : Res (List Bytes) := do
  let q ← fs.locate p
  match fs.at q with
  | some .broken => .err .enoent
  | some _ => .ok q
  | none => .err .enoent

/-- Names in a directory, in listing order; src/dir.rs:92. -/
def Fs.names (fs : Fs) (q : List Bytes) : List Bytes :=
  fs.ents.filterMap fun e => if e.1 ≠ [] ∧ e.1.dropLast = q then e.1.getLast? else none

/-- `std::fs::read_dir`, all entries; src/dir.rs:92,298,415. -/
def Fs.readDir (fs : Fs) (p : Path) : Res (List Bytes) := do
  let q ← fs.locate p
  match fs.at q with
  | some .dir => .ok (fs.names q)
  | some .broken => .err .enoent
  | none => .err .enoent
  | some _ => .err .io

/-- Replace or add an entry. A new one is listed last; src/dir.rs:252-255,329. -/
def Fs.set (fs : Fs) (q : List Bytes) (e : Ent) : Fs :=
  { fs with ents :=
      if fs.ents.any (·.1 == q) then fs.ents.map (fun x => if x.1 == q then (q, e) else x) else fs.ents ++ [(q, e)] }

/-- A mutating call: the oracle decides whether it fails; `onFail` is its effect then; src/dir.rs:249-257,308-330. -/
def Fs.call {α} (onFail : Nat → Fs → Fs) (x : SM Fs α) : SM Fs α := fun fs =>
  match fs.faults with
  | some n :: t => (.err .io, onFail n { fs with faults := t })
  | _ => x { fs with faults := fs.faults.tail }

/-- The segments of a path that is to be created, split into those of the directory and the last one; trailing empty segments (slashes) are dropped for
directories; inside std::fs::create_dir_all, src/dir.rs:249, src/main.rs:464. -/
def dropTrailing : List Bytes → List Bytes
  | [] => []
  | s :: ss => match dropTrailing ss with
    | [] => if s = [] then [] else [s]
    | r => s :: r

/-- `mkdir(2)`: `ENOENT` if the parent does not exist, another error if something is there or the parent is not a directory; inside std::fs::create_dir_all, src/dir.rs:249, src/main.rs:464. -/
def Fs.mkdir (p : Path) : SM Fs Unit := Fs.call (fun _ fs => fs) fun fs =>
  if p = [] then (.err .enoent, fs)
  else if 0 ∈ p then (.err .io, fs)
  else
    match fs.walk (if Path.isAbs p then [] else fs.cwd) (dropTrailing (splitSlash p)) with
    | .ok q =>
      match fs.at q with
      | none => (.ok (), fs.set q .dir)
      | some _ => (.err .io, fs)
    | .err e => (.err e, fs)
    | .panic => (.panic, fs)
    | .fuel => (.fuel, fs)

/-- `std::fs::create_dir_all` (`DirBuilder::create_dir_all`); src/dir.rs:249,323, src/main.rs:464. `n` bounds the number of components. -/
def Fs.createDirAllN : Nat → Path → SM Fs Unit
  | 0, _ => fun fs => (.fuel, fs)
  | n + 1, p => fun fs =>
    if p.comps = [] then (.ok (), fs)
    else
      match Fs.mkdir p fs with
      | (.ok _, fs) => (.ok (), fs)
      | (.err .enoent, fs) =>
        match p.parent with
        | none => (.err .io, fs)
        | some q =>
          match Fs.createDirAllN n q fs with
          | (.ok _, fs) =>
            match Fs.mkdir p fs with
            | (.ok _, fs) => (.ok (), fs)
            | (_, fs) => if fs.isDir p then (.ok (), fs) else (.err .io, fs)
          | r => r
      | (_, fs) => if fs.isDir p then (.ok (), fs) else (.err .io, fs)

/-- `std::fs::create_dir_all`; src/dir.rs:249, src/main.rs:464. -/
def Fs.createDirAll (p : Path) : SM Fs Unit := Fs.createDirAllN (p.comps.length + 1) p

/-- Inode and mtime for the next file; as read at src/dir.rs:175-180. -/
def Fs.nextMeta (fs : Fs) : FileMeta := fs.metas.headD ⟨0, 0⟩

/-- The last segment is a name (a file cannot be created as `a/`, `a/.` or `a/..`); inside src/dir.rs:252-255,329. -/
def Path.lastIsName (p : Path) : Bool :=
  match (splitSlash p).getLast? with
  | some s => s ≠ [] ∧ s ≠ sDot ∧ s ≠ sDotDot
  | none => false

/-- `OpenOptions::new().write(true).create_new(true).open(path)`; src/dir.rs:252-255. Returns the location that is open. -/
def Fs.createNew (p : Path) : SM Fs (List Bytes) := Fs.call (fun _ fs => fs) fun fs =>
  match fs.locate p with
  | .ok q =>
    if p.lastIsName then
      match fs.at q with
      | none => (.ok q, { fs.set q (.file [] fs.nextMeta) with metas := fs.metas.tail })
      | some _ => (.err .io, fs)
    else (.err .io, fs)
  | .err e => (.err e, fs)
  | .panic => (.panic, fs)
  | .fuel => (.fuel, fs)

/-- `File::create(path)`: truncates an existing file; src/dir.rs:329. (Writing to a `special` file such as a device or fifo is not modelled and is an
error here; so is creating through a dangling link, which would make the file the link names.) -/
def Fs.create (p : Path) : SM Fs (List Bytes) := Fs.call (fun _ fs => fs) fun fs =>
  match fs.locate p with
  | .ok q =>
    if p.lastIsName then
      match fs.at q with
      | none => (.ok q, { fs.set q (.file [] fs.nextMeta) with metas := fs.metas.tail })
      | some (.file _ md) => (.ok q, { fs.set q (.file [] ⟨md.ino, fs.nextMeta.mtime⟩) with metas := fs.metas.tail })
      | some _ => (.err .io, fs)
    else (.err .io, fs)
  | .err e => (.err e, fs)
  | .panic => (.panic, fs)
  | .fuel => (.fuel, fs)

/-- Add bytes at the end of an open file. The mtime set at creation is taken to be the final one; src/file.rs:137. -/
def Fs.append (q : List Bytes) (d : Bytes) (fs : Fs) : Fs :=
  match fs.at q with
  | some (.file c md) => fs.set q (.file (c ++ d) md)
  | _ => fs

/-- `Write::write_all` on an open file; src/file.rs:137. A failing write may have written part. -/
def Fs.writeAll (q : List Bytes) (d : Bytes) : SM Fs Unit :=
  Fs.call (fun n fs => Fs.append q (d.take n) fs) (SM.modify (Fs.append q d))

/-- Remove everything at or below a location; src/dir.rs:314,316. -/
def Fs.prune (q : List Bytes) (fs : Fs) : Fs := { fs with ents := fs.ents.filter fun e => !q.isPrefixOf e.1 }

/-- `std::fs::remove_dir_all`; src/dir.rs:314. A failing call may have removed part: here everything more than `n` levels below. -/
def Fs.removeDirAll (p : Path) : SM Fs Unit := fun fs =>
  match fs.locate p with
  | .ok q =>
    Fs.call (fun n fs => { fs with ents := fs.ents.filter fun e => !(q.isPrefixOf e.1 && e.1.length > q.length + n) })
      (fun fs => if fs.isDirAt q then (.ok (), Fs.prune q fs) else (.err .io, fs)) fs
  | .err e => (.err e, fs)
  | .panic => (.panic, fs)
  | .fuel => (.fuel, fs)

/-- `std::fs::remove_file`; src/dir.rs:316. -/
def Fs.removeFile (p : Path) : SM Fs Unit := Fs.call (fun _ fs => fs) fun fs =>
  match fs.locate p with
  | .ok q =>
    match fs.at q with
    | none => (.err .enoent, fs)
    | some .dir => (.err .io, fs)
    | some _ => (.ok (), { fs with ents := fs.ents.filter fun e => e.1 ≠ q })
  | .err e => (.err e, fs)
  | .panic => (.panic, fs)
  | .fuel => (.fuel, fs)

end Snap
