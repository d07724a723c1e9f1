import Verif.Model.Live
/-!
File systems with symbolic links. Model/Fs.lean represents a link by what it leads to, which is all that most commands can see of it; here links are links, so that a place can be
reached in several ways and directories can contain themselves. What `put_fs_item` and the filter see of such a file system are the answers of Model/Live.lean.
-/
namespace Snap

/-- What is at a location; as src/dir.rs:88,109,119 distinguish them, and links. -/
inductive LinkEnt where
  | dir
  | file (content : Bytes) (md : FileMeta)
  | special
  /-- a symbolic link to this path -/
  | link (target : Path)
  deriving DecidableEq, Repr

/-- A file system with links. `limit` is how many links the kernel follows in one path (40 on Linux); src/dir.rs:86, src/filter.rs:19. -/
structure LinkFs where
  ents : List (List Bytes × LinkEnt) := []
  cwd : List Bytes := []
  limit : Nat := 40
  deriving Repr

/-- What is at an absolute location, reached without links; the root always exists; src/dir.rs:86. -/
def LinkFs.at (fs : LinkFs) (q : List Bytes) : Option LinkEnt :=
  if q = [] then some .dir else (fs.ents.find? (·.1 == q)).map (·.2)

/-- Path resolution up to the next link, whose target is put in its place and left to `next`; `k` more links may be followed. A relative target starts in the directory of
the link; `..` is the directory above the one reached. Inside every std::fs call, e.g. src/dir.rs:86. -/
def LinkFs.steps (fs : LinkFs) (k : Nat) (next : List Bytes → List Bytes → Res (Nat × List Bytes)) : List Bytes → List Bytes → Res (Nat × List Bytes)
  | cur, [] => .ok (k, cur)
  | cur, s :: ss =>
    match fs.at cur with
    | some .dir =>
      if s = [] ∨ s = sDot then fs.steps k next cur ss
      else if s = sDotDot then fs.steps k next cur.dropLast ss
      else
        match fs.at (cur ++ [s]) with
        | some (.link t) => if t = [] then .err .enoent else next (if Path.isAbs t then [] else cur) (splitSlash t ++ ss)
        | _ => fs.steps k next (cur ++ [s]) ss
    | none => .err .enoent
    | some _ => .err .io

/-- Path resolution, following at most `k` links (then `ELOOP`); also says how many are left; inside every std::fs call, e.g. src/dir.rs:86. -/
def LinkFs.walk (fs : LinkFs) : Nat → List Bytes → List Bytes → Res (Nat × List Bytes)
  | 0 => fs.steps 0 (fun _ _ => .err .io)
  | k + 1 => fs.steps (k + 1) (fs.walk k)

/-- Where the path leads; as `Fs.locate`; inside every std::fs call, e.g. src/dir.rs:86. -/
def LinkFs.locate (fs : LinkFs) (p : Path) : Res (Nat × List Bytes) :=
  if p = [] then .err .enoent
  else if 0 ∈ p then .err .io
  else fs.walk fs.limit (if Path.isAbs p then [] else fs.cwd) (splitSlash p)

/-- `std::fs::metadata` (follows links); src/dir.rs:86. -/
def LinkFs.metadata (fs : LinkFs) (p : Path) : Res LinkEnt := do
  let q ← fs.locate p
  match fs.at q.2 with
  | some e => .ok e
  | none => .err .enoent

/-- `std::fs::canonicalize`; src/filter.rs:19-20. -/
def LinkFs.canonicalize (fs : LinkFs) (p : Path) : Res (List Bytes) := do
  let q ← fs.locate p
  match fs.at q.2 with
  | some _ => .ok q.2
  | none => .err .enoent

/-- Names in a directory, in listing order; src/dir.rs:92. -/
def LinkFs.names (fs : LinkFs) (q : List Bytes) : List Bytes :=
  fs.ents.filterMap fun e => if e.1 ≠ [] ∧ e.1.dropLast = q then e.1.getLast? else none

/-- `std::fs::read_dir`, all entries; src/dir.rs:92. -/
def LinkFs.readDir (fs : LinkFs) (p : Path) : Res (List Bytes) := do
  let q ← fs.locate p
  match fs.at q.2 with
  | some .dir => .ok (fs.names q.2)
  | none => .err .enoent
  | some _ => .err .io

/-- The filter of `make_filter_fn`; src/filter.rs:16-33. -/
def LinkFs.filter (fs : LinkFs) (glob : Path → Bool) (dbPath path : Path) : Res Bool := do
  let canon ← (fs.canonicalize path).unwrap
  let canonDb ← (fs.canonicalize dbPath).unwrap
  if canonDb.isPrefixOf canon then pure false
  else pure (!glob (stripDot path))

/-- What `put_fs_item` sees of a file system with links that stands still; src/dir.rs:86,92,97,121. -/
def LinkFs.answers (fs : LinkFs) (E : Env) (glob : Path → Bool) (dbPath : Path) : Answers where
  stat _ p := (fs.metadata p).bind fun
    | .dir => .ok .dir
    | .file c _ => .ok (.file c.length)
    | _ => .ok .other
  list _ p := (fs.readDir p).bind fun l => .ok (l.map some)
  take _ p := fs.filter glob dbPath p
  read _ p := (fs.metadata p).bind fun
    | .file c _ => .ok (E.rd p c)
    | _ => .err .io

/-- The file systems of Model/Fs.lean: no links but dangling ones; src/dir.rs:86. -/
def Fs.asLinks (fs : Fs) (limit : Nat) : LinkFs where
  ents := fs.ents.map fun e => (e.1, match e.2 with
    | .dir => .dir
    | .file c md => .file c md
    | .special => .special
    | .broken => .link [])
  cwd := fs.cwd
  limit := limit

end Snap
