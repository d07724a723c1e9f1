import Verif.Model.Links
/-!
Writing to file systems with symbolic links: the calls that `get_fs_item` and `checkout_fs_item` make, where they follow links and where they do not, and these functions on them.
-/
namespace Snap
variable [Serde]

/-- A file system with links that can be written; the oracles as in `Fs`; src/dir.rs:249-257,308-330. -/
structure Disk extends LinkFs where
  faults : List (Option Nat) := []
  metas : List FileMeta := []
  deriving Repr

/-- Where the segments of a path lead if a link at the end is not followed, as for `mkdir`, `O_EXCL`, `unlink` and `lstat`; inside src/dir.rs:249,252-255,314,316. -/
def LinkFs.spot (fs : LinkFs) (start : List Bytes) (segs : List Bytes) : Res (List Bytes) :=
  match segs.getLast? with
  | none => .ok start
  | some s => do
    let d ← fs.walk fs.limit start segs.dropLast
    match fs.at d.2 with
    | some .dir => .ok (if s = [] ∨ s = sDot then d.2 else if s = sDotDot then d.2.dropLast else d.2 ++ [s])
    | none => .err .enoent
    | some _ => .err .io

/-- `spot` for a path; empty paths and NUL bytes as in `locate`; inside src/dir.rs:249,252-255,314,316. `f` drops slashes at the end for `mkdir`. -/
def LinkFs.spotOf (fs : LinkFs) (f : List Bytes → List Bytes) (p : Path) : Res (List Bytes) :=
  if p = [] then .err .enoent
  else if 0 ∈ p then .err .io
  else fs.spot (if Path.isAbs p then [] else fs.cwd) (f (splitSlash p))

/-- Replace or add an entry; src/dir.rs:252-255,329. -/
def Disk.set (d : Disk) (q : List Bytes) (e : LinkEnt) : Disk :=
  { d with ents := if d.ents.any (·.1 == q) then d.ents.map (fun x => if x.1 == q then (q, e) else x) else d.ents ++ [(q, e)] }

/-- A mutating call; as `Fs.call`; src/dir.rs:249-257,308-330. -/
def Disk.call {α} (onFail : Nat → Disk → Disk) (x : SM Disk α) : SM Disk α := fun d =>
  match d.faults with
  | some n :: t => (.err .io, onFail n { d with faults := t })
  | _ => x { d with faults := d.faults.tail }

/-- `mkdir(2)`: a link in the place, dangling or not, is in the way; inside std::fs::create_dir_all, src/dir.rs:249,323. -/
def Disk.mkdir (p : Path) : SM Disk Unit := Disk.call (fun _ d => d) fun d =>
  match d.spotOf dropTrailing p with
  | .ok q =>
    match d.at q with
    | none => (.ok (), d.set q .dir)
    | some _ => (.err .io, d)
  | .err e => (.err e, d)
  | .panic => (.panic, d)
  | .fuel => (.fuel, d)

/-- `Path::is_dir`, which follows links; inside std::fs::create_dir_all, src/dir.rs:249,323. -/
def LinkFs.isDir (fs : LinkFs) (p : Path) : Bool := match fs.metadata p with
  | .ok .dir => true
  | _ => false

/-- `std::fs::create_dir_all`; as `Fs.createDirAllN`; src/dir.rs:249,323. -/
def Disk.createDirAllN : Nat → Path → SM Disk Unit
  | 0, _ => fun d => (.fuel, d)
  | n + 1, p => fun d =>
    if p.comps = [] then (.ok (), d)
    else
      match Disk.mkdir p d with
      | (.ok _, d) => (.ok (), d)
      | (.err .enoent, d) =>
        match p.parent with
        | none => (.err .io, d)
        | some q =>
          match Disk.createDirAllN n q d with
          | (.ok _, d) =>
            match Disk.mkdir p d with
            | (.ok _, d) => (.ok (), d)
            | (_, d) => if d.isDir p then (.ok (), d) else (.err .io, d)
          | r => r
      | (_, d) => if d.isDir p then (.ok (), d) else (.err .io, d)

/-- `std::fs::create_dir_all`; src/dir.rs:249,323. -/
def Disk.createDirAll (p : Path) : SM Disk Unit := Disk.createDirAllN (p.comps.length + 1) p

/-- Inode and mtime for the next file; as read at src/dir.rs:175-180. -/
def Disk.nextMeta (d : Disk) : FileMeta := d.metas.headD ⟨0, 0⟩

/-- `OpenOptions::new().write(true).create_new(true).open(path)`: a link in the place, dangling or not, is an error; src/dir.rs:252-255. -/
def Disk.createNew (p : Path) : SM Disk (List Bytes) := Disk.call (fun _ d => d) fun d =>
  match d.spotOf id p with
  | .ok q =>
    if p.lastIsName then
      match d.at q with
      | none => (.ok q, { d.set q (.file [] d.nextMeta) with metas := d.metas.tail })
      | some _ => (.err .io, d)
    else (.err .io, d)
  | .err e => (.err e, d)
  | .panic => (.panic, d)
  | .fuel => (.fuel, d)

/-- `File::create(path)`: follows links, also dangling ones, where it makes the file the link names; src/dir.rs:329. (Writing to a `special` file is an error here.) -/
def Disk.create (p : Path) : SM Disk (List Bytes) := Disk.call (fun _ d => d) fun d =>
  match d.locate p with
  | .ok (_, q) =>
    if p.lastIsName then
      match d.at q with
      | none => (.ok q, { d.set q (.file [] d.nextMeta) with metas := d.metas.tail })
      | some (.file _ md) => (.ok q, { d.set q (.file [] ⟨md.ino, d.nextMeta.mtime⟩) with metas := d.metas.tail })
      | some _ => (.err .io, d)
    else (.err .io, d)
  | .err e => (.err e, d)
  | .panic => (.panic, d)
  | .fuel => (.fuel, d)

/-- Add bytes at the end of an open file; src/file.rs:137. -/
def Disk.append (q : List Bytes) (b : Bytes) (d : Disk) : Disk :=
  match d.at q with
  | some (.file c md) => d.set q (.file (c ++ b) md)
  | _ => d

/-- `Write::write_all` on an open file; src/file.rs:137. -/
def Disk.writeAll (q : List Bytes) (b : Bytes) : SM Disk Unit :=
  Disk.call (fun n d => Disk.append q (b.take n) d) (SM.modify (Disk.append q b))

/-- Keep the entries at these locations only; src/dir.rs:314,316. -/
def Disk.only (keep : List Bytes → Bool) (d : Disk) : Disk := { d with ents := d.ents.filter fun e => keep e.1 }

/-- `std::fs::remove_dir_all`: of a link, the link is removed, and links inside are not followed; src/dir.rs:314. A failing call may have removed part, as in `Fs.removeDirAll`. -/
def Disk.removeDirAll (p : Path) : SM Disk Unit := fun d =>
  match d.spotOf id p with
  | .ok q =>
    match d.at q with
    | some (.link _) => Disk.call (fun _ d => d) (fun d => (.ok (), d.only (· != q))) d
    | some .dir => Disk.call (fun n d => d.only fun x => !(q.isPrefixOf x && x.length > q.length + n)) (fun d => (.ok (), d.only fun x => !q.isPrefixOf x)) d
    | some _ => (.err .io, d)
    | none => (.err .enoent, d)
  | .err e => (.err e, d)
  | .panic => (.panic, d)
  | .fuel => (.fuel, d)

/-- `std::fs::remove_file`: of a link, the link is removed; src/dir.rs:316. -/
def Disk.removeFile (p : Path) : SM Disk Unit := Disk.call (fun _ d => d) fun d =>
  match d.spotOf id p with
  | .ok q =>
    match d.at q with
    | none => (.err .enoent, d)
    | some .dir => (.err .io, d)
    | some _ => (.ok (), d.only (· != q))
  | .err e => (.err e, d)
  | .panic => (.panic, d)
  | .fuel => (.fuel, d)

/-- `get_fs_item`; as `getFsItem`; src/dir.rs:232-262. -/
def getLinked (db : Db) : Nat → Key → Path → SM Disk Unit
  | 0, _, _ => SM.lift .fuel
  | n + 1, key, path => do
    let item ← SM.lift (getItem db key)
    match item.itemtype with
    | .dir => SM.each (fun (c : Key × Path) => getLinked db n c.1 (Path.join path c.2)) (item.children.zip item.names)
    | .file => do
      match Path.parent path with
      | some q => Disk.createDirAll q
      | none => pure ()
      let f ← Disk.createNew path
      match item.children with
      | c :: _ => readDataTo db (Disk.writeAll f) n c
      | [] => SM.panic

/-- The loop that collects accepted names; as `acceptedNames`; src/dir.rs:298-304. -/
def acceptedLinked (fs : LinkFs) (glob : Path → Bool) (dbPath path : Path) : List Bytes → Res (List Bytes)
  | [] => .ok []
  | n :: ns => do
    let a ← fs.filter glob dbPath (Path.join path n)
    let r ← acceptedLinked fs glob dbPath path ns
    pure (if a then n :: r else r)

/-- Removing one entry that is not in the stored tree; as `removeExtra`: `metadata` follows links, the removing calls do not; src/dir.rs:308-320. -/
def removeLinked (path : Path) (n : Bytes) : SM Disk Unit := do
  if Path.startsWith path sGuard then do
    let p := Path.join path n
    match ← SM.read (fun d => d.metadata p) with
    | .dir => Disk.removeDirAll p
    | .file _ _ => Disk.removeFile p
    | _ => pure ()
  else SM.panic

/-- `checkout_fs_item`; as `checkoutFsItem`; src/dir.rs:282-338. -/
def checkoutLinked (db : Db) (glob : Path → Bool) (dbPath : Path) (iter : List Bytes → List Bytes) : Nat → Key → Path → SM Disk Unit
  | 0, _, _ => SM.lift .fuel
  | n + 1, key, path => do
    let item ← SM.lift (getItem db key)
    match item.itemtype with
    | .dir => do
      let all ← SM.read (fun d => d.readDir path)
      let mine ← SM.read (fun d => acceptedLinked d.toLinkFs glob dbPath path all)
      let extra := mine.filter fun x => !(item.names.any fun y => Path.comps y == Path.comps x)
      SM.each (removeLinked path) (iter extra)
      SM.each (fun (c : Key × Path) => do
        Disk.createDirAll path
        checkoutLinked db glob dbPath iter n c.1 (Path.join path c.2)) (item.children.zip item.names)
    | .file => do
      let f ← Disk.create path
      if Path.startsWith path sGuard then
        match item.children with
        | c :: _ => readDataTo db (Disk.writeAll f) n c
        | [] => SM.panic
      else SM.panic

/-- A file system of Model/Fs.lean as a disk; src/dir.rs:86. -/
def Fs.asDisk (fs : Fs) (limit : Nat) : Disk := { fs.asLinks limit with faults := fs.faults, metas := fs.metas }

end Snap
