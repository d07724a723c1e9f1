import Verif.Model.File
import Verif.Model.Filter
import Verif.Model.FsItem
import Verif.Model.Cache
/-!
Model of src/dir.rs. Recursion that follows directories or stored trees takes a depth bound `fuel` (Rust has none but its stack).
-/
namespace Snap
variable [Serde]

/-- Parameters of the model: hash function, gear table, and how the operating system delivers a file's contents to successive `read` calls (`BufReader` passes
reads of at least its own buffer size straight through, so it makes no difference here); src/dir.rs:81-140, src/file.rs:16-112, src/ds/mod.rs:205-208. -/
structure Env where
  H : Bytes → Key
  table : UInt8 → BitVec 64
  rd : Path → Bytes → List ReadEv

/-- The loop over directory entries; src/dir.rs:94-104. -/
def putEntries (fs : Fs) (filter : Filter) (rec : Path → M Key) (path : Path) : List Bytes → M (List (Bytes × Key))
  | [] => pure []
  | n :: ns => do
    if ← SM.lift (filter fs (Path.join path n)) then do
      let k ← rec (Path.join path n)
      let r ← putEntries fs filter rec path ns
      pure ((n, k) :: r)
    else putEntries fs filter rec path ns

/-- Storing a file: `put_data`, then the item; src/dir.rs:121-137 and 187-200. -/
def putFile (E : Env) (path : Path) (content : Bytes) : M Key := do
  let k ← putData E.table E.H (E.rd path content)
  let obj ← SM.lift (FsItem.toObject ⟨content.length, .file, [], [k]⟩)
  putObj E.H obj

/-- `put_fs_item`; src/dir.rs:81-140. -/
def putFsItem (E : Env) (fs : Fs) (filter : Filter) : Nat → Path → M Key
  | 0, _ => SM.lift .fuel
  | n + 1, path => do
    match ← SM.lift (fs.metadata path) with
    | .dir => do
      let names ← SM.lift (fs.readDir path)
      let r ← putEntries fs filter (putFsItem E fs filter n) path names
      let obj ← SM.lift (FsItem.toObject ⟨r.length, .dir, r.map (·.1), r.map (·.2)⟩)
      putObj E.H obj
    | .file c _ => putFile E path c
    | _ => SM.panic

/-- A computation on the first component of a pair of states; a function given `&mut ds`; src/dir.rs:163-167. -/
def SM.fst {σ τ α} (x : SM σ α) : SM (σ × τ) α := fun s => ((x s.1).1, ((x s.1).2, s.2))
/-- A computation on the second component of a pair of states; a function given `&mut cache`; src/dir.rs:163-167. -/
def SM.snd {σ τ α} (x : SM τ α) : SM (σ × τ) α := fun s => ((x s.2).1, (s.1, (x s.2).2))

/-- `hash_fs_item`; src/dir.rs:163-215. A failing cache write is only logged. -/
def hashFsItem (E : Env) (fs : Fs) (path : Path) : SM (Db × Cache) Key := do
  match ← SM.lift (fs.metadata path) with
  | .file c md => do
    let ck : CacheKey := ⟨md.ino, md.mtime, BitVec.ofNat 64 c.length⟩
    match ← SM.read (fun s => s.2.get ck) with
    | some h => pure h
    | none => do
      let k ← SM.fst (putFile E path c)
      SM.snd (fun cache => (.ok (), (Cache.put ck k cache).2))
      pure k
  | _ => SM.throw .nonFile

/-- `get_fs_item`; src/dir.rs:232-262. -/
def getFsItem (db : Db) : Nat → Key → Path → SM Fs Unit
  | 0, _, _ => SM.lift .fuel
  | n + 1, key, path => do
    let item ← SM.lift (getItem db key)
    match item.itemtype with
    | .dir => SM.each (fun (c : Key × Path) => getFsItem db n c.1 (Path.join path c.2)) (item.children.zip item.names)
    | .file => do
      match Path.parent path with
      | some q => Fs.createDirAll q
      | none => pure ()
      let f ← Fs.createNew path
      match item.children with
      | c :: _ => readDataTo db (Fs.writeAll f) n c
      | [] => SM.panic

/-- "/home/jess/src/snapcd/repo"; src/dir.rs:309,331. -/
def sGuard : Path :=
  [47, 104, 111, 109, 101, 47, 106, 101, 115, 115, 47, 115, 114, 99, 47, 115, 110, 97, 112, 99, 100, 47, 114, 101, 112, 111]

/-- The loop that collects accepted names; src/dir.rs:298-304. -/
def acceptedNames (fs : Fs) (filter : Filter) (path : Path) : List Bytes → Res (List Bytes)
  | [] => .ok []
  | n :: ns => do
    let a ← filter fs (Path.join path n)
    let r ← acceptedNames fs filter path ns
    pure (if a then n :: r else r)

/-- Removing one entry that is not in the stored tree; src/dir.rs:308-320. `metadata` follows links, so `is_symlink` is never true and other file types are left alone. -/
def removeExtra (path : Path) (n : Bytes) : SM Fs Unit := do
  if Path.startsWith path sGuard then do
    let p := Path.join path n
    match ← SM.read (fun fs => fs.metadata p) with
    | .dir => Fs.removeDirAll p
    | .file _ _ => Fs.removeFile p
    | _ => pure ()
  else SM.panic

/-- `checkout_fs_item`; src/dir.rs:282-338. `iter` is the order in which the `HashSet` of extra names is visited. -/
def checkoutFsItem (db : Db) (filter : Filter) (iter : List Bytes → List Bytes) : Nat → Key → Path → SM Fs Unit
  | 0, _, _ => SM.lift .fuel
  | n + 1, key, path => do
    let item ← SM.lift (getItem db key)
    match item.itemtype with
    | .dir => do
      let all ← SM.read (fun fs => fs.readDir path)
      let mine ← SM.read (fun fs => acceptedNames fs filter path all)
      let extra := mine.filter fun x => !(item.names.any fun y => Path.comps y == Path.comps x)
      SM.each (removeExtra path) (iter extra)
      SM.each (fun (c : Key × Path) => do
        Fs.createDirAll path
        checkoutFsItem db filter iter n c.1 (Path.join path c.2)) (item.children.zip item.names)
    | .file => do
      let f ← Fs.create path
      if Path.startsWith path sGuard then
        match item.children with
        | c :: _ => readDataTo db (Fs.writeAll f) n c
        | [] => SM.panic
      else SM.panic

/-- A `HashMap<PathBuf, α>`: entries with pairwise different keys; keys are normalised; src/dir.rs:349-354,396-401. -/
abbrev PMap (α : Type) := List (Path × α)

/-- `HashMap::insert`; src/dir.rs:356-385. -/
def PMap.insert {α} (m : PMap α) (p : Path) (a : α) : PMap α :=
  if m.any (·.1 == p.norm) then m.map (fun e => if e.1 == p.norm then (p.norm, a) else e) else m ++ [(p.norm, a)]

/-- `HashMap::extend`; src/dir.rs:375-377. -/
def PMap.extend {α} (m m' : PMap α) : PMap α := m'.foldl (fun m e => PMap.insert m e.1 e.2) m

/-- Indexing and `get`; src/diff.rs:114,131-163. -/
def PMap.get {α} (m : PMap α) (p : Path) : Option α := (m.find? (·.1 == p.norm)).map (·.2)

/-- Collecting the maps of the children; src/dir.rs:375-377 and 422-433. -/
def extendAll {α β} (f : β → Res (PMap α)) : PMap α → List β → Res (PMap α)
  | m, [] => .ok m
  | m, b :: bs => do
    let r ← f b
    extendAll f (PMap.extend m r) bs

/-- `internal_walk_fs_items`; src/dir.rs:356-385. The flag says "directory". -/
def walkItemsFrom (db : Db) : Nat → Key → Path → Res (PMap (Key × Bool))
  | 0, _, _ => .fuel
  | n + 1, key, path => do
    let item ← getItem db key
    match item.itemtype with
    | .dir =>
      extendAll (fun (c : Key × Path) => walkItemsFrom db n c.1 (Path.join path c.2))
        (if path = [] then [] else PMap.insert [] path (key, true)) (item.children.zip item.names)
    | .file => pure (PMap.insert [] path (key, false))

/-- `walk_fs_items`; src/dir.rs:349-354. -/
def walkItems (db : Db) (n : Nat) (key : Key) : Res (PMap (Key × Bool)) := walkItemsFrom db n key []

/-- The loop over directory entries; src/dir.rs:422-433. -/
def walkRealEntries (fs : Fs) (filter : Filter) (rec : Path → Res (PMap Bool)) (curr path : Path) : PMap Bool → List Bytes → Res (PMap Bool)
  | m, [] => .ok m
  | m, n :: ns => do
    if ← filter fs (Path.join curr n) then do
      let r ← rec (Path.join path n)
      walkRealEntries fs filter rec curr path (PMap.extend m r) ns
    else walkRealEntries fs filter rec curr path m ns

/-- `internal_walk_real_fs_items`; src/dir.rs:403-444. -/
def walkRealFrom (fs : Fs) (filter : Filter) (base : Path) : Nat → Path → Res (PMap Bool)
  | 0, _ => .fuel
  | n + 1, path => do
    let curr := Path.join base path
    match ← fs.metadata curr with
    | .dir => do
      let names ← fs.readDir curr
      walkRealEntries fs filter (walkRealFrom fs filter base n) curr path
        (if path = [] then [] else PMap.insert [] path true) names
    | .file _ _ => pure (PMap.insert [] path false)
    | _ => .err .unimplementedFileType

/-- `walk_real_fs_items`; src/dir.rs:396-401. -/
def walkReal (fs : Fs) (filter : Filter) (n : Nat) (base : Path) : Res (PMap Bool) := walkRealFrom fs filter base n []

end Snap
