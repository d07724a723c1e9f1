import Verif.Model.Cli
/-!
Queries that fail. In the rest of the model reading the database and the cache always works; here any query may fail (the file cannot be read, the database is busy), at any
time, whatever was read before. The functions are those of Ds.lean, Commit.lean, File.lean, Dir.lean, Diff.lean, Display.lean and Cli.lean, with each query made one by one, in
the order in which the code makes them.
-/
namespace Snap
variable [Serde]

/-- When a query fails: as it is prepared and started, or as its rows are fetched; src/ds/sqlite.rs:124-137. -/
inductive Hitch where
  | start
  | row
  deriving DecidableEq, Repr

/-- Which queries fail, by their number; src/ds/sqlite.rs:84-238, src/cache.rs:129-138. -/
abbrev Hitches := Nat → Option Hitch

/-- A query with answer `r`; `onRow` is what becomes of an error while fetching rows; src/ds/sqlite.rs:84-238, src/cache.rs:129-138. -/
def query {τ α} (F : Hitches) (r : Res α) (onRow : Res α := .err .sqlite) : SM (τ × Nat) α := fun s =>
  (match F s.2 with
    | none => r
    | some .start => .err .sqlite
    | some .row => onRow, (s.1, s.2 + 1))

/-- A computation on a part of the state; as `SM.on`; src/main.rs:248. -/
def SM.onPart {σ τ α} (get : σ → τ) (set : τ → σ → σ) (x : SM (τ × Nat) α) : SM (σ × Nat) α := fun s =>
  ((x (get s.1, s.2)).1, (set (x (get s.1, s.2)).2.1 s.1, (x (get s.1, s.2)).2.2))

/-- A computation that depends on the state; field access such as `ds_state.ds`; src/main.rs:248. -/
def SM.using {σ α} (x : σ → SM (σ × Nat) α) : SM (σ × Nat) α := fun s => x s.1 s

namespace Flaky
variable {τ : Type} (F : Hitches)

/-- `get`; src/ds/mod.rs:199-203, src/ds/sqlite.rs:142-151. -/
def get (db : Db) (k : Key) : SM (τ × Nat) Bytes := query F (Snap.get db k)

/-- `get_head`; src/ds/mod.rs:218-225, src/ds/sqlite.rs:163-172. -/
def getHead (db : Db) : SM (τ × Nat) (Option Bytes) := do
  match ← query F (rawGetState db sHEAD) with
  | some b => if utf8 b then pure (some b) else SM.throw .utf8
  | none => pure none

/-- `reflog_get`; src/ds/sqlite.rs:85-107. -/
def reflogGet (db : Db) (refname : Bytes) (remote : Option Bytes) : SM (τ × Nat) Key := query F (Snap.reflogGet db refname remote)

/-- `reflog_walk`: an error while fetching rows is a panic; src/ds/sqlite.rs:120-140. -/
def reflogWalk (db : Db) (refname : Bytes) (remote : Option Bytes) : SM (τ × Nat) (List Key) := query F (Snap.reflogWalk db refname remote) .panic

/-- The end of `canonicalize`; src/ds/mod.rs:276-290. -/
def resolved (errStr : Bytes) (results : List Bytes) : Res Key :=
  match results with
  | [] => .err (.canonNotFound errStr)
  | [k] => fromDbKey k
  | _ => do
    let strs ← mapRes fromDbKey results
    .err (.ambiguous errStr (strs.map (·.hash)))

/-- `canonicalize`; src/ds/mod.rs:250-291. -/
def canonicalize (db : Db) (search : Keyish) : SM (τ × Nat) Key :=
  match search with
  | .key s key => do
    let k ← SM.unwrap (query F (rawGet db key))
    SM.lift (resolved s [k])
  | .range s start stop => do
    let results ← SM.unwrap (query F (rawBetween db start stop))
    SM.lift (resolved s results)
  | .reflog orig remote keyname => fun s =>
    match reflogGet F db keyname remote s with
    | (.err .notFound, s) => (.err (.canonNotFound orig), s)
    | r => r

/-- `get_obj`; src/ds/mod.rs:293-297. -/
def getObj (db : Db) (k : Key) : SM (τ × Nat) Object := do
  let data ← get F db k
  SM.lift (Object.decode data)

/-- `get_obj` followed by the conversion; src/dir.rs:237-239,288-290,363-365. -/
def getItem (db : Db) (k : Key) : SM (τ × Nat) FsItem := do
  let obj ← getObj F db k
  SM.lift (FsItem.ofObject obj)

/-- `Commit::from_key`; src/commit.rs:39-45. -/
def commitAt (db : Db) (k : Key) : SM (τ × Nat) Commit := do
  let obj ← SM.unwrap (getObj F db k)
  SM.lift (Commit.ofObject obj).unwrap

/-- `read_data`; src/file.rs:123-155. -/
def readDataTo (db : Db) (sink : Bytes → SM τ Unit) : Nat → Key → SM (τ × Nat) Unit
  | 0, _ => SM.lift .fuel
  | fuel + 1, key => do
    let obj ← getObj F db key
    match obj.objtype with
    | .fileBlobTree => SM.each (readDataTo db sink fuel) obj.keys
    | .fileBlob => SM.fst (sink obj.data)
    | .fsItemFile =>
      match obj.keys with
      | [k] => readDataTo db sink fuel k
      | _ => SM.panic
    | _ => SM.panic

/-- `get_fs_item`; src/dir.rs:232-262. -/
def getFsItem (db : Db) : Nat → Key → Path → SM (Fs × Nat) Unit
  | 0, _, _ => SM.lift .fuel
  | n + 1, key, path => do
    let item ← getItem F db key
    match item.itemtype with
    | .dir => SM.each (fun (c : Key × Path) => getFsItem db n c.1 (Path.join path c.2)) (item.children.zip item.names)
    | .file => do
      match Path.parent path with
      | some q => SM.fst (Fs.createDirAll q)
      | none => pure ()
      let f ← SM.fst (Fs.createNew path)
      match item.children with
      | c :: _ => readDataTo F db (Fs.writeAll f) n c
      | [] => SM.panic

/-- `checkout_fs_item`; src/dir.rs:282-338. -/
def checkoutFsItem (db : Db) (filter : Filter) (iter : List Bytes → List Bytes) : Nat → Key → Path → SM (Fs × Nat) Unit
  | 0, _, _ => SM.lift .fuel
  | n + 1, key, path => do
    let item ← getItem F db key
    match item.itemtype with
    | .dir => do
      let all ← SM.fst (SM.read (fun fs => fs.readDir path))
      let mine ← SM.fst (SM.read (fun fs => acceptedNames fs filter path all))
      let extra := mine.filter fun x => !(item.names.any fun y => Path.comps y == Path.comps x)
      SM.fst (SM.each (removeExtra path) (iter extra))
      SM.each (fun (c : Key × Path) => do
        SM.fst (Fs.createDirAll path)
        checkoutFsItem db filter iter n c.1 (Path.join path c.2)) (item.children.zip item.names)
    | .file => do
      let f ← SM.fst (Fs.create path)
      if Path.startsWith path sGuard then
        match item.children with
        | c :: _ => readDataTo F db (Fs.writeAll f) n c
        | [] => SM.panic
      else SM.panic

/-- Collecting the maps of the children; src/dir.rs:375-377. -/
def extendAll {α β} (f : β → SM (τ × Nat) (PMap α)) : PMap α → List β → SM (τ × Nat) (PMap α)
  | m, [] => pure m
  | m, b :: bs => do
    let r ← f b
    extendAll f (PMap.extend m r) bs

/-- `internal_walk_fs_items`; src/dir.rs:356-385. -/
def walkItemsFrom (db : Db) : Nat → Key → Path → SM (τ × Nat) (PMap (Key × Bool))
  | 0, _, _ => SM.lift .fuel
  | n + 1, key, path => do
    let item ← getItem F db key
    match item.itemtype with
    | .dir =>
      extendAll (fun (c : Key × Path) => walkItemsFrom db n c.1 (Path.join path c.2))
        (if path = [] then [] else PMap.insert [] path (key, true)) (item.children.zip item.names)
    | .file => pure (PMap.insert [] path (key, false))

/-- `walk_fs_items`; src/dir.rs:349-354. -/
def walkItems (db : Db) (n : Nat) (key : Key) : SM (τ × Nat) (PMap (Key × Bool)) := walkItemsFrom F db n key []

/-- `hash_fs_item`; src/dir.rs:163-215. -/
def hashFsItem (E : Env) (fs : Fs) (path : Path) : SM ((Db × Cache) × Nat) Key := do
  match ← SM.lift (fs.metadata path) with
  | .file c md => do
    let ck : CacheKey := ⟨md.ino, md.mtime, BitVec.ofNat 64 c.length⟩
    match ← SM.using (fun s => query F (s.2.get ck)) with
    | some h => pure h
    | none => do
      let k ← SM.fst (SM.fst (putFile E path c))
      SM.fst (SM.snd (fun cache => (.ok (), (Cache.put ck k cache).2)))
      pure k
  | _ => SM.throw .nonFile

/-- One path only in `from`; src/diff.rs:93-115. -/
def addedOf (E : Env) (fs : Fs) (m : FromMap) (x : Path) : SM ((Db × Cache) × Nat) Added := do
  let key ← (match m with
    | .left _ => do
      if ← SM.lift (m.isDir x) then pure none
      else do
        let h ← SM.unwrap (hashFsItem F E fs x)
        pure (some h)
    | .right y => match y.get x with | some b => pure (some b.1) | none => SM.panic)
  let d ← SM.lift (m.isDir x)
  pure ⟨x, d, key⟩

/-- One path in both; src/diff.rs:131-163. -/
def modifiedOf (E : Env) (fs : Fs) (m : FromMap) (base : Path) (to : PMap (Key × Bool)) (x : Path) : SM ((Db × Cache) × Nat) (Option Modified) := do
  let f ← (match m with
    | .left y => match y.get x with
      | some true => pure none
      | some false => do
        let h ← hashFsItem F E fs (Path.join base x)
        pure (some h)
      | none => SM.panic
    | .right y => match y.get x with | some b => pure (some b.1) | none => SM.panic)
  match f with
  | none => pure none
  | some f => match to.get x with
    | some t => pure (if f = t.1 then none else some ⟨x, t.1, f⟩)
    | none => SM.panic

/-- `compare`; src/diff.rs:55-174. -/
def compare (E : Env) (fs : Fs) (iter : Nat → List Path → List Path) (n : Nat) (source : Target) (to : Option Key) : SM ((Db × Cache) × Nat) DiffResult := do
  let m ← (match source with
    | .fileSystem path glob dbPath => do
      let m ← SM.lift (walkReal fs (makeFilter glob dbPath) n path)
      pure (FromMap.left m)
    | .database key => do
      let m ← SM.using (fun s => walkItems F s.1 n key)
      pure (FromMap.right m))
  let base := (match source with | .fileSystem path _ _ => path | .database _ => [])
  let toMap ← (match to with
    | some t => SM.using (fun s => walkItems F s.1 n t)
    | none => pure [])
  let fromKeys := m.keys
  let toKeys := toMap.map (·.1)
  let added ← mapSM (addedOf F E fs m) (iter 0 (fromKeys.filter fun x => !toKeys.contains x))
  let deleted ← mapSM (fun x => SM.lift (deletedOf m toMap x)) (iter 1 (toKeys.filter fun x => !fromKeys.contains x))
  let modified ← mapSM (modifiedOf F E fs m base toMap) (iter 2 (fromKeys.filter fun x => toKeys.contains x))
  pure ⟨sortBy Deleted.le deleted, sortBy Added.le added, sortBy Modified.le (modified.filterMap id)⟩

/-- `file::read_data` into a fresh `Vec`; src/diff.rs:293-297,338-339. -/
def readAll (db : Db) (n : Nat) (k : Key) : SM (τ × Nat) Bytes := fun s =>
  match readDataTo F db (fun d => SM.modify (· ++ d)) n k (([] : Bytes), s.2) with
  | (.ok _, t) => (.ok t.1, (s.1, t.2))
  | (.err e, t) => (.err e, (s.1, t.2))
  | (.panic, t) => (.panic, (s.1, t.2))
  | (.fuel, t) => (.fuel, (s.1, t.2))

/-- `line_ct`; src/diff.rs:337-344. -/
def lineCt (db : Db) (n : Nat) (k : Key) : SM (τ × Nat) Nat := do
  let data ← SM.unwrap (readAll F db n k)
  pure (data.count 10)

/-- The statistic of one modified file; src/diff.rs:292-319. -/
def modifiedStat (lib : DiffLib) (db : Db) (n : Nat) (m : Modified) : SM (τ × Nat) FileStat := do
  let before ← SM.unwrap (readAll F db n m.originalKey)
  let after ← SM.unwrap (readAll F db n m.newKey)
  let lines := lib.lines (lib.lossy before) (lib.lossy after)
  pure ⟨m.path, lines.count .right, lines.count .left⟩

/-- The statistic of added or removed files; src/diff.rs:272-290. -/
def countStat {α} (db : Db) (n : Nat) (isDir : α → Bool) (key : α → Option Key) (mk : α → Nat → FileStat) (l : List α) : SM (τ × Nat) (List FileStat) := do
  let r ← mapSM (fun a => match key a with
    | some k => do
      let c ← lineCt F db n k
      pure (some (mk a c))
    | none => pure none) (l.filter fun a => !isDir a)
  pure (r.filterMap id)

/-- `line_stat`; src/diff.rs:267-322. -/
def lineStat (lib : DiffLib) (db : Db) (n : Nat) (r : DiffResult) : SM (τ × Nat) (List FileStat) := do
  let a ← countStat F db n Added.isDir Added.newKey (fun x c => ⟨x.path, c, 0⟩) r.added
  let d ← countStat F db n Deleted.isDir Deleted.originalKey (fun x c => ⟨x.path, 0, c⟩) r.deleted
  let m ← mapSM (modifiedStat F lib db n) r.modified
  pure (a ++ d ++ m)

/-- `print_stat_diff_result`; src/diff.rs:243-247,324-335. -/
def printedStat (lib : DiffLib) (db : Db) (n : Nat) (r : DiffResult) : SM (τ × Nat) (List FileStat) := do
  let l ← lineStat F lib db n r
  pure (sortBy FileStat.le l)

/-- The patch of an added file; src/diff.rs:371-423. -/
def addedPatch (lib : DiffLib) (db : Db) (n : Nat) (path : Path) (k : Key) : SM (τ × Nat) Patch := do
  let data ← SM.unwrap (readAll F db n k)
  if utf8 data then
    pure ⟨lib.lossy path, [⟨0, 0, 0, (strLines data).length, (strLines data).map .add⟩]⟩
  else SM.throw .binaryPatch

/-- The patch of a removed file; src/diff.rs:425-476. -/
def removedPatch (lib : DiffLib) (db : Db) (n : Nat) (path : Path) (k : Key) : SM (τ × Nat) Patch := do
  let data ← SM.unwrap (readAll F db n k)
  if utf8 data then
    pure ⟨lib.lossy path, [⟨0, (strLines data).length, 0, 0, (strLines data).map .rem⟩]⟩
  else SM.throw .binaryPatch

/-- The patch of a modified file; src/diff.rs:478-495. -/
def modifiedPatch (lib : DiffLib) (db : Db) (n : Nat) (m : Modified) : SM (τ × Nat) Patch := do
  let before ← SM.unwrap (readAll F db n m.originalKey)
  let after ← SM.unwrap (readAll F db n m.newKey)
  SM.lift (patchFrom lib (lib.lossy before) (lib.lossy after) m.path)

/-- Patches of the entries that are files and have a key; src/diff.rs:371-373,425-427. -/
def filePatches {α} (isDir : α → Bool) (key : α → Option Key) (mk : α → Key → SM (τ × Nat) Patch) (l : List α) : SM (τ × Nat) (List Patch) := do
  let r ← mapSM (fun a => match key a with
    | some k => do
      let p ← mk a k
      pure (some p)
    | none => pure none) (l.filter fun a => !isDir a)
  pure (r.filterMap id)

/-- `create_diff_patch_result`; src/diff.rs:363-498. -/
def createPatch (lib : DiffLib) (db : Db) (n : Nat) (r : DiffResult) : SM (τ × Nat) (List Patch) := do
  let a ← filePatches Added.isDir Added.newKey (fun x k => addedPatch F lib db n x.path k) r.added
  let d ← filePatches Deleted.isDir Deleted.originalKey (fun x k => removedPatch F lib db n x.path k) r.deleted
  let m ← mapSM (modifiedPatch F lib db n) r.modified
  pure (a ++ d ++ m)

/-- `diff::compare` without a cache; src/display.rs:102-108. -/
def compareDb (E : Env) (fs : Fs) (iter : Nat → List Path → List Path) (n : Nat) (source to : Option Key) : SM ((Db × List Out) × Nat) DiffResult :=
  match source with
  | some k => SM.onPart (fun s => (s.1, ({} : Cache))) (fun d s => (d.1, s.2)) (compare F E fs iter n (.database k) to)
  | none => SM.panic

/-- The comparison of a commit with its first parent; src/display.rs:86-117. -/
def displayChanges (E : Env) (lib : DiffLib) (fs : Fs) (iter : Nat → List Path → List Path) (n : Nat) (kind : Kind) (c : Commit) :
    SM ((Db × List Out) × Nat) Unit := do
  let tree ← (match c.parents with
    | p :: _ => do
      let parent ← SM.using (fun s => commitAt F s.1 p)
      pure (some parent.tree)
    | [] => pure none)
  let dr ← SM.unwrap (compareDb F E fs iter n (some c.tree) tree)
  match kind with
  | .stat => do
    let l ← SM.using (fun s => printedStat F lib s.1 n dr)
    SM.fst (say (.stats l))
  | .patch => do
    let l ← SM.using (fun s => createPatch F lib s.1 n dr)
    SM.fst (say (.patches l))

/-- `file::read_data` to the terminal; src/display.rs:65-67. -/
def printData (n : Nat) (key : Key) : SM ((Db × List Out) × Nat) Unit :=
  SM.using fun t => SM.onPart (fun s => s.2) (fun o s => (s.1, o)) (readDataTo F t.1 (fun d => SM.modify (· ++ [Out.data d])) n key)

/-- `display_obj`; src/display.rs:59-128. -/
def displayObj (E : Env) (lib : DiffLib) (fs : Fs) (iter : Nat → List Path → List Path) (n : Nat) (kind : Kind) : Nat → Key → SM ((Db × List Out) × Nat) Unit
  | 0, _ => SM.lift .fuel
  | f + 1, key => do
    let obj ← SM.using (fun s => SM.unwrap (getObj F s.1 key))
    match obj.objtype with
    | .fileBlobTree => printData F n key
    | .fileBlob => printData F n key
    | .fsItemFile =>
      match obj.keys with
      | [k] => displayObj E lib fs iter n kind f k
      | _ => SM.panic
    | .commit => do
      let c ← SM.lift (Commit.ofObject obj).unwrap
      SM.fst (say (.commit key c.attrs.message))
      displayChanges F E lib fs iter n kind c
    | .fsItemDir => SM.fst (say (.tree key))
    | .unknown => SM.panic

/-- The loop of `log_obj`; src/display.rs:39-51. -/
def logLoop (E : Env) (lib : DiffLib) (fs : Fs) (iter : Nat → List Path → List Path) (n : Nat) (kind : Kind) : Nat → Commit → SM ((Db × List Out) × Nat) Unit
  | 0, _ => SM.lift .fuel
  | f + 1, c =>
    match c.parents with
    | [] => pure ()
    | p :: _ => do
      displayObj F E lib fs iter n kind n p
      let c ← SM.using (fun s => commitAt F s.1 p)
      logLoop E lib fs iter n kind f c

/-- `log_obj`; src/display.rs:22-57. -/
def logObj (E : Env) (lib : DiffLib) (fs : Fs) (iter : Nat → List Path → List Path) (n : Nat) (kind : Kind) (key : Key) : SM ((Db × List Out) × Nat) Unit := do
  let obj ← SM.using (fun s => SM.unwrap (getObj F s.1 key))
  match obj.objtype with
  | .commit => do
    displayObj F E lib fs iter n kind n key
    let c ← SM.using (fun s => commitAt F s.1 key)
    logLoop F E lib fs iter n kind n c
  | _ => SM.panic

/-! ### Commands -/

/-- Command bodies; src/main.rs:243-682. -/
abbrev CQ := SM (Sys × Nat)

/-- Reading the database; src/main.rs:258. -/
def asking {α} (f : Db → CQ α) : CQ α := SM.using fun s => f s.db

/-- `get_head()?.ok_or(NoHeadError)?`; src/main.rs:283,307,457,484,562,596,638,651. -/
def headName (db : Db) : SM (τ × Nat) Bytes := do
  match ← getHead F db with
  | some h => pure h
  | none => SM.throw .noHead

/-- `match args.refname { Some(s) => s, None => head }`; src/main.rs:281-284,305-308,482-485. -/
def refOrHead (db : Db) : Option Bytes → SM (τ × Nat) Bytes
  | some s => pure s
  | none => headName F db

/-- `get_head_key`; src/main.rs:456-461. -/
def getHeadKey (db : Db) : SM (τ × Nat) Key := do
  let r ← headName F db
  reflogGet F db r none

/-- `match args.key { Some(k) => canonicalize(k)?, None => get_head_key()? }`; src/main.rs:517-520,530-533. -/
def keyOrHead (db : Db) : Option Keyish → SM (τ × Nat) Key
  | some k => canonicalize F db k
  | none => getHeadKey F db

/-- The comparison of the working tree; src/main.rs:573-582,614-623,659-668. -/
def compareWork (X : Ctx) (R : Repo) (path : Path) (to : Option Key) : CQ DiffResult :=
  SM.using fun t => SM.onPart (fun s => (s.db, s.cache)) (fun d s => { s with db := d.1, cache := d.2 })
    (compare F X.E t.fs X.iter X.depth (.fileSystem path X.glob R.folder) to)

/-- `fetch`; src/main.rs:255-263. -/
def cmdFetch (X : Ctx) (key : Keyish) (dest : Path) : CQ Unit := do
  let k ← asking (fun db => canonicalize F db key)
  SM.using fun t => SM.onPart Sys.fs (fun f s => { s with fs := f }) (getFsItem F t.db X.depth k dest)

/-- `ref_log`; src/main.rs:278-298. -/
def cmdRefLog (refname remote : Option Bytes) : CQ Unit := do
  let r ← asking (fun db => refOrHead F db refname)
  let keys ← asking (fun db => reflogWalk F db r remote)
  SM.fst (SM.each (fun (e : Key × Nat) => emit (.entry (keys.length - e.2) e.1)) keys.zipIdx)

/-- `ref_update`; src/main.rs:300-319. -/
def cmdRefUpdate (key : Keyish) (refname : Option Bytes) : CQ Unit := do
  let k ← asking (fun db => canonicalize F db key)
  let r ← asking (fun db => refOrHead F db refname)
  SM.fst (onDb (reflogPush r none k))

/-- `debug_get_head`; src/main.rs:336-343. -/
def cmdGetHead : CQ Unit := do
  let h ← asking (fun db => getHead F db)
  SM.fst (emit (.head h))

/-- `debug_walk_tree`; src/main.rs:345-357. -/
def cmdWalkTree (X : Ctx) (key : Keyish) : CQ Unit := do
  let k ← asking (fun db => canonicalize F db key)
  let items ← asking (fun db => walkItems F db X.depth k)
  SM.fst (emitAll (X.iter 3) items fun p v => .item p v.1 v.2)

/-- `debug_pretty_print`; src/main.rs:369-379. -/
def cmdPrettyPrint (key : Keyish) : CQ Unit := do
  let k ← asking (fun db => canonicalize F db key)
  let o ← asking (fun db => getObj F db k)
  SM.fst (emit (.object o))

/-- `debug_commit_tree`; src/main.rs:381-405. -/
def cmdCommitTree (X : Ctx) (tree : Keyish) (parents : List Keyish) : CQ Unit := do
  let t ← asking (fun db => canonicalize F db tree)
  let ps ← asking (fun db => mapSM (canonicalize F db) parents)
  let k ← SM.fst (onDb (Snap.commitTree X.E.H t ps {}))
  SM.fst (emit (.key k))

/-- `debug_reflog_get`; src/main.rs:407-417. -/
def cmdReflogGet (refname : Bytes) (remote : Option Bytes) : CQ Unit := do
  let k ← asking (fun db => reflogGet F db refname remote)
  SM.fst (emit (.key k))

/-- `debug_reflog_push`; src/main.rs:419-433. -/
def cmdReflogPush (key : Keyish) (refname : Bytes) (remote : Option Bytes) : CQ Unit := do
  let k ← asking (fun db => canonicalize F db key)
  SM.fst (onDb (reflogPush refname remote k))

/-- The parents of the new commit: only "not found" means none; src/main.rs:487-493. -/
def parentsOf (db : Db) (refname : Bytes) : SM (τ × Nat) (List Key) := fun s =>
  match reflogGet F db refname none s with
  | (.ok k, s) => (.ok [k], s)
  | (.err .notFound, s) => (.ok [], s)
  | (.err e, s) => (.err e, s)
  | (.panic, s) => (.panic, s)
  | (.fuel, s) => (.fuel, s)

/-- `commit_cmd`; src/main.rs:472-512. -/
def cmdCommit (X : Ctx) (R : Repo) (path : Option Path) (message : Bytes) (refname : Option Bytes) : CQ Unit := do
  let r ← asking (fun db => refOrHead F db refname)
  let ps ← asking (fun db => parentsOf F db r)
  let key ← SM.fst (fun s => onDb (putFsItem X.E s.fs (makeFilter X.glob R.folder) X.depth (path.getD R.root)) s : C Key)
  let ck ← SM.fst (onDb (Snap.commitTree X.E.H key ps { message := message }))
  SM.fst (onDb (reflogPush r none ck))

/-- `show`; src/main.rs:514-525. -/
def cmdShow (X : Ctx) (key : Option Keyish) : CQ Unit := do
  let k ← asking (fun db => keyOrHead F db key)
  SM.using fun t => SM.onPart (fun s => (s.db, s.out)) (fun d s => { s with db := d.1, out := d.2 }) (displayObj F X.E X.lib t.fs X.iter X.depth .patch X.depth k)

/-- `log`; src/main.rs:527-538. -/
def cmdLog (X : Ctx) (key : Option Keyish) : CQ Unit := do
  let k ← asking (fun db => keyOrHead F db key)
  SM.using fun t => SM.onPart (fun s => (s.db, s.out)) (fun d s => { s with db := d.1, out := d.2 }) (logObj F X.E X.lib t.fs X.iter X.depth .stat k)

/-- `compare`; src/main.rs:556-591. -/
def cmdCompare (X : Ctx) (R : Repo) (path : Option Path) (key : Option Keyish) (stat : Bool) : CQ Unit := do
  let k ← asking (fun db => match key with
    | some k => canonicalize F db k
    | none => do
      let c ← getHeadKey F db
      let c ← commitAt F db c
      pure c.tree)
  let r ← compareWork F X R (path.getD R.root) (some k)
  if stat then do
    let l ← asking (fun db => printedStat F X.lib db X.depth r)
    SM.fst (emit (.stats l))
  else SM.fst (emit (.result (simplify r)))

/-- `reflog_get(…).ok()`: every error counts as "no commits"; src/main.rs:600,655. -/
def refKey (db : Db) (refname : Bytes) : SM (τ × Nat) (Option Key) := fun s =>
  (.ok (reflogGet F db refname none s).1.toOption, (reflogGet F db refname none s).2)

/-- `status`; src/main.rs:593-633. -/
def cmdStatus (X : Ctx) (R : Repo) : CQ Unit := do
  let h ← asking (fun db => headName F db)
  match ← asking (fun db => refKey F db h) with
  | some k => do
    SM.fst (emit (.headAt h (some (k.asUserKey.take 8))))
    let c ← asking (fun db => commitAt F db k)
    let r ← compareWork F X R R.root (some c.tree)
    SM.fst (emit (.result (simplify r)))
  | none => SM.fst (emit (.headAt h none))

/-- `checkout`; src/main.rs:635-646. -/
def cmdCheckout (X : Ctx) (R : Repo) : CQ Unit := do
  let k ← asking (fun db => getHeadKey F db)
  let c ← asking (fun db => commitAt F db k)
  SM.using fun t => SM.onPart Sys.fs (fun f s => { s with fs := f }) (checkoutFsItem F t.db (makeFilter X.glob R.folder) X.iterNames X.depth c.tree R.root)

/-- `checkout_head`; src/main.rs:648-682. -/
def cmdCheckoutHead (X : Ctx) (R : Repo) (refname : Bytes) : CQ Unit := do
  let h ← asking (fun db => headName F db)
  let k ← asking (fun db => refKey F db h)
  let t ← asking (fun db => match k with
    | some k => do
      let c ← commitAt F db k
      pure (some c.tree)
    | none => pure none)
  let r ← compareWork F X R R.root t
  if r.isEmpty then do
    SM.fst (onDb (putHead refname))
    SM.fst (emit (.text sNewHead))
  else do
    SM.fst (emit (.text sNotClean))
    SM.fst (emit (.result (simplify r)))

/-- The commands on an open repository; `insert`, `debug walk-fs-tree` and `debug set-head` read nothing; src/main.rs:773-786. -/
def body (X : Ctx) (R : Repo) : Command → CQ Unit
  | .commit path message refname => cmdCommit F X R path message refname
  | .fetch key dest => cmdFetch F X key dest
  | .show key => cmdShow F X key
  | .log key => cmdLog F X key
  | .compare path key stat => cmdCompare F X R path key stat
  | .status => cmdStatus F X R
  | .checkout => cmdCheckout F X R
  | .checkoutHead refname => cmdCheckoutHead F X R refname
  | .refLog refname remote => cmdRefLog F refname remote
  | .refUpdate key refname => cmdRefUpdate F key refname
  | .prettyPrint key => cmdPrettyPrint F key
  | .commitTree tree parents => cmdCommitTree F X tree parents
  | .reflogGet refname remote => cmdReflogGet F refname remote
  | .reflogPush key refname remote => cmdReflogPush F key refname remote
  | .walkTree key => cmdWalkTree F X key
  | .getHead => cmdGetHead F
  | cmd => SM.fst (cmd.inRepo X R)

end Flaky

/-- A command in a repository when queries fail; src/main.rs:764-801, otherwise as `runIn`. -/
def runFlaky (F : Hitches) (X : Ctx) (R : Repo) (q : List Bytes) (cmd : Command) (w : World) : Exit × List Out × World :=
  let conn := (Conn.mk (w.dbs q) none).begin.2
  let s := Flaky.body F X R cmd ({ db := conn.view, cache := w.cache, fs := w.fs }, 0)
  let conn := (conn.exec fun _ => (s.1, s.2.1.db)).2
  let ca := Cache.finish s.1 w.cache s.2.1.cache
  (exitOf s.1 ca.1, s.2.1.out, { w with fs := s.2.1.fs, cache := ca.2 }.setDb q (conn.finish s.1).durable)

end Snap
