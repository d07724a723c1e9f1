import Verif.Model.Display
import Verif.Model.Conn
/-!
Model of src/main.rs.

* Argument parsing (structopt) is not modelled: commands come with parsed arguments; exclude patterns are given compiled.
* The contents of the database file and of the cache file are not in the file tree `Fs`: the tables of the database `…/snapcd.db` are `dbs` at the location of that file
  (empty tables if it does not exist: `SqliteDS::new` creates them), the cache is separate. The directories `main` makes for the cache are not modelled.
* `BEGIN` on a fresh connection and `ROLLBACK` succeed. `COMMIT` can fail.
-/
namespace Snap
variable [Serde]

/-- What a command works on; `State`, src/main.rs:50-54, with files and terminal. -/
structure Sys where
  db : Db
  cache : Cache := {}
  fs : Fs := {}
  out : List Out := []

/-- Command bodies, `fn(&mut State, _) -> CMDResult`; src/main.rs:243-682. -/
abbrev C := SM Sys

/-- A computation on a part of the state; field access such as `ds_state.ds`; src/main.rs:248. -/
def SM.on {σ τ α} (get : σ → τ) (set : τ → σ → σ) (x : SM τ α) : SM σ α := fun s => ((x (get s)).1, set (x (get s)).2 s)

/-- Computations on the database, database and cache, files, database and terminal; src/main.rs:248,573,360. -/
def onDb {α} (x : M α) : C α := SM.on Sys.db (fun d s => { s with db := d }) x
/-- Database and cache; src/main.rs:573-582. -/
def onDbCache {α} (x : SM (Db × Cache) α) : C α := SM.on (fun s => (s.db, s.cache)) (fun d s => { s with db := d.1, cache := d.2 }) x
/-- Files; src/main.rs:260. -/
def onFs {α} (x : SM Fs α) : C α := SM.on Sys.fs (fun f s => { s with fs := f }) x
/-- Database and terminal; src/main.rs:522. -/
def onP {α} (x : P α) : C α := SM.on (fun s => (s.db, s.out)) (fun d s => { s with db := d.1, out := d.2 }) x

/-- Reading the database; src/main.rs:258. -/
def readDb {α} (f : Db → Res α) : C α := SM.read (fun s => f s.db)

/-- `println!`; src/main.rs:250. -/
def emit (o : Out) : C Unit := SM.modify fun s => { s with out := s.out ++ [o] }

/-- What does not change during a run: `struct Common` (src/main.rs:32-48), iteration orders, the environment. `depth` bounds all recursions. -/
structure Ctx where
  E : Env
  lib : DiffLib
  glob : Path → Bool
  dbPath : Path
  iter : Nat → List Path → List Path
  iterNames : List Bytes → List Bytes
  depth : Nat

/-- `struct DsState` without the connection; src/main.rs:56-60. -/
structure Repo where
  folder : Path
  root : Path

/-- `enum Command`, `enum DebugCommand`, `enum RefCommand`; src/main.rs:62-231. -/
inductive Command where
  | insert (path : Path)
  | commit (path : Option Path) (message : Bytes) (refname : Option Bytes)
  | fetch (key : Keyish) (dest : Path)
  | init
  | show (key : Option Keyish)
  | log (key : Option Keyish)
  | compare (path : Option Path) (key : Option Keyish) (stat : Bool)
  | status
  | checkout
  | checkoutHead (refname : Bytes)
  | refLog (refname remote : Option Bytes)
  | refUpdate (key : Keyish) (refname : Option Bytes)
  | prettyPrint (key : Keyish)
  | commitTree (tree : Keyish) (parents : List Keyish)
  | reflogGet (refname : Bytes) (remote : Option Bytes)
  | reflogPush (key : Keyish) (refname : Bytes) (remote : Option Bytes)
  | walkTree (key : Keyish)
  | walkFsTree (path : Path)
  | setHead (refname : Bytes)
  | getHead

/-- `get_head()?.ok_or(NoHeadError)?`; src/main.rs:283,307,457,484,562,596,638,651. -/
def headName (db : Db) : Res Bytes := do
  match ← getHead db with
  | some h => .ok h
  | none => .err .noHead

/-- `match args.refname { Some(s) => s, None => head }`; src/main.rs:281-284,305-308,482-485. -/
def refOrHead (db : Db) : Option Bytes → Res Bytes
  | some s => .ok s
  | none => headName db

/-- `get_head_key`; src/main.rs:456-461. -/
def getHeadKey (db : Db) : Res Key := do
  let r ← headName db
  reflogGet db r none

/-- `match args.key { Some(k) => canonicalize(k)?, None => get_head_key()? }`; src/main.rs:517-520,530-533. -/
def keyOrHead (db : Db) : Option Keyish → Res Key
  | some k => canonicalize db k
  | none => getHeadKey db

/-- The comparison of the working tree; src/main.rs:573-582,614-623,659-668. -/
def compareWork (X : Ctx) (R : Repo) (path : Path) (to : Option Key) : C DiffResult := fun s =>
  onDbCache (Snap.compare X.E s.fs X.iter X.depth (.fileSystem path X.glob R.folder) to) s

/-- `insert`; src/main.rs:243-253. -/
def cmdInsert (X : Ctx) (R : Repo) (path : Path) : C Unit := do
  let h ← (fun s => onDb (putFsItem X.E s.fs (makeFilter X.glob R.folder) X.depth path) s : C Key)
  emit (.key h)

/-- `fetch`; src/main.rs:255-263. -/
def cmdFetch (X : Ctx) (key : Keyish) (dest : Path) : C Unit := do
  let k ← readDb (fun db => canonicalize db key)
  (fun s => onFs (getFsItem s.db X.depth k dest) s : C Unit)

/-- `ref_log`; src/main.rs:278-298. The heading is left out. -/
def cmdRefLog (refname remote : Option Bytes) : C Unit := do
  let r ← readDb (fun db => refOrHead db refname)
  let keys ← readDb (fun db => reflogWalk db r remote)
  SM.each (fun (e : Key × Nat) => emit (.entry (keys.length - e.2) e.1)) keys.zipIdx

/-- `ref_update`; src/main.rs:300-319. -/
def cmdRefUpdate (key : Keyish) (refname : Option Bytes) : C Unit := do
  let k ← readDb (fun db => canonicalize db key)
  let r ← readDb (fun db => refOrHead db refname)
  onDb (reflogPush r none k)

/-- `debug_get_head`; src/main.rs:336-343. -/
def cmdGetHead : C Unit := do
  let h ← readDb getHead
  emit (.head h)

/-- Printing the entries of a `HashMap`, in the order `order`; src/main.rs:352-354,362-364. -/
def emitAll {α} (order : List Path → List Path) (m : PMap α) (line : Path → α → Out) : C Unit :=
  SM.each (fun p => match m.get p with
    | some v => emit (line p v)
    | none => pure ()) (order (m.map (·.1)))

/-- `debug_walk_tree`; src/main.rs:345-357. -/
def cmdWalkTree (X : Ctx) (key : Keyish) : C Unit := do
  let k ← readDb (fun db => canonicalize db key)
  let items ← readDb (fun db => walkItems db X.depth k)
  emitAll (X.iter 3) items fun p v => .item p v.1 v.2

/-- `debug_walk_fs_tree`; src/main.rs:359-367. -/
def cmdWalkFsTree (X : Ctx) (path : Path) : C Unit := do
  let items ← SM.read (fun s => walkReal s.fs (fun _ _ => .ok true) X.depth path)
  emitAll (X.iter 3) items .fsItem

/-- `debug_pretty_print`; src/main.rs:369-379, src/object.rs:74-110. -/
def cmdPrettyPrint (key : Keyish) : C Unit := do
  let k ← readDb (fun db => canonicalize db key)
  let o ← readDb (fun db => getObj db k)
  emit (.object o)

/-- `debug_commit_tree`; src/main.rs:381-405. -/
def cmdCommitTree (X : Ctx) (tree : Keyish) (parents : List Keyish) : C Unit := do
  let t ← readDb (fun db => canonicalize db tree)
  let ps ← readDb (fun db => mapRes (canonicalize db) parents)
  let k ← onDb (Snap.commitTree X.E.H t ps {})
  emit (.key k)

/-- `debug_reflog_get`; src/main.rs:407-417. -/
def cmdReflogGet (refname : Bytes) (remote : Option Bytes) : C Unit := do
  let k ← readDb (fun db => reflogGet db refname remote)
  emit (.key k)

/-- `debug_reflog_push`; src/main.rs:419-433. -/
def cmdReflogPush (key : Keyish) (refname : Bytes) (remote : Option Bytes) : C Unit := do
  let k ← readDb (fun db => canonicalize db key)
  onDb (reflogPush refname remote k)

/-- The parents of the new commit; src/main.rs:487-493. -/
def parentsOf (db : Db) (refname : Bytes) : Res (List Key) :=
  match reflogGet db refname none with
  | .ok k => .ok [k]
  | .err .notFound => .ok []
  | .err e => .err e
  | .panic => .panic
  | .fuel => .fuel

/-- `commit_cmd`; src/main.rs:472-512. -/
def cmdCommit (X : Ctx) (R : Repo) (path : Option Path) (message : Bytes) (refname : Option Bytes) : C Unit := do
  let r ← readDb (fun db => refOrHead db refname)
  let ps ← readDb (fun db => parentsOf db r)
  let key ← (fun s => onDb (putFsItem X.E s.fs (makeFilter X.glob R.folder) X.depth (path.getD R.root)) s : C Key)
  let ck ← onDb (Snap.commitTree X.E.H key ps { message := message })
  onDb (reflogPush r none ck)

/-- `show`; src/main.rs:514-525. -/
def cmdShow (X : Ctx) (key : Option Keyish) : C Unit := do
  let k ← readDb (fun db => keyOrHead db key)
  (fun s => onP (displayObj X.E X.lib s.fs X.iter X.depth .patch X.depth k) s : C Unit)

/-- `log`; src/main.rs:527-538. -/
def cmdLog (X : Ctx) (key : Option Keyish) : C Unit := do
  let k ← readDb (fun db => keyOrHead db key)
  (fun s => onP (logObj X.E X.lib s.fs X.iter X.depth .stat k) s : C Unit)

/-- `compare`; src/main.rs:556-591. -/
def cmdCompare (X : Ctx) (R : Repo) (path : Option Path) (key : Option Keyish) (stat : Bool) : C Unit := do
  let k ← readDb (fun db => match key with
    | some k => canonicalize db k
    | none => do
      let c ← getHeadKey db
      let c ← Commit.fromKey db c
      pure c.tree)
  let r ← compareWork X R (path.getD R.root) (some k)
  if stat then do
    let l ← readDb (fun db => printedStat X.lib db X.depth r)
    emit (.stats l)
  else emit (.result (simplify r))

/-- `status`; src/main.rs:593-633. `as_user_key()[0..8]` is in range. -/
def cmdStatus (X : Ctx) (R : Repo) : C Unit := do
  let h ← readDb headName
  match ← (SM.read (fun s => .ok (reflogGet s.db h none).toOption) : C (Option Key)) with
  | some k => do
    emit (.headAt h (some (k.asUserKey.take 8)))
    let c ← readDb (fun db => Commit.fromKey db k)
    let r ← compareWork X R R.root (some c.tree)
    emit (.result (simplify r))
  | none => emit (.headAt h none)

/-- `checkout`; src/main.rs:635-646. -/
def cmdCheckout (X : Ctx) (R : Repo) : C Unit := do
  let k ← readDb getHeadKey
  let c ← readDb (fun db => Commit.fromKey db k)
  (fun s => onFs (checkoutFsItem s.db (makeFilter X.glob R.folder) X.iterNames X.depth c.tree R.root) s : C Unit)

/-- "Cannot checkout: working directory is not clean", "Ok, new head."; src/main.rs:671,679. -/
def sNotClean : Bytes := "Cannot checkout: working directory is not clean".toUTF8.toList
/-- The message of src/main.rs:679. -/
def sNewHead : Bytes := "Ok, new head.".toUTF8.toList

/-- `checkout_head`; src/main.rs:648-682. -/
def cmdCheckoutHead (X : Ctx) (R : Repo) (refname : Bytes) : C Unit := do
  let h ← readDb headName
  let k ← (SM.read (fun s => .ok (reflogGet s.db h none).toOption) : C (Option Key))
  let t ← readDb (fun db => match k with
    | some k => do
      let c ← Commit.fromKey db k
      pure (some c.tree)
    | none => pure none)
  let r ← compareWork X R R.root t
  if r.isEmpty then do
    onDb (putHead refname)
    emit (.text sNewHead)
  else do
    emit (.text sNotClean)
    emit (.result (simplify r))

/-- Commands that work on an open repository; src/main.rs:773-786. `init` is in `mainRun`. -/
def Command.inRepo (X : Ctx) (R : Repo) : Command → C Unit
  | .insert path => cmdInsert X R path
  | .commit path message refname => cmdCommit X R path message refname
  | .fetch key dest => cmdFetch X key dest
  | .init => pure ()
  | .show key => cmdShow X key
  | .log key => cmdLog X key
  | .compare path key stat => cmdCompare X R path key stat
  | .status => cmdStatus X R
  | .checkout => cmdCheckout X R
  | .checkoutHead refname => cmdCheckoutHead X R refname
  | .refLog refname remote => cmdRefLog refname remote
  | .refUpdate key refname => cmdRefUpdate key refname
  | .prettyPrint key => cmdPrettyPrint key
  | .commitTree tree parents => cmdCommitTree X tree parents
  | .reflogGet refname remote => cmdReflogGet refname remote
  | .reflogPush key refname remote => cmdReflogPush key refname remote
  | .walkTree key => cmdWalkTree X key
  | .walkFsTree path => cmdWalkFsTree X path
  | .setHead refname => onDb (putHead refname)
  | .getHead => cmdGetHead

/-- Without a repository everything but `init` and `walk-fs-tree` fails at once; src/main.rs:773-786 with `ok_or(DatabaseNotFoundError)` of src/main.rs:244. -/
def Command.body (X : Ctx) (R : Option Repo) (c : Command) : C Unit :=
  match R with
  | some R => c.inRepo X R
  | none => match c with
    | .init => pure ()
    | .walkFsTree path => cmdWalkFsTree X path
    | _ => SM.throw .noDatabase

/-- "snapcd.db" and "master"; src/main.rs:465,729. -/
def sDbFile : Bytes := [115, 110, 97, 112, 99, 100, 46, 100, 98]
/-- "master"; src/main.rs:467. -/
def sMaster : Bytes := [109, 97, 115, 116, 101, 114]

/-- The loop of `find_db_folder`; src/main.rs:440-453. `n` bounds the number of steps up. -/
def findFrom (fs : Fs) (name : Path) : Nat → Path → Res (Option Path)
  | 0, _ => .fuel
  | n + 1, d =>
    if fs.exists (Path.join d name) then .ok (some (Path.join d name))
    else match Path.parent d with
      | some p => findFrom fs name n p
      | none => .ok none

/-- `find_db_folder`; src/main.rs:435-454. -/
def findDbFolder (fs : Fs) (name : Path) : Res (Option Path) :=
  findFrom fs name (fs.cwd.length + 1) (Path.ofComps (sSlash :: fs.cwd))

/-- All that outlives a process: files, databases by the location of their file, cache; src/main.rs:721-762. -/
structure World where
  fs : Fs
  dbs : List Bytes → Db
  cache : Cache

/-- Writing one database file; src/main.rs:729. -/
def World.setDb (w : World) (q : List Bytes) (d : Db) : World := { w with dbs := fun q' => if q' = q then d else w.dbs q' }

/-- How the process ends: normally (status 0), having printed `fatal: …` (status 0 too!), returning an error from `main` (status 1), by a panic, or not within the recursion
depth of the model; src/main.rs:712,788-801. -/
inductive Exit where
  | success
  | fatal (e : Err)
  | failure (e : Err)
  | panicked
  | fuel
  deriving DecidableEq, Repr

/-- Where `SqliteDS::new(folder.join("snapcd.db"))` opens or creates the database; it fails if the folder is not a directory; src/main.rs:729, src/ds/sqlite.rs:31-60.
That `snapcd.db` itself is a directory or not a database is not modelled. -/
def openDb (fs : Fs) (folder : Path) : Res (List Bytes) :=
  match fs.locate (Path.join folder sDbFile) with
  | .ok q => .ok q
  | .err _ => .err .sqlite
  | .panic => .panic
  | .fuel => .fuel

/-- `init`: a second connection, without transaction; src/main.rs:463-470. -/
def runInit (X : Ctx) (w : World) : Res Unit × World :=
  match Fs.createDirAll X.dbPath w.fs with
  | (.ok _, fs) =>
    match openDb fs X.dbPath with
    | .ok q =>
      let r := putHead sMaster (w.dbs q)
      (r.1, { w with fs := fs }.setDb q r.2)
    | .err e => (.err e, { w with fs := fs })
    | .panic => (.panic, { w with fs := fs })
    | .fuel => (.fuel, { w with fs := fs })
  | (.err e, fs) => (.err e, { w with fs := fs })
  | (.panic, fs) => (.panic, { w with fs := fs })
  | (.fuel, fs) => (.fuel, { w with fs := fs })

/-- The end of the transaction on the database, and of the connection; src/main.rs:788-798. Errors of `commit` and `rollback` are ignored. -/
def Conn.finish (r : Res Unit) (c : Conn) : Conn :=
  match r with
  | .ok _ => c.commit.2.crash
  | .err _ => c.rollback.2.crash
  | _ => c.crash

/-- The end of the transaction on the cache: the rows that remain, and whether `commit` succeeded; src/main.rs:794,797. -/
def Cache.finish (r : Res Unit) (before after : Cache) : Bool × Cache :=
  match r with
  | .ok _ =>
    match after.faults with
    | true :: fs => (false, { before with faults := fs })
    | _ => (true, { after with faults := after.faults.tail })
  | _ => (true, { before with faults := after.faults })

/-- The status of the process, given the command's result and whether the cache could be committed; src/main.rs:788-801. -/
def exitOf (r : Res Unit) (cacheOk : Bool) : Exit :=
  match r with
  | .ok _ => if cacheOk then .success else .failure .sqlite
  | .err e => .fatal e
  | .panic => .panicked
  | .fuel => .fuel

/-- A command run by `main`, on the repository `R` whose database is at `q`; src/main.rs:764-800. -/
def runIn (X : Ctx) (R : Repo) (q : List Bytes) (cmd : Command) (w : World) : Exit × List Out × World :=
  let conn := (Conn.mk (w.dbs q) none).begin.2
  let s := cmd.body X (some R) { db := conn.view, cache := w.cache, fs := w.fs }
  let conn := (conn.exec fun _ => (s.1, s.2.db)).2
  let ca := Cache.finish s.1 w.cache s.2.cache
  (exitOf s.1 ca.1, s.2.out, { w with fs := s.2.fs, cache := ca.2 }.setDb q (conn.finish s.1).durable)

/-- A command without a repository; src/main.rs:721-801 with `ds_state` being `None`. -/
def runOut (X : Ctx) (cmd : Command) (w : World) : Exit × List Out × World :=
  let s := cmd.body X none { db := {}, cache := w.cache, fs := w.fs }
  let ca := Cache.finish s.1 w.cache s.2.cache
  (exitOf s.1 ca.1, s.2.out, { w with fs := s.2.fs, cache := ca.2 })

/-- `main`; src/main.rs:712-801. -/
def mainRun (X : Ctx) (cmd : Command) (w : World) : Exit × List Out × World :=
  match findDbFolder w.fs X.dbPath with
  | .err e => (.failure e, [], w)
  | .panic => (.panicked, [], w)
  | .fuel => (.fuel, [], w)
  | .ok found =>
    let repo : Res (Option (Repo × List Bytes)) := (match found with
      | none => .ok none
      | some x =>
        match Path.parent x with
        | none => .panic
        | some root => do
          let q ← openDb w.fs x
          pure (some (⟨x, root⟩, q)))
    match repo with
    | .err e => (.failure e, [], w)
    | .panic => (.panicked, [], w)
    | .fuel => (.fuel, [], w)
    | .ok repo =>
      match cmd with
      | .init =>
        let r := runInit X w
        let ca := Cache.finish r.1 w.cache w.cache
        (exitOf r.1 ca.1, [], { r.2 with cache := ca.2 })
      | _ =>
        match repo with
        | some (R, q) => runIn X R q cmd w
        | none => runOut X cmd w

end Snap
