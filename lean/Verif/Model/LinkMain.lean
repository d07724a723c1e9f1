import Verif.Model.LinkWrite
import Verif.Model.LinkCompare
/-!
The whole program on file systems with symbolic links: Model/Cli.lean from `find_db_folder` on, with the functions of Model/Links.lean, Model/LinkCompare.lean and
Model/LinkWrite.lean where files are read or written.
-/
namespace Snap
variable [Serde]

/-- `Path::exists`, which follows links; src/main.rs:445. -/
def LinkFs.exists (fs : LinkFs) (p : Path) : Bool := match fs.metadata p with
  | .ok _ => true
  | _ => false

/-- The loop of `find_db_folder`; as `findFrom`; src/main.rs:440-453. `current_dir` is a path without links. -/
def findLinkedFrom (fs : LinkFs) (name : Path) : Nat → Path → Res (Option Path)
  | 0, _ => .fuel
  | n + 1, d =>
    if fs.exists (Path.join d name) then .ok (some (Path.join d name))
    else match Path.parent d with
      | some p => findLinkedFrom fs name n p
      | none => .ok none

/-- `find_db_folder`; src/main.rs:435-454. -/
def findLinked (fs : LinkFs) (name : Path) : Res (Option Path) :=
  findLinkedFrom fs name (fs.cwd.length + 1) (Path.ofComps (sSlash :: fs.cwd))

/-- Where `SqliteDS::new(folder.join("snapcd.db"))` opens or creates the database, through whatever links; as `openDb`; src/main.rs:729, src/ds/sqlite.rs:31-60. -/
def openLinked (fs : LinkFs) (folder : Path) : Res (List Bytes) :=
  match fs.locate (Path.join folder sDbFile) with
  | .ok q => .ok q.2
  | .err _ => .err .sqlite
  | .panic => .panic
  | .fuel => .fuel

/-- All that outlives a process; as `World`; src/main.rs:721-762. -/
structure LinkWorld where
  disk : Disk
  dbs : List Bytes → Db
  cache : Cache

/-- Writing one database file; src/main.rs:729. -/
def LinkWorld.setDb (w : LinkWorld) (q : List Bytes) (d : Db) : LinkWorld := { w with dbs := fun q' => if q' = q then d else w.dbs q' }

/-- Command bodies; as `C`, whose files are not used; src/main.rs:243-682. -/
abbrev CL := SM (Sys × Disk)

/-- `debug_walk_fs_tree`; as `cmdWalkFsTree`; src/main.rs:359-367. -/
def walkFsLinked (X : Ctx) (path : Path) : CL Unit := do
  let items ← SM.read (fun s => (walkLive { s.2.toLinkFs.sights X.E X.glob [] with take := fun _ _ => .ok true } path X.depth [] ((), 0)).1)
  SM.fst (emitAll (X.iter 3) items .fsItem)

/-- `fetch`; as `cmdFetch`; src/main.rs:255-263. -/
def fetchLinked (X : Ctx) (key : Keyish) (dest : Path) : CL Unit := do
  let k ← SM.fst (readDb (fun db => canonicalize db key))
  (fun s => SM.snd (getLinked s.1.db X.depth k dest) s : CL Unit)

/-- `checkout`; as `cmdCheckout`; src/main.rs:635-646. -/
def checkoutCmdLinked (X : Ctx) (R : Repo) : CL Unit := do
  let k ← SM.fst (readDb getHeadKey)
  let c ← SM.fst (readDb (fun db => Commit.fromKey db k))
  (fun s => SM.snd (checkoutLinked s.1.db X.glob R.folder X.iterNames X.depth c.tree R.root) s : CL Unit)

/-- Commands that work on an open repository; as `Command.inRepo`; src/main.rs:773-786. The files stand still while a command reads them. -/
def Command.linked (X : Ctx) (R : Repo) (cmd : Command) : CL Unit :=
  match cmd with
  | .insert _ => fun s => SM.fst (cmd.live X (s.2.toLinkFs.answers X.E X.glob R.folder) R) s
  | .commit _ _ _ => fun s => SM.fst (cmd.live X (s.2.toLinkFs.answers X.E X.glob R.folder) R) s
  | .compare _ _ _ => fun s => SM.fst (cmd.racing X (s.2.toLinkFs.sights X.E X.glob R.folder) R) s
  | .status => fun s => SM.fst (cmd.racing X (s.2.toLinkFs.sights X.E X.glob R.folder) R) s
  | .checkoutHead _ => fun s => SM.fst (cmd.racing X (s.2.toLinkFs.sights X.E X.glob R.folder) R) s
  | .fetch key dest => fetchLinked X key dest
  | .checkout => checkoutCmdLinked X R
  | .walkFsTree path => walkFsLinked X path
  | _ => SM.fst (cmd.inRepo X R)

/-- Without a repository; as `Command.body`; src/main.rs:773-786. -/
def Command.linkedOut (X : Ctx) (cmd : Command) : CL Unit :=
  match cmd with
  | .init => pure ()
  | .walkFsTree path => walkFsLinked X path
  | _ => SM.throw .noDatabase

/-- `init`; as `runInit`; src/main.rs:463-470. -/
def runInitLinked (X : Ctx) (w : LinkWorld) : Res Unit × LinkWorld :=
  match Disk.createDirAll X.dbPath w.disk with
  | (.ok _, d) =>
    match openLinked d.toLinkFs X.dbPath with
    | .ok q =>
      let r := putHead sMaster (w.dbs q)
      (r.1, { w with disk := d }.setDb q r.2)
    | .err e => (.err e, { w with disk := d })
    | .panic => (.panic, { w with disk := d })
    | .fuel => (.fuel, { w with disk := d })
  | (.err e, d) => (.err e, { w with disk := d })
  | (.panic, d) => (.panic, { w with disk := d })
  | (.fuel, d) => (.fuel, { w with disk := d })

/-- A command run by `main`, on the repository `R` whose database is at `q`; as `runIn`; src/main.rs:764-800. -/
def runInLinked (X : Ctx) (R : Repo) (q : List Bytes) (cmd : Command) (w : LinkWorld) : Exit × List Out × LinkWorld :=
  let conn := (Conn.mk (w.dbs q) none).begin.2
  let s := cmd.linked X R ({ db := conn.view, cache := w.cache }, w.disk)
  let conn := (conn.exec fun _ => (s.1, s.2.1.db)).2
  let ca := Cache.finish s.1 w.cache s.2.1.cache
  (exitOf s.1 ca.1, s.2.1.out, { w with disk := s.2.2, cache := ca.2 }.setDb q (conn.finish s.1).durable)

/-- A command without a repository; as `runOut`; src/main.rs:721-801. -/
def runOutLinked (X : Ctx) (cmd : Command) (w : LinkWorld) : Exit × List Out × LinkWorld :=
  let s := cmd.linkedOut X ({ db := {}, cache := w.cache }, w.disk)
  let ca := Cache.finish s.1 w.cache s.2.1.cache
  (exitOf s.1 ca.1, s.2.1.out, { w with disk := s.2.2, cache := ca.2 })

/-- `main`; as `mainRun`; src/main.rs:712-801. -/
def mainLinked (X : Ctx) (cmd : Command) (w : LinkWorld) : Exit × List Out × LinkWorld :=
  match findLinked w.disk.toLinkFs X.dbPath with
  | .err e => (.failure e, [], w)
  | .panic => (.panicked, [], w)
  | .fuel => (.fuel, [], w)
  | .ok found =>
    let repo : Res (Option (Repo × List Bytes)) := (match found with
      | none => .ok none
      | some x =>
        match Path.parent x with
        | none => .panic
        | some root => do
          let q ← openLinked w.disk.toLinkFs x
          pure (some (⟨x, root⟩, q)))
    match repo with
    | .err e => (.failure e, [], w)
    | .panic => (.panicked, [], w)
    | .fuel => (.fuel, [], w)
    | .ok repo =>
      match cmd with
      | .init =>
        let r := runInitLinked X w
        let ca := Cache.finish r.1 w.cache w.cache
        (exitOf r.1 ca.1, [], { r.2 with cache := ca.2 })
      | _ =>
        match repo with
        | some (R, q) => runInLinked X R q cmd w
        | none => runOutLinked X cmd w

/-- A world of Model/Cli.lean as one with links; src/main.rs:721-762. -/
def World.asLinked (w : World) (limit : Nat) : LinkWorld := ⟨w.fs.asDisk limit, w.dbs, w.cache⟩

end Snap
