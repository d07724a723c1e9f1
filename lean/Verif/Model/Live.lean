import Verif.Model.Cli
/-!
Storing a directory while other processes change it. In Model/Dir.lean the tree stands still during a command; here every system call is a question to the operating
system whose answer depends on when it is asked, in any way. src/dir.rs:81-140 is otherwise as in Model/Dir.lean, and so are `insert` and `commit`.
-/
namespace Snap
variable [Serde]

/-- What `std::fs::metadata` tells about a path; src/dir.rs:86,88,119,133. -/
inductive What where
  | dir
  | file (len : Nat)
  | other
  deriving DecidableEq, Repr

/-- The operating system's answers, by the number of the question and the path asked about; src/dir.rs:81-140.

* `stat`: `std::fs::metadata` (line 86).
* `list`: `std::fs::read_dir` (line 92) and all that its iterator yields; `none` is an entry that cannot be read (line 102). The real iterator yields the entries one at a
  time, between other calls; as answers are arbitrary, the list may as well contain what comes later.
* `take`: the filter (line 97), which itself asks for canonical paths (src/filter.rs:19-20).
* `read`: `File::open` (line 121) and what the reads of the opened file return. -/
structure Answers where
  stat : Nat → Path → Res What
  list : Nat → Path → Res (List (Option Bytes))
  take : Nat → Path → Res Bool
  read : Nat → Path → Res (List ReadEv)

/-- Asking the next question; src/dir.rs:86,92,97,121. -/
def ask {α} (f : Nat → Res α) : SM (Db × Nat) α := fun s => (f s.2, (s.1, s.2 + 1))

/-- Storing what was read, with the length found before; src/dir.rs:125-137. -/
def putRead (E : Env) (evs : List ReadEv) (len : Nat) : M Key := do
  let k ← putData E.table E.H evs
  let obj ← SM.lift (FsItem.toObject ⟨len, .file, [], [k]⟩)
  putObj E.H obj

/-- The loop over directory entries; src/dir.rs:94-104. -/
def putEntriesLive (A : Answers) (rec : Path → SM (Db × Nat) Key) (path : Path) : List (Option Bytes) → SM (Db × Nat) (List (Bytes × Key))
  | [] => pure []
  | none :: _ => SM.throw .io
  | some n :: ns => do
    if ← ask (A.take · (Path.join path n)) then do
      let k ← rec (Path.join path n)
      let r ← putEntriesLive A rec path ns
      pure ((n, k) :: r)
    else putEntriesLive A rec path ns

/-- `put_fs_item` while the tree changes; src/dir.rs:81-140. -/
def putLive (E : Env) (A : Answers) : Nat → Path → SM (Db × Nat) Key
  | 0, _ => SM.lift .fuel
  | n + 1, path => do
    match ← ask (A.stat · path) with
    | .dir => do
      let names ← ask (A.list · path)
      let r ← putEntriesLive A (putLive E A n) path names
      SM.fst (do
        let obj ← SM.lift (FsItem.toObject ⟨r.length, .dir, r.map (·.1), r.map (·.2)⟩)
        putObj E.H obj)
    | .file len => do
      let evs ← ask (A.read · path)
      SM.fst (putRead E evs len)
    | .other => SM.panic

/-- As a computation on the database, from the first question on; src/dir.rs:81-140. -/
def storeLive (X : Ctx) (A : Answers) (path : Path) : M Key := fun db => ((putLive X.E A X.depth path (db, 0)).1, (putLive X.E A X.depth path (db, 0)).2.1)

/-- `insert` while the tree changes; src/main.rs:243-253. -/
def insertLive (X : Ctx) (A : Answers) (path : Path) : C Unit := do
  let h ← onDb (storeLive X A path)
  emit (.key h)

/-- `commit` while the tree changes; src/main.rs:472-512. -/
def commitLive (X : Ctx) (A : Answers) (R : Repo) (path : Option Path) (message : Bytes) (refname : Option Bytes) : C Unit := do
  let r ← readDb (fun db => refOrHead db refname)
  let ps ← readDb (fun db => parentsOf db r)
  let key ← onDb (storeLive X A (path.getD R.root))
  let ck ← onDb (Snap.commitTree X.E.H key ps { message := message })
  onDb (reflogPush r none ck)

/-- The two commands that store directories, while the tree changes; the others as in Model/Cli.lean; src/main.rs:770-786. -/
def Command.live (X : Ctx) (A : Answers) (R : Repo) : Command → C Unit
  | .insert path => insertLive X A path
  | .commit path message refname => commitLive X A R path message refname
  | cmd => cmd.inRepo X R

/-- A command in a repository while the tree changes; `after` is what becomes of the files; src/main.rs:764-801, otherwise as `runIn`. -/
def runLive (X : Ctx) (A : Answers) (R : Repo) (q : List Bytes) (cmd : Command) (after : Fs) (w : World) : Exit × List Out × World :=
  let conn := (Conn.mk (w.dbs q) none).begin.2
  let s := cmd.live X A R { db := conn.view, cache := w.cache, fs := w.fs }
  let conn := (conn.exec fun _ => (s.1, s.2.db)).2
  let ca := Cache.finish s.1 w.cache s.2.cache
  (exitOf s.1 ca.1, s.2.out, { w with fs := after, cache := ca.2 }.setDb q (conn.finish s.1).durable)

end Snap
