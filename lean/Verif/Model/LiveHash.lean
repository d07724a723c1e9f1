import Verif.Model.Live
/-!
Comparing the working directory while other processes change it: as Model/Live.lean for `walk_real_fs_items`, `hash_fs_item` and `compare`, and so for `compare`, `status` and
`checkout-head`.
-/
namespace Snap
variable [Serde]

/-- The answers to what these functions ask. `opened` is `File::open` together with `f.metadata()` of the opened file, reduced to the cache key, and what reading it returns, if it is read;
src/dir.rs:173-192. The type and length that src/dir.rs:168 and 413 look at are `stat`'s, asked before. -/
structure Sights extends Answers where
  opened : Nat → Path → Res (CacheKey × List ReadEv)

/-- Asking the next question; src/dir.rs:168,173,413,416,425. -/
def inquire {σ α} (f : Nat → Res α) : SM (σ × Nat) α := fun s => (f s.2, (s.1, s.2 + 1))

/-- `hash_fs_item` while the file changes; src/dir.rs:163-215. As in `hashFsItem`, a failing cache write is only logged. -/
def hashLive (E : Env) (A : Sights) (path : Path) : SM ((Db × Cache) × Nat) Key := do
  match ← inquire (A.stat · path) with
  | .file len => do
    let f ← inquire (A.opened · path)
    match ← SM.read (fun s => s.1.2.get f.1) with
    | some h => pure h
    | none => do
      let k ← SM.fst (SM.fst (putRead E f.2 len))
      SM.fst (SM.snd (fun cache => (.ok (), (Cache.put f.1 k cache).2)))
      pure k
  | _ => SM.throw .nonFile

/-- The loop over directory entries; src/dir.rs:422-433. -/
def walkLiveEntries {σ} (A : Sights) (rec : Path → SM (σ × Nat) (PMap Bool)) (curr path : Path) : PMap Bool → List (Option Bytes) → SM (σ × Nat) (PMap Bool)
  | m, [] => pure m
  | _, none :: _ => SM.throw .io
  | m, some n :: ns => do
    if ← inquire (A.take · (Path.join curr n)) then do
      let r ← rec (Path.join path n)
      walkLiveEntries A rec curr path (PMap.extend m r) ns
    else walkLiveEntries A rec curr path m ns

/-- `internal_walk_real_fs_items` while the tree changes; src/dir.rs:403-444. -/
def walkLive {σ} (A : Sights) (base : Path) : Nat → Path → SM (σ × Nat) (PMap Bool)
  | 0, _ => SM.lift .fuel
  | n + 1, path => do
    match ← inquire (A.stat · (Path.join base path)) with
    | .dir => do
      let names ← inquire (A.list · (Path.join base path))
      walkLiveEntries A (walkLive A base n) (Path.join base path) path (if path = [] then [] else PMap.insert [] path true) names
    | .file _ => pure (PMap.insert [] path false)
    | .other => SM.throw .unimplementedFileType

/-- One path only in the directory; src/diff.rs:93-115; as `addedOf`. -/
def addedLive (E : Env) (A : Sights) (m : PMap Bool) (x : Path) : SM ((Db × Cache) × Nat) Added := do
  if ← SM.lift ((FromMap.left m).isDir x) then pure ⟨x, true, none⟩
  else do
    let h ← SM.unwrap (hashLive E A x)
    pure ⟨x, false, some h⟩

/-- One path in both; src/diff.rs:131-163; as `modifiedOf`. -/
def modifiedLive (E : Env) (A : Sights) (m : PMap Bool) (base : Path) (to : PMap (Key × Bool)) (x : Path) : SM ((Db × Cache) × Nat) (Option Modified) := do
  if ← SM.lift ((FromMap.left m).isDir x) then pure none
  else do
    let f ← hashLive E A (Path.join base x)
    match to.get x with
    | some t => pure (if f = t.1 then none else some ⟨x, t.1, f⟩)
    | none => SM.panic

/-- `compare` of a directory that changes; src/diff.rs:55-174. -/
def compareLive (E : Env) (A : Sights) (iter : Nat → List Path → List Path) (n : Nat) (base : Path) (to : Option Key) : SM ((Db × Cache) × Nat) DiffResult := do
  let m ← walkLive A base n []
  let toMap ← (match to with
    | some t => SM.read (fun s => walkItems s.1.1 n t)
    | none => pure [])
  let fromKeys := m.map (·.1)
  let toKeys := toMap.map (·.1)
  let added ← mapSM (addedLive E A m) (iter 0 (fromKeys.filter fun x => !toKeys.contains x))
  let deleted ← mapSM (fun x => SM.lift (deletedOf (.left m) toMap x)) (iter 1 (toKeys.filter fun x => !fromKeys.contains x))
  let modified ← mapSM (modifiedLive E A m base toMap) (iter 2 (fromKeys.filter fun x => toKeys.contains x))
  pure ⟨sortBy Deleted.le deleted, sortBy Added.le added, sortBy Modified.le (modified.filterMap id)⟩

/-- The comparison of the working tree, from the first question on; src/main.rs:573-582,614-623,659-668. -/
def compareWorkLive (X : Ctx) (A : Sights) (path : Path) (to : Option Key) : C DiffResult :=
  onDbCache fun s => ((compareLive X.E A X.iter X.depth path to (s, 0)).1, (compareLive X.E A X.iter X.depth path to (s, 0)).2.1)

/-- `compare` while the tree changes; src/main.rs:555-591. -/
def cmpLive (X : Ctx) (A : Sights) (R : Repo) (path : Option Path) (key : Option Keyish) (stat : Bool) : C Unit := do
  let k ← readDb (fun db => match key with
    | some k => canonicalize db k
    | none => do
      let c ← getHeadKey db
      let c ← Commit.fromKey db c
      pure c.tree)
  let r ← compareWorkLive X A (path.getD R.root) (some k)
  if stat then do
    let l ← readDb (fun db => printedStat X.lib db X.depth r)
    emit (.stats l)
  else emit (.result (simplify r))

/-- `status` while the tree changes; src/main.rs:593-633. -/
def statusLive (X : Ctx) (A : Sights) (R : Repo) : C Unit := do
  let h ← readDb headName
  match ← (SM.read (fun s => .ok (reflogGet s.db h none).toOption) : C (Option Key)) with
  | some k => do
    emit (.headAt h (some (k.asUserKey.take 8)))
    let c ← readDb (fun db => Commit.fromKey db k)
    let r ← compareWorkLive X A R.root (some c.tree)
    emit (.result (simplify r))
  | none => emit (.headAt h none)

/-- `checkout_head` while the tree changes; src/main.rs:648-682. -/
def checkoutHeadLive (X : Ctx) (A : Sights) (R : Repo) (refname : Bytes) : C Unit := do
  let h ← readDb headName
  let k ← (SM.read (fun s => .ok (reflogGet s.db h none).toOption) : C (Option Key))
  let t ← readDb (fun db => match k with
    | some k => do
      let c ← Commit.fromKey db k
      pure (some c.tree)
    | none => pure none)
  let r ← compareWorkLive X A R.root t
  if r.isEmpty then do
    onDb (putHead refname)
    emit (.text sNewHead)
  else do
    emit (.text sNotClean)
    emit (.result (simplify r))

/-- The commands that compare the working directory, while it changes; the others as in Model/Cli.lean; src/main.rs:770-786. -/
def Command.racing (X : Ctx) (A : Sights) (R : Repo) : Command → C Unit
  | .compare path key stat => cmpLive X A R path key stat
  | .status => statusLive X A R
  | .checkoutHead refname => checkoutHeadLive X A R refname
  | cmd => cmd.inRepo X R

/-- A command in a repository while the tree changes; `after` is what becomes of the files; src/main.rs:764-801, otherwise as `runIn`. -/
def runRacing (X : Ctx) (A : Sights) (R : Repo) (q : List Bytes) (cmd : Command) (after : Fs) (w : World) : Exit × List Out × World :=
  let conn := (Conn.mk (w.dbs q) none).begin.2
  let s := cmd.racing X A R { db := conn.view, cache := w.cache, fs := w.fs }
  let conn := (conn.exec fun _ => (s.1, s.2.db)).2
  let ca := Cache.finish s.1 w.cache s.2.cache
  (exitOf s.1 ca.1, s.2.out, { w with fs := after, cache := ca.2 }.setDb q (conn.finish s.1).durable)

end Snap
