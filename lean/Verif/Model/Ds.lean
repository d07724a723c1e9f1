import Verif.Model.Serde
import Verif.Model.Keyish
/-!
Model of src/ds/mod.rs and src/ds/sqlite.rs: the three tables as lists, the trait's methods as functions on them.

* `data` rows are in insertion order (SQLite returns range scans of a `WITHOUT ROWID` table in key order; every use in the crate is order
  independent except the listing inside the `Ambigious` error, whose order is not claimed).
* Writes can fail (disk full, locked database, …): a ghost oracle `faults` says for each successive write whether it fails; a failed write changes nothing.
  Reads fail only for a missing row.
* `hashed` is a ghost field, the list of all byte strings ever passed to `put`; it is used to state "absent hash collisions".
* The hash function is a parameter `H`.
-/
namespace Snap

/-- A row of table `reflog`; src/ds/sqlite.rs:50-55. -/
structure RefRow where
  refname : Bytes
  remote : Option Bytes
  key : Bytes
  deriving DecidableEq, Repr

/-- The database of src/ds/sqlite.rs:38-57 plus ghost fields. -/
structure Db where
  data : List (Bytes × Bytes) := []
  state : List (Bytes × Bytes) := []
  reflog : List RefRow := []
  hashed : List Bytes := []
  faults : List Bool := []
  deriving Repr

/-- A computation on a state that may err or panic; the state reached so far is kept in every case; methods taking `&mut self` or a store; src/ds/mod.rs:190-304. -/
def SM (σ α : Type) := σ → Res α × σ

namespace SM
variable {σ α β : Type}
/-- `Ok(a)`; src/ds/mod.rs:215. -/
def pure (a : α) : SM σ α := fun s => (.ok a, s)
/-- The `?` operator; src/ds/mod.rs:213. -/
def bind (x : SM σ α) (f : α → SM σ β) : SM σ β := fun s =>
  match x s with
  | (.ok a, s) => f a s
  | (.err e, s) => (.err e, s)
  | (.panic, s) => (.panic, s)
  | (.fuel, s) => (.fuel, s)
/-- `Ok` and `?`; src/ds/mod.rs:210-216. -/
instance : Monad (SM σ) where
  pure := SM.pure
  bind := SM.bind
/-- A computation that only reads the state; src/ds/mod.rs:199-203. -/
def read (f : σ → Res α) : SM σ α := fun s => (f s, s)
/-- A result that does not depend on the state; src/ds/mod.rs:300. -/
def lift (r : Res α) : SM σ α := fun s => (r, s)
/-- `Err(e)`; src/ds/mod.rs:279. -/
def throw (e : Err) : SM σ α := fun s => (.err e, s)
/-- `panic!`; src/display.rs:53. -/
def panic : SM σ α := fun s => (.panic, s)
/-- A state change that cannot fail (used for ghost fields); src/ds/mod.rs:205-216. -/
def modify (f : σ → σ) : SM σ Unit := fun s => (.ok (), f s)
/-- `unwrap()` of a computation's result; src/ds/mod.rs:259. -/
def unwrap (x : SM σ α) : SM σ α := fun s => ((x s).1.unwrap, (x s).2)
/-- A `for` loop stopping at the first error or panic; src/dir.rs:94-104. -/
def each (f : α → SM σ Unit) : List α → SM σ Unit
  | [] => SM.pure ()
  | a :: l => SM.bind (f a) fun _ => SM.each f l

theorem bind_apply (x : SM σ α) (f : α → SM σ β) (s : σ) :
    (x >>= f) s = match x s with
      | (.ok a, s) => f a s
      | (.err e, s) => (.err e, s)
      | (.panic, s) => (.panic, s)
      | (.fuel, s) => (.fuel, s) := rfl
@[simp] theorem pure_apply (a : α) (s : σ) : (Pure.pure a : SM σ α) s = (.ok a, s) := rfl
@[simp] theorem read_apply (f : σ → Res α) (s : σ) : SM.read f s = (f s, s) := rfl
@[simp] theorem modify_apply (f : σ → σ) (s : σ) : SM.modify f s = (.ok (), f s) := rfl
@[simp] theorem lift_apply (r : Res α) (s : σ) : SM.lift r s = (r, s) := rfl
@[simp] theorem throw_apply (e : Err) (s : σ) : (SM.throw e : SM σ α) s = (.err e, s) := rfl
@[simp] theorem panic_apply (s : σ) : (SM.panic : SM σ α) s = (.panic, s) := rfl
end SM

/-- Database computations; src/ds/mod.rs:190-304. -/
abbrev M := SM Db

/-- Value of a key in an association list: the first match; `SELECT value … WHERE key=?`; src/ds/sqlite.rs:145,166. -/
def assoc (l : List (Bytes × Bytes)) (k : Bytes) : Option Bytes := (l.find? (·.1 == k)).map (·.2)

/-- `raw_get`; src/ds/sqlite.rs:142-151 (no row: `QueryReturnedNoRows`, an sqlite error). -/
def rawGet (db : Db) (key : Bytes) : Res Bytes :=
  match assoc db.data key with
  | some v => .ok v
  | none => .err .sqlite

/-- `INSERT OR IGNORE`: a row is added unless the primary key exists; src/ds/sqlite.rs:155. -/
def insertIgnore (l : List (Bytes × Bytes)) (k v : Bytes) : List (Bytes × Bytes) :=
  if l.any (·.1 == k) then l else l ++ [(k, v)]

/-- `INSERT OR REPLACE`: the old row, if any, is deleted; src/ds/sqlite.rs:177. -/
def insertReplace (l : List (Bytes × Bytes)) (k v : Bytes) : List (Bytes × Bytes) :=
  l.filter (·.1 != k) ++ [(k, v)]

/-- A write statement: fails if the oracle says so, else changes the tables; src/ds/sqlite.rs:109-118,153-161,174-183. -/
def write (f : Db → Db) : M Unit := fun db =>
  match db.faults with
  | true :: fs => (.err .sqlite, { db with faults := fs })
  | _ => (.ok (), f { db with faults := db.faults.tail })

/-- `raw_put`; src/ds/sqlite.rs:153-161. -/
def rawPut (key data : Bytes) : M Unit :=
  write fun db => { db with data := insertIgnore db.data key data }

/-- `raw_get_state`; src/ds/sqlite.rs:163-172. -/
def rawGetState (db : Db) (key : Bytes) : Res (Option Bytes) := .ok (assoc db.state key)

/-- `raw_put_state`; src/ds/sqlite.rs:174-183. -/
def rawPutState (key data : Bytes) : M Unit :=
  write fun db => { db with state := insertReplace db.state key data }

/-- `raw_exists`; src/ds/sqlite.rs:185-198: `COUNT(*)`, then `assert!(count == 0 || count == 1)`. -/
def rawExists (db : Db) (key : Bytes) : Res Bool :=
  let count := (db.data.filter (·.1 == key)).length
  if count = 0 ∨ count = 1 then .ok (decide (count = 1)) else .panic

/-- `raw_between`; src/ds/sqlite.rs:200-237. SQLite compares blobs bytewise, like `List UInt8`'s lexicographic order. -/
def rawBetween (db : Db) (start : Bytes) (stop : Option Bytes) : Res (List Bytes) :=
  match stop with
  | some e => .ok ((db.data.filter fun r => decide (start ≤ r.1) && decide (r.1 < e)).map (·.1))
  | none => .ok ((db.data.filter fun r => decide (start ≤ r.1)).map (·.1))

/-- `get`; src/ds/mod.rs:199-203. -/
def get (db : Db) (k : Key) : Res Bytes := rawGet db k.asDbKey

/-- `put`; src/ds/mod.rs:205-216 (`hash` is BLAKE3, here `H`). Records the bytes in the ghost field. -/
def put (H : Bytes → Key) (data : Bytes) : M Key := do
  SM.modify fun db : Db => { db with hashed := data :: db.hashed }
  rawPut (H data).asDbKey data
  pure (H data)

/-- The state key `b"HEAD"`; src/ds/mod.rs:219,228. -/
def sHEAD : Bytes := [72, 69, 65, 68]

/-- `get_head`; src/ds/mod.rs:218-225. -/
def getHead (db : Db) : Res (Option Bytes) := do
  match ← rawGetState db sHEAD with
  | some b => if utf8 b then .ok (some b) else .err .utf8
  | none => .ok none

/-- `put_head`; src/ds/mod.rs:227-230. -/
def putHead (head : Bytes) : M Unit := rawPutState sHEAD head

/-- `reflog_push`; src/ds/sqlite.rs:109-118. Rows are kept in the order of their `id` (an `INTEGER PRIMARY KEY` grows with each insertion). -/
def reflogPush (refname : Bytes) (remote : Option Bytes) (key : Key) : M Unit :=
  write fun db => { db with reflog := db.reflog ++ [⟨refname, remote, key.asDbKey⟩] }

/-- `WHERE refname=? AND remote IS ?`; src/ds/sqlite.rs:96,127. -/
def refRows (db : Db) (refname : Bytes) (remote : Option Bytes) : List RefRow :=
  db.reflog.filter fun r => r.refname == refname && r.remote == remote

/-- `reflog_get`; src/ds/sqlite.rs:85-107 (`ORDER BY id DESC LIMIT 1`). -/
def reflogGet (db : Db) (refname : Bytes) (remote : Option Bytes) : Res Key :=
  match (refRows db refname remote).getLast? with
  | some r => fromDbKey r.key
  | none => .err .notFound

/-- `reflog_walk`; src/ds/sqlite.rs:120-140. -/
def reflogWalk (db : Db) (refname : Bytes) (remote : Option Bytes) : Res (List Key) :=
  mapRes (fun r => fromDbKey r.key) (refRows db refname remote).reverse

/-- `canonicalize`; src/ds/mod.rs:250-291. -/
def canonicalize (db : Db) (search : Keyish) : Res Key :=
  let finish (errStr : Bytes) (results : List Bytes) : Res Key :=
    match results with
    | [] => .err (.canonNotFound errStr)
    | [k] => fromDbKey k
    | _ => do
      let strs ← mapRes fromDbKey results
      .err (.ambiguous errStr (strs.map (·.hash)))
  match search with
  | .key s key => do
    let k ← (rawGet db key).unwrap
    finish s [k]
  | .range s start stop => do
    let results ← (rawBetween db start stop).unwrap
    finish s results
  | .reflog orig remote keyname =>
    match reflogGet db keyname remote with
    | .err .notFound => .err (.canonNotFound orig)
    | r => r

variable [Serde]

/-- `get_obj`; src/ds/mod.rs:293-297. -/
def getObj (db : Db) (k : Key) : Res Object := do
  let data ← get db k
  Object.decode data

/-- `put_obj`; src/ds/mod.rs:299-303. -/
def putObj (H : Bytes → Key) (o : Object) : M Key := do
  let data ← SM.lift o.encode
  put H data

end Snap
