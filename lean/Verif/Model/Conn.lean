import Verif.Model.Ds
/-!
Client histories of the data store, and SQLite transactions (src/ds/sqlite.rs:63-82).

A connection sees `work` while a transaction is open, else `durable`. Outside a transaction every statement commits by itself (SQLite autocommit).
`crash` is the loss of the connection (process killed, or exit without `COMMIT`); it is also what dropping the connection does. SQLite's
atomic commit and durability (`synchronous=2`) are assumed. The ghost fields `hashed` and `faults` are not rolled back.
-/
namespace Snap

/-- One mutating call of the `DataStore` trait (src/ds/mod.rs:190-248); reading calls do not change the state by their types. -/
inductive Call where
  | put (d : Bytes)
  | rawPut (k v : Bytes)
  | putState (k v : Bytes)
  | putHead (h : Bytes)
  | reflogPush (refname : Bytes) (remote : Option Bytes) (key : Key)

/-- Performing a call; src/ds/mod.rs:190-248. -/
def Call.run (H : Bytes → Key) : Call → M Unit
  | .put d => do let _ ← Snap.put H d; pure ()
  | .rawPut k v => Snap.rawPut k v
  | .putState k v => rawPutState k v
  | .putHead h => Snap.putHead h
  | .reflogPush n r k => Snap.reflogPush n r k

/-- Performing calls one after the other, whatever their results; src/ds/mod.rs:190-248. -/
def runCalls (H : Bytes → Key) : List Call → Db → Db
  | [], db => db
  | c :: cs, db => runCalls H cs (c.run H db).2

/-- The calls that succeeded, in order; src/ds/mod.rs:190-248. -/
def succeeded (H : Bytes → Key) : List Call → Db → List Call
  | [], _ => []
  | c :: cs, db => (if (c.run H db).1.isOk then [c] else []) ++ succeeded H cs (c.run H db).2

/-- The tables of `a` with the ghost fields of `b`; what ROLLBACK does; src/ds/sqlite.rs:77-81. -/
def Db.restore (a b : Db) : Db := { b with data := a.data, state := a.state, reflog := a.reflog }

/-- A connection: what is on disk, and the uncommitted view if a transaction is open; `SqliteDS`, src/ds/sqlite.rs:19-22. -/
structure Conn where
  durable : Db
  work : Option Db := none

/-- What queries on this connection see; src/ds/sqlite.rs:84-238. -/
def Conn.view (c : Conn) : Db := c.work.getD c.durable

/-- Calls on a connection; src/ds/sqlite.rs:63-238. -/
inductive ConnOp where
  | begin | commit | rollback | crash
  | call (c : Call)

/-- `begin_trans`: an error inside a transaction; src/ds/sqlite.rs:64-69. -/
def Conn.begin (c : Conn) : Res Unit × Conn :=
  match c.work with
  | some _ => (.err .sqlite, c)
  | none => (.ok (), { c with work := some c.durable })

/-- `commit`: an error outside a transaction; it can also fail (full disk, busy), leaving the transaction open; src/ds/sqlite.rs:71-75. -/
def Conn.commit (c : Conn) : Res Unit × Conn :=
  match c.work with
  | none => (.err .sqlite, c)
  | some w =>
    match w.faults with
    | true :: fs => (.err .sqlite, { c with work := some { w with faults := fs } })
    | _ => (.ok (), { durable := { w with faults := w.faults.tail }, work := none })

/-- `rollback`: an error outside a transaction; src/ds/sqlite.rs:77-81. -/
def Conn.rollback (c : Conn) : Res Unit × Conn :=
  match c.work with
  | none => (.err .sqlite, c)
  | some w => (.ok (), { durable := c.durable.restore w, work := none })

/-- Losing the connection; nothing in the code: the process dies between the statements of src/main.rs:770-798. -/
def Conn.crash (c : Conn) : Conn :=
  { durable := c.durable.restore c.view, work := none }

/-- Running a computation on the connection: on the transaction's view, or autocommitted; src/ds/sqlite.rs:63-238. -/
def Conn.exec {α} (c : Conn) (x : M α) : Res α × Conn :=
  match c.work with
  | some w => let (r, w') := x w; (r, { c with work := some w' })
  | none => let (r, d') := x c.durable; (r, { c with durable := d' })

/-- One step of a history; src/ds/sqlite.rs:63-238. -/
def Conn.step (H : Bytes → Key) (c : Conn) : ConnOp → Res Unit × Conn
  | .begin => c.begin
  | .commit => c.commit
  | .rollback => c.rollback
  | .crash => (.ok (), c.crash)
  | .call k => c.exec (k.run H)

/-- A history; src/ds/sqlite.rs:63-238. -/
def Conn.run (H : Bytes → Key) (c : Conn) : List ConnOp → Conn
  | [] => c
  | o :: os => Conn.run H (c.step H o).2 os

end Snap
