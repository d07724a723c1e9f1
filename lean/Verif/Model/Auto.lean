import Verif.Model.Cli
/-!
SQLite rolling back by itself. After some errors (full disk, I/O error, out of memory, sometimes a busy database) SQLite does not only fail the statement but rolls back the
whole transaction; the connection is then outside of a transaction, where every further statement commits by itself, and `COMMIT` and `ROLLBACK` are errors, which
src/main.rs:793,796 ignore. Model/Conn.lean has statements that fail and leave the transaction open; here a failing one may end it.
-/
namespace Snap

/-- A call on a connection; if it fails inside a transaction and `auto` is true, SQLite rolls the transaction back; src/ds/sqlite.rs:109-183. -/
def Conn.callAuto (H : Bytes → Key) (c : Conn) (k : Call) (auto : Bool) : Conn :=
  if c.work.isSome && !(c.exec (k.run H)).1.isOk && auto then (c.exec (k.run H)).2.crash else (c.exec (k.run H)).2

/-- Calls one after the other, whatever their results; src/ds/sqlite.rs:109-183. -/
def Conn.callsAuto (H : Bytes → Key) : Conn → List (Call × Bool) → Conn
  | c, [] => c
  | c, k :: ks => Conn.callsAuto H (c.callAuto H k.1 k.2) ks

/-- A `COMMIT` that fails may end the transaction, too; src/main.rs:788-798 otherwise as `Conn.finish`. -/
def Conn.finishAuto (r : Res Unit) (auto : Bool) (c : Conn) : Conn :=
  match r with
  | .ok _ => if !c.commit.1.isOk && auto then c.commit.2.crash.crash else c.commit.2.crash
  | .err _ => c.rollback.2.crash
  | _ => c.crash

end Snap
