import Verif.Model.Conn
/-!
Several processes on one database file at the same time.

Every command runs in one transaction (src/main.rs:770-798), opened with `BEGIN TRANSACTION` (src/ds/sqlite.rs:66), which takes no lock. The database
file is in rollback-journal mode (src/ds/sqlite.rs:35, `journal_mode=truncate`), where SQLite's locking protocol is:

* the first statement takes a SHARED lock, which the transaction keeps to its end; from then on it sees the file as it was, plus its own writes;
* the first successful write takes the RESERVED lock, which only one transaction can hold; without it the statement fails with `SQLITE_BUSY`;
* `COMMIT` of a transaction with writes takes the EXCLUSIVE lock, which needs all other SHARED locks to be gone; else it fails with `SQLITE_BUSY`.

This protocol is SQLite's and is assumed. Which statements fail is arbitrary here (`faults`); the protocol only says that two conflicting ones cannot
both succeed. Left out: statements that fail before a process has seen anything, the schema statements of `SqliteDS::new` (no effect on the three
tables), and SQLite rolling a transaction back by itself.
-/
namespace Snap

/-- A process, as far as the database is concerned: the calls it makes and whether it ends with COMMIT depend on the state it saw
when it first looked; src/main.rs:770-798. `faults`: which of its statements fail. -/
structure Proc where
  faults : List Bool := []
  calls : Db → List Call
  ok : Db → Bool

/-- What a process sees first: the file, with its own luck; src/ds/sqlite.rs:66. -/
def Proc.sees (p : Proc) (d : Db) : Db := { d with faults := p.faults }

/-- Where a process is; src/main.rs:770-798. `done` and `todo`: its calls; `reserved`: it holds the RESERVED lock. -/
inductive PState where
  | idle
  | active (snap view : Db) (done todo : List Call) (reserved : Bool)
  | ended (snap : Db) (wrote : Bool)

/-- Holding SHARED (and perhaps RESERVED); src/ds/sqlite.rs:35. -/
def PState.locked : PState → Bool
  | .active .. => true
  | _ => false

/-- Holding RESERVED; src/ds/sqlite.rs:35. -/
def PState.reserved : PState → Bool
  | .active _ _ _ _ r => r
  | _ => false

/-- The database file, and the processes; src/ds/sqlite.rs:19-22, one per process. -/
structure Sched where
  durable : Db
  procs : Nat → PState := fun _ => .idle

/-- A process moves on; src/ds/sqlite.rs:63-82. -/
def Sched.set (s : Sched) (p : Nat) (x : PState) : Sched := { s with procs := fun i => if i = p then x else s.procs i }

/-- One step of one process, under SQLite's locks; src/ds/sqlite.rs:31-82, src/main.rs:770-798. -/
inductive Sched.Step (H : Bytes → Key) (P : Nat → Proc) : Sched → Sched → Prop where
  /-- the first statement -/
  | start (s : Sched) (p : Nat) (h : s.procs p = .idle) :
      Step H P s (s.set p (.active ((P p).sees s.durable) ((P p).sees s.durable) [] ((P p).calls ((P p).sees s.durable)) false))
  /-- a write; it can only succeed if no other process holds RESERVED -/
  | call (s : Sched) (p : Nat) {snap view : Db} {done todo : List Call} {c : Call} {r : Bool} (h : s.procs p = .active snap view done (c :: todo) r)
      (hl : (c.run H view).1.isOk = true → ∀ p', p' ≠ p → (s.procs p').reserved = false) :
      Step H P s (s.set p (.active snap (c.run H view).2 (done ++ [c]) todo (r || (c.run H view).1.isOk)))
  /-- COMMIT after writes; it needs everybody else to be gone -/
  | commit (s : Sched) (p : Nat) {snap view : Db} {done : List Call} (h : s.procs p = .active snap view done [] true) (ho : (P p).ok snap = true)
      (hf : view.faults.head? ≠ some true) (hl : ∀ p', p' ≠ p → (s.procs p').locked = false) :
      Step H P s { s.set p (.ended snap true) with durable := { view with faults := view.faults.tail } }
  /-- COMMIT without writes, ROLLBACK, a failing COMMIT, the end of the process at any point -/
  | stop (s : Sched) (p : Nat) {snap view : Db} {done todo : List Call} {r : Bool} (h : s.procs p = .active snap view done todo r) :
      Step H P s (s.set p (.ended snap false))

/-- Any interleaving; src/ds/sqlite.rs:31-82. -/
inductive Sched.Run (H : Bytes → Key) (P : Nat → Proc) (a : Sched) : Sched → Prop where
  | refl : Run H P a a
  | tail {b c : Sched} (h : Run H P a b) (s : Sched.Step H P b c) : Run H P a c

end Snap
