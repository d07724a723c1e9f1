import Verif.Model.Cache
/-!
Several processes on the cache at the same time. The cache belongs to the user, so all repositories share it (src/main.rs:750-762).

Every command runs in one transaction on it (src/main.rs:771,794,797), opened with `BEGIN TRANSACTION` (src/cache.rs:112), which takes no lock. The file is in write-ahead-log mode
(src/cache.rs:91), where SQLite's protocol is:

* from its first statement on a transaction sees the file as it was then, plus its own writes, however long it lasts; nobody waits for it;
* the first successful write takes the write lock, which only one transaction can hold, and only if nobody has committed since the transaction first looked (else `SQLITE_BUSY_SNAPSHOT`);
* `COMMIT` of a transaction with writes needs nothing more.

This protocol is SQLite's and is assumed. Which statements fail is arbitrary here (`faults`); the protocol only says that two conflicting ones cannot both succeed. Left out: statements that fail
before a process has seen anything, and the statements of `SqliteCache::new` (no effect on the table).
-/
namespace Snap

/-- A process, as far as the cache is concerned: what it puts and whether it ends with COMMIT depend on the state it saw when it first looked; src/main.rs:771-798. `faults`: which of its statements
fail. -/
structure CProc where
  faults : List Bool := []
  puts : Cache → List (CacheKey × Key)
  ok : Cache → Bool

/-- What a process sees first: the file, with its own luck; src/cache.rs:110-115. -/
def CProc.sees (p : CProc) (c : Cache) : Cache := { c with faults := p.faults }

/-- Where a process is; src/main.rs:771-798. `done` and `todo`: its puts; `writer`: it holds the write lock. -/
inductive CState where
  | idle
  | active (snap view : Cache) (done todo : List (CacheKey × Key)) (writer : Bool)
  | ended (snap : Cache) (wrote : Bool)

/-- Holding the write lock; src/cache.rs:91. -/
def CState.writer : CState → Bool
  | .active _ _ _ _ w => w
  | _ => false

/-- The file, and the processes; src/cache.rs:77-79, one per process. -/
structure CSched where
  durable : Cache
  procs : Nat → CState := fun _ => .idle

/-- A process moves on; src/cache.rs:109-126. -/
def CSched.set (s : CSched) (p : Nat) (x : CState) : CSched := { s with procs := fun i => if i = p then x else s.procs i }

/-- One step of one process, under SQLite's locks; src/cache.rs:109-150, src/main.rs:771-798. -/
inductive CSched.Step (P : Nat → CProc) : CSched → CSched → Prop where
  /-- the first statement -/
  | start (s : CSched) (p : Nat) (h : s.procs p = .idle) :
      Step P s (s.set p (.active ((P p).sees s.durable) ((P p).sees s.durable) [] ((P p).puts ((P p).sees s.durable)) false))
  /-- a write; the first one can only succeed if no other process is writing, and the file is still as this process has seen it -/
  | put (s : CSched) (p : Nat) {snap view : Cache} {done todo : List (CacheKey × Key)} {e : CacheKey × Key} {w : Bool} (h : s.procs p = .active snap view done (e :: todo) w)
      (hl : (Cache.put e.1 e.2 view).1.isOk = true → w = true ∨ (∀ p', (s.procs p').writer = false) ∧ snap = (P p).sees s.durable) :
      Step P s (s.set p (.active snap (Cache.put e.1 e.2 view).2 (done ++ [e]) todo (w || (Cache.put e.1 e.2 view).1.isOk)))
  /-- COMMIT after writes -/
  | commit (s : CSched) (p : Nat) {snap view : Cache} {done : List (CacheKey × Key)} (h : s.procs p = .active snap view done [] true) (ho : (P p).ok snap = true)
      (hf : view.faults.head? ≠ some true) : Step P s { s.set p (.ended snap true) with durable := { view with faults := view.faults.tail } }
  /-- COMMIT without writes, ROLLBACK, a failing COMMIT, the end of the process at any point -/
  | stop (s : CSched) (p : Nat) {snap view : Cache} {done todo : List (CacheKey × Key)} {w : Bool} (h : s.procs p = .active snap view done todo w) :
      Step P s (s.set p (.ended snap false))

/-- Any interleaving; src/cache.rs:109-150. -/
inductive CSched.Run (P : Nat → CProc) (a : CSched) : CSched → Prop where
  | refl : Run P a a
  | tail {b c : CSched} (h : Run P a b) (s : CSched.Step P b c) : Run P a c

end Snap
