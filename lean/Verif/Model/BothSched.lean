import Verif.Model.Sched
import Verif.Model.CacheSched
/-!
Several processes on one database and on the cache at the same time; src/main.rs:729,750-801.

A process uses two files with two transactions. What it writes to either depends on what it has seen of both, each at its own moment. Simplified: nothing is said about the order in which a process takes
its steps on the two files, so that more interleavings are allowed than the program has.
-/
namespace Snap

/-- The two files, and where the processes are with each; src/main.rs:764-768. -/
structure Both where
  db : Sched
  cache : CSched

/-- Any interleaving; src/main.rs:770-798. `κ p` is the cache that `p` sees, `δ p` the database; `P p (κ p)` and `Q p (δ p)` are what it does to the database and to the cache. That `κ` and `δ` are what was
seen is `Both.Agree`. -/
inductive Both.Run (H : Bytes → Key) (P : Nat → Cache → Proc) (Q : Nat → Db → CProc) (κ : Nat → Cache) (δ : Nat → Db) (a : Both) : Both → Prop where
  | refl : Run H P Q κ δ a a
  | db {b : Both} {s : Sched} (h : Run H P Q κ δ a b) (st : Sched.Step H (fun p => P p (κ p)) b.db s) : Run H P Q κ δ a { b with db := s }
  | cache {b : Both} {s : CSched} (h : Run H P Q κ δ a b) (st : CSched.Step (fun p => Q p (δ p)) b.cache s) : Run H P Q κ δ a { b with cache := s }

/-- The database a process has seen, if it has looked; src/ds/sqlite.rs:66. -/
def PState.saw : PState → Option Db
  | .idle => none
  | .active snap _ _ _ _ => some snap
  | .ended snap _ => some snap

/-- The cache a process has seen, if it has looked; src/cache.rs:110-115. -/
def CState.saw : CState → Option Cache
  | .idle => none
  | .active snap _ _ _ _ => some snap
  | .ended snap _ => some snap

/-- `κ` and `δ` are what the processes have seen; src/main.rs:770-771. -/
def Both.Agree (κ : Nat → Cache) (δ : Nat → Db) (b : Both) : Prop :=
  ∀ p, (∀ c, (b.cache.procs p).saw = some c → κ p = c) ∧ ∀ d, (b.db.procs p).saw = some d → δ p = d

end Snap
