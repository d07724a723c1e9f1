import Verif.Props.Start
import Verif.ExampleFailing
/-! Cases for C102. -/
namespace Snap.Props
open Snap

/-- The transaction is not begun; `exUnheldW` is `exW1`, where the third write fails. -/
def exUnheld : Starts := { begins := false }
def exUnheldW : World := { exW1 with dbs := fun q => { exW1.dbs q with faults := [false, false, true] } }
def exCommit : Command := .commit none [104] none

theorem exUnheldOpens : Opens exX exUnheldW exR exQ := ⟨by decide +kernel, by decide +kernel, by decide +kernel⟩
theorem exUnheldReach : World.Reachable mixH exUnheldW := World.Reachable.step exReach1 (.edit _ _ fun _ => ⟨⟨rfl, rfl, rfl⟩, fun _ h => h⟩)

/-- **C102**: a failing command need not leave the database as it was: without its transaction a commit whose third write fails leaves rows behind. -/
theorem C102_atomic_counterexample : ∃ (st : Starts) (X : Ctx) (w : World) (R : Repo) (q : List Bytes), w.Reachable X.E.H ∧ Opens X w R q ∧ st.ready ∧
    ((∃ e, (mainStart st X (.commit none [104] none) w).1 = .fatal e) ∨ (mainStart st X (.commit none [104] none) w).1 = .panicked) ∧
    ((mainStart st X (.commit none [104] none) w).2.2.dbs q).data ≠ (w.dbs q).data :=
  ⟨exUnheld, exX, exUnheldW, exR, exQ, exUnheldReach, exUnheldOpens, ⟨rfl, rfl, rfl⟩, by
    have : (mainStart exUnheld exX (.commit none [104] none) exUnheldW).1 = .panicked ∨ (mainStart exUnheld exX (.commit none [104] none) exUnheldW).1 = .fatal .sqlite := by decide +kernel
    rcases this with h | h
    · exact .inr h
    · exact .inl ⟨_, h⟩, by decide +kernel⟩

theorem exUnheldFails : (mainStart exUnheld exX exCommit exUnheldW).1 = .panicked ∨ (mainStart exUnheld exX exCommit exUnheldW).1 = .fatal .sqlite := by decide +kernel

/-- two rows are left, and `master` is not there -/
example : ((mainStart exUnheld exX exCommit exUnheldW).2.2.dbs exQ).data.length = 2 ∧ reflogWalk ((mainStart exUnheld exX exCommit exUnheldW).2.2.dbs exQ) sMaster none = .ok [] := by decide +kernel

/-- with the transaction none are left -/
example : ((mainStart {} exX exCommit exUnheldW).2.2.dbs exQ).data = (exUnheldW.dbs exQ).data := by decide +kernel

/-- where nothing fails, the commit without its transaction is there -/
example : (mainStart exUnheld exX exCommit exW1).1 = .success ∧ (match reflogWalk ((mainStart exUnheld exX exCommit exW1).2.2.dbs exQ) sMaster none with
    | .ok [_] => true
    | _ => false) = true := by decide +kernel

/-- The callback, the cache and its transaction -/
example : (mainStart { callback := false } exX exCommit exW1).1 = .failure .sqlite ∧ (mainStart { cache := false } exX exCommit exW1).1 = .failure .io ∧
    (mainStart { cacheBegins := false } exX exCommit exW1).1 = .failure .sqlite := by decide +kernel
example : (mainStart { cacheBegins := false } exX exCommit exW1).2 = ([], exW1) := (C102_stops { cacheBegins := false } exX exCommit exW1 (by simp [Starts.ready])).1
example : (mainStart { callback := false } exX exCommit exW1).1 = .failure .sqlite := (C102_stops { callback := false } exX exCommit exW1 (by simp [Starts.ready])).2.2.2 rfl

/-- A commit that fails in its transaction, which cannot be rolled back either: closing the connection does it -/
example : (mainStart { rollsBack := false, cacheRollsBack := false } exX exCommit exUnheldW).2 = (mainRun exX exCommit exUnheldW).2 :=
  (C102_usual { rollsBack := false, cacheRollsBack := false } exX exCommit exUnheldW ⟨rfl, rfl, rfl⟩ rfl).1
/-- there is nothing to show before the first commit -/
example : (mainStart { cacheRollsBack := false } exX (.show none) exW1).1 = .failure .sqlite ∧ (match (mainRun exX (.show none) exW1).1 with | .fatal _ => true | _ => false) = true := by decide +kernel

example := C102_unheld exUnheld exX exCommit (by simp [exCommit]) exUnheldW exR exQ exUnheldOpens ⟨rfl, rfl, rfl⟩ rfl
example : ((exCommit).inRepo exX exR (startOf exW1 exQ)).1 = .ok () ∧ (exCommit.inRepo exX exR (startOf exW1 exQ)).2.db.faults = [] := by decide +kernel

theorem exUnheldFails' : (∃ e, (mainStart exUnheld exX exCommit exUnheldW).1 = .fatal e) ∨ (mainStart exUnheld exX exCommit exUnheldW).1 = .panicked ∨
    (mainStart exUnheld exX exCommit exUnheldW).1 = .fuel := by
  rcases exUnheldFails with h | h
  · exact .inr (.inl h)
  · exact .inl ⟨_, h⟩

example : ((mainStart exUnheld exX exCommit exUnheldW).2.2.dbs exQ).reflog = (exUnheldW.dbs exQ).reflog := (C102_refs exUnheld exX exCommit (by simp [exCommit]) exUnheldW exUnheldFails' exQ).2.1
example : Spec.NoDangling ((mainStart exUnheld exX exCommit exUnheldW).2.2.dbs exQ) := (C102_safe exUnheld exX exCommit exUnheldReach exQ).2.1

/-- run again, it succeeds and leaves what it would have left at once -/
example : (mainRun exX exCommit (Spec.mended exUnheldW exQ)).1 = .success := by decide +kernel
example : SameTables ((mainRun exX exCommit (Spec.mended (mainStart exUnheld exX exCommit exUnheldW).2.2 exQ)).2.2.dbs exQ) ((mainRun exX exCommit (Spec.mended exUnheldW exQ)).2.2.dbs exQ) :=
  (C102_again exUnheld exX exCommit (.inr ⟨_, _, _, rfl⟩) exUnheldW exR exQ exUnheldOpens exUnheldFails').2.2.2.2 (by decide +kernel) exQ

end Snap.Props
