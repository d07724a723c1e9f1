import Verif.ExampleWhole
import Verif.ExamplePanic
import Verif.ExampleShow
import Verif.Props.PanicShow
/-! C77: a commit that cannot be displayed, one that can, and the other causes. -/
namespace Snap.Props
open Snap

def exDeep : Ctx := { exX with depth := 20 }
theorem exIterDeep : IterOk exDeep.iter := fun _ _ => List.Perm.refl _
theorem exOpensDeep : Opens exDeep exW3 exR exQ := exOpens3
theorem exNoColl3 : NoColl mixH (exW3.dbs exQ) := noColl_of (by decide +kernel)

/-- `d` gained the file `d/x`: the newest commit cannot be displayed -/
theorem exUndisplayable : ∃ k, keyOrHead (exW3.dbs exQ) none = .ok k ∧ ∃ c, Commit.fromKey (exW3.dbs exQ) k = .ok c ∧ Undisplayable (exW3.dbs exQ) exDeep.depth .patch c := by
  have h := (C77_show exDeep exIterDeep exW3 exSound3 exR exQ exNoColl3 (by decide +kernel) exOpensDeep none).mp (by decide +kernel)
  simpa using h
example : (mainRun exDeep (.show none) exW3).1 = .panicked ∧ (mainRun exDeep (.log none) exW3).1 = .panicked := by decide +kernel
/-- the older one can, -/
def exOlder : Keyish := match Keyish.fromStr ((match Commit.fromKey (exW3.dbs exQ) ((reflogGet (exW3.dbs exQ) sMaster none).toOption.getD (exH [])) with
    | .ok c => c.parents.headD (exH []) | _ => exH []).asUserKey.take 10) with | .ok s => s | _ => exAbsent
example : (mainRun exDeep (.show (some exOlder)) exW3).1 = .success := by decide +kernel
example (k : Key) (h : keyOrHead (exW3.dbs exQ) (some exOlder) = .ok k) (c : Commit) (hc : Commit.fromKey (exW3.dbs exQ) k = .ok c) : ¬ Undisplayable (exW3.dbs exQ) exDeep.depth .patch c := fun hu => by
  have := (C77_show exDeep exIterDeep exW3 exSound3 exR exQ exNoColl3 (by decide +kernel) exOpensDeep (some exOlder)).mpr (.inr ⟨k, h, c, hc, hu⟩)
  revert this
  decide +kernel
/-- and the log that starts there does not panic. -/
example : (mainRun exDeep (.log (some exOlder)) exW3).1 = .success := by decide +kernel
/-- A key of a directory: `show` displays it, `log` panics. -/
example : (match Keyish.fromStr (exDirKey.asUserKey.take 10) with
    | .ok s => (mainRun exDeep (.show (some s)) exW3).1 == .success && (mainRun exDeep (.log (some s)) exW3).1 == .panicked
    | _ => false) = true := by decide +kernel
example : (mainRun exDeep (.show (some exAbsent)) exW3).1 = .panicked :=
  (C77_show exDeep exIterDeep exW3 exSound3 exR exQ exNoColl3 (by decide +kernel) exOpensDeep _).mpr (.inl ⟨_, rfl, exAbsent_absent⟩)
end Snap.Props
