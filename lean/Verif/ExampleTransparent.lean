import Verif.Props.Transparent
import Verif.ExampleCacheShare
import Verif.ExamplePanicWork
import Verif.ExampleStatus
/-!
C109: concrete cases.
-/
namespace Snap.Props
open Snap

/-- `status` has filled the cache, then files are changed -/
def exWarm : World := withFs (mainRun exX .status exW2).2.2 exNow
theorem exWarm_uses : World.Uses mixEnv [exW2.fs, exW1.fs, exThen] exWarm := .edit _ (.run exX rfl .status exUses2) rfl
theorem exWarm_opens : Opens exX exWarm exR exQ := ⟨by decide +kernel, by decide +kernel, by decide +kernel⟩

/-- with the cache of the commands so far and without it -/
example : exWarm.cache.rows ≠ [] ∧ (mainRun exX .status exWarm).2.1 = (mainRun exX .status { exWarm with cache := {} }).2.1 ∧ (mainRun exX .status exWarm).2.1.length = 2 :=
  ⟨by decide +kernel, (C109_empty exX exWarm exR exQ exWarm_opens _ exWarm_uses (faithfulFs_of (by decide +kernel)) (by decide +kernel) .status rfl (fun _ _ => by simp)).1, by decide +kernel⟩

/-- `checkout-head`, too: what the two leave of HEAD is the same -/
example : getHead ((mainRun exX (.checkoutHead sMaster) exWarm).2.2.dbs exQ) = getHead ((mainRun exX (.checkoutHead sMaster) { exWarm with cache := {} }).2.2.dbs exQ) :=
  (C109_empty exX exWarm exR exQ exWarm_opens _ exWarm_uses (faithfulFs_of (by decide +kernel)) (by decide +kernel) (.checkoutHead sMaster) rfl (fun _ _ => by simp)).2 exQ

/-- `--stat` is excepted: it reads contents that only a miss has stored -/
example : (mainRun exDeep (.compare none none true) exForeign).1 = .panicked ∧ (mainRun exDeep (.compare none none true) { exForeign with cache := {} }).1 = .success := by decide +kernel

/-- neither are the objects stored the same -/
example : ((mainRun exDeep (.compare none none false) exForeign).2.2.dbs exQ).data.length < ((mainRun exDeep (.compare none none false) { exForeign with cache := {} }).2.2.dbs exQ).data.length := by decide +kernel

end Snap.Props
