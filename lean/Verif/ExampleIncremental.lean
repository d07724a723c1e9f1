import Verif.Props.Incremental
import Verif.ExampleShow
/-! Examples for C90. -/
namespace Snap.Props
open Snap

theorem exComm1 : Committed exX (.commit none [104, 105] none) exW1 exR exQ := committed_of exOpens1 (by decide +kernel) (by decide +kernel)

/-- after the first commit a file `c` is made; `a` and `d` stay as they are -/
def exMore : Fs := { exThen with ents := exThen.ents ++ [([[115], [99]], .file [7, 7] ⟨3, 3⟩)] }
theorem exMore_wf : exMore.Wf := wf_of_list (by decide) (by decide) (by decide) (by decide)
theorem exOpensMore : Opens exX (withFs exW2 exMore) exR exQ := ⟨by decide +kernel, by decide +kernel, by decide +kernel⟩
theorem exCommMore : Committed exX (.commit none [104, 111] none) (withFs exW2 exMore) exR exQ := committed_of exOpensMore (by decide +kernel) (by decide +kernel)

/-- the four new rows: the contents of `c`, its item, the root directory, the commit; five had been there -/
example : (exW2.dbs exQ).data.length = 5 ∧ ((mainRun exX (.commit none [104, 111] none) (withFs exW2 exMore)).2.2.dbs exQ).data.length = 9 := by decide +kernel
example := C90_commit exX exX rfl none none [104, 105] [104, 111] none none exW1 (withFs exW2 exMore) (by rw [show exW1.fs = exThen by decide +kernel]; exact exThen_wf) exMore_wf exR exR exQ exComm1
  (World.Reachable.inv exReach2 exQ) (fun _ h => h) exCommMore
/-- nothing has changed: one row more, the commit -/
theorem exCommSame : Committed exX (.commit none [104, 111] none) (withFs exW2 exThen) exR exQ := committed_of ⟨by decide +kernel, by decide +kernel, by decide +kernel⟩ (by decide +kernel) (by decide +kernel)
example : ((mainRun exX (.commit none [104, 111] none) (withFs exW2 exThen)).2.2.dbs exQ).data.length = 6 := by decide +kernel
example := C90_commit_again exX exX rfl none none [104, 105] [104, 111] none none exW1 (withFs exW2 exThen) (by rw [show exW1.fs = exThen by decide +kernel]; exact exThen_wf) exThen_wf exR exR exQ exComm1
  (World.Reachable.inv exReach2 exQ) (fun _ h => h) exCommSame
  (by rw [show exW1.fs = exThen by decide +kernel]; exact ⟨fun _ _ _ => rfl, fun _ _ _ => rfl, fun _ _ => rfl⟩)

/-- the file `c` is not unchanged, and the rows are its own -/
example : ¬ Spec.Unchanged mixEnv exThen (makeFilter exX.glob exR.folder) exR.root exMore (makeFilter exX.glob exR.folder) exR.root [[99]] := by
  rintro ⟨_, h⟩
  have := h.shapes [] (visible_nil _ _ _) (visible_nil _ _ _)
  revert this
  decide +kernel
end Snap.Props
