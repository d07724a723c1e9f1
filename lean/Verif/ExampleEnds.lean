import Verif.ExampleCli
import Verif.Props.Ends
/-! Concrete cases for C74. -/
namespace Snap.Props
open Snap

/-- C74: a reachable world, with changed files, -/
example : World.Reachable exX.E.H (withFs exW2 exNow) ∧ (withFs exW2 exNow).fs.Wf := ⟨exReach2', exNow_wf⟩
/-- in which comparing needs some depth but not the whole bound: -/
example : (mainRun (exX.deep 1) (.compare none none true) (withFs exW2 exNow)).1 = .fuel ∧ (mainRun exX (.compare none none true) (withFs exW2 exNow)).1 = .success := by decide +kernel
example : (mainRun (exX.deep 3) (.commit none [104, 111] none) (withFs exW2 exNow)).1 = .success := by decide +kernel
/-- without the files being well-formed there could be no end: an entry `.` in a directory leads back to it -/
example : (mainRun (exX.deep 40) (.walkFsTree [47]) (exW { ents := [([[46]], .dir)] })).1 = .fuel := by decide +kernel

end Snap.Props
