import Verif.ExampleProgress
import Verif.Props.Retrieve
/-! C71: `insert .`, then `fetch` with the first ten characters of the printed key. -/
namespace Snap.Props
open Snap

def exI : World := withFs exW2 exNow
def exI2 : World := (mainRun exX (.insert sDot) exI).2.2
def exY : Ctx := { exX with depth := 15 }

theorem exIComm : Committed exX (.insert sDot) exI exR exQ := committed_of exOpens2 (by decide +kernel) (by decide +kernel)
example : NoColl exX.E.H (exI2.dbs exQ) := noColl_of (by decide +kernel)
/-- ten characters are enough here, one is not, and the whole key is too much -/
example : (match exI.printed exX (.insert sDot) with
    | [.key k] => (match Keyish.fromStr (k.asUserKey.take 10), Keyish.fromStr (k.asUserKey.take 1), Keyish.fromStr k.asUserKey with
      | .ok k10, .ok k1, .ok k53 =>
        (mainRun exY (.fetch k10 [47, 116]) exI2).1 == .success && (mainRun exY (.fetch k10 [47, 116]) exI2).2.2.fs.content [[116], [97]] == exNow.content [[115], [97]] &&
        (mainRun exY (.fetch k10 [47, 116]) exI2).2.2.fs.content [[116], [97]] != none &&
        (mainRun exY (.fetch k1 [47, 116]) exI2).1 != .success && (mainRun exY (.fetch k53 [47, 116]) exI2).1 == .fatal (.unknownHashId 0xa3)
      | _, _, _ => false)
    | _ => false) = true := by decide +kernel
/-- C33: the tree of this `insert`; the database folder `b` is not in it. -/
example : ∃ k m, exI.printed exX (.insert sDot) = [.key k] ∧ walkItems (exI2.dbs exQ) 9 k = .ok m ∧ JustTaken exX exNow exR sDot m :=
  C33_insert exX sDot exI exReach2' exNow_wf exR exQ exIComm (noColl_of (by decide +kernel)) (by decide +kernel)
example : (match exI.printed exX (.insert sDot) with
    | [.key k] => (match walkItems (exI2.dbs exQ) 9 k with
      | .ok (m : List (Path × Key × Bool)) => m.map (·.1) == [[97], [100], [100, 47, 120]]
      | _ => false)
    | _ => false) = true := by decide +kernel
end Snap.Props
