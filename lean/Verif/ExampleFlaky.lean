import Verif.Props.Flaky
import Verif.ExampleStatus
/-! C98: examples. -/
namespace Snap.Props
open Snap

/-- Query `i` fails. -/
def exOnce (i : Nat) : Hitches := fun j => if j = i then some .start else none
/-- All queries from `i` on fail while rows are fetched. -/
def exSince (i : Nat) : Hitches := fun j => if i ≤ j then some .row else none

/-- C98: the second query of `commit` is the one for the parent; it fails: no commit without parent is made -/
example : (runFlaky (exOnce 1) exX exR exQ (.commit none [104, 111] none) (withFs exW2 exNow)).1 = .fatal .sqlite ∧
    ((runFlaky (exOnce 1) exX exR exQ (.commit none [104, 111] none) (withFs exW2 exNow)).2.2.dbs exQ).reflog = (exW2.dbs exQ).reflog := by decide +kernel
example : runFlaky (exOnce 2) exX exR exQ (.commit none [104, 111] none) (withFs exW2 exNow) = mainRun exX (.commit none [104, 111] none) (withFs exW2 exNow) :=
  C98_success (exOnce 2) exX (withFs exW2 exNow) exR exQ exOpens2 (.commit none [104, 111] none) (fun h => h) nofun (by decide +kernel)

/-- `log`: the output stops at a beginning -/
example : (runFlaky (exSince 6) exX exR exQ (.log none) exW2).1 = .panicked ∧
    (runFlaky (exSince 6) exX exR exQ (.log none) exW2).2.1.length = 1 ∧ (mainRun exX (.log none) exW2).2.1.length = 2 := by decide +kernel

/-- `fetch`: a part of the files is left -/
example : (match reflogGet (exW3.dbs exQ) sMaster none with
    | .ok ck => (match Commit.fromKey (exW3.dbs exQ) ck with
      | .ok c => (match runFlaky (exOnce 4) exX exR exQ (.fetch (.range [] c.tree.asDbKey (some (c.tree.asDbKey ++ [0]))) [111]) exW3 with
        | (.fatal .sqlite, [], w) => w.fs.ents.length == exW3.fs.ents.length + 2
        | _ => false)
      | _ => false)
    | _ => false) = true := by decide +kernel

/-- the cache is queried as well: `status` without its first answer -/
example : (runFlaky (exOnce 6) exX exR exQ .status exW3).1 = .fatal .sqlite := by decide +kernel
example : (runFlaky (exOnce 6) exX exR exQ .status (withFs exW2 exNow)).2.2.fs = exNow := (C98_second (exOnce 6) rfl exX (withFs exW2 exNow) exR exQ exOpens2 .status trivial).2

/-- C98_dead: nothing printed -/
example : (runFlaky (exOnce 0) exX exR exQ .status exW3).1 = .fatal .sqlite ∧ (runFlaky (exOnce 0) exX exR exQ .status exW3).2.1 = [] := by decide +kernel

/-- C98_status_lost -/
example : (runFlaky (exOnce 1) exX exR exQ .status exW3).2.1 = [.headAt sMaster none] ∧ (mainRun exX .status exW3).2.1.length = 2 :=
  ⟨(C98_status_lost (exOnce 1) rfl nofun exX exW3 exR exQ sMaster (by decide +kernel) (by decide +kernel)).2.1, by decide +kernel⟩

/-- Nothing but the database is left of the working directory. -/
def exBare : Fs := { ents := [([[115]], .dir), ([[115], [98]], .dir)], cwd := [[115]] }

/-- **C98**, what is wrong: the committed files are gone. `checkout-head` does not set HEAD; if the second query fails, it does, and ends well. -/
theorem C98_head_counterexample : (mainRun exX (.checkoutHead [120]) (withFs exW2 exBare)).1 = .panicked ∧
    rawGetState ((mainRun exX (.checkoutHead [120]) (withFs exW2 exBare)).2.2.dbs exQ) sHEAD = .ok (some sMaster) ∧
    (runFlaky (exOnce 1) exX exR exQ (.checkoutHead [120]) (withFs exW2 exBare)).1 = .success ∧
    rawGetState ((runFlaky (exOnce 1) exX exR exQ (.checkoutHead [120]) (withFs exW2 exBare)).2.2.dbs exQ) sHEAD = .ok (some [120]) := by
  obtain ⟨a, -, b⟩ := C98_head_lost (exOnce 1) rfl nofun exX (fun _ l => List.Perm.refl l) (withFs exW2 exBare) exR exQ sMaster (by decide +kernel) (by decide +kernel)
    (by decide +kernel) (by decide +kernel) (fun i hi => if_neg (by omega)) [120]
  exact ⟨by decide +kernel, by decide +kernel, a, b⟩

/-- C98_head_kept -/
example : ((runFlaky (exOnce 1) exX exR exQ (.checkoutHead [120]) exW2).2.2.dbs exQ).state = (exW2.dbs exQ).state ∧
    (runFlaky (exOnce 1) exX exR exQ (.checkoutHead [120]) exW2).1 = .success :=
  ⟨(C98_head_kept (exOnce 1) rfl nofun exX (fun _ l => List.Perm.refl l) exW2 exR exQ sMaster (by decide +kernel) [([97], false), ([100], true)] (by decide +kernel) nofun [120]).1,
    by decide +kernel⟩

end Snap.Props
