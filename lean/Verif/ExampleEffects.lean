import Verif.ExampleShow
import Verif.Props.Effects
/-! Concrete cases meeting the hypotheses of C64–C66. -/
namespace Snap.Props
open Snap

/-! C64: in the world after two commits, the first commit is given to the ref `x` and to the ref `x` of the remote `y` -/

/-- the older commit, by the first 20 letters of its key -/
def exOldKey : Keyish := match reflogWalk (exW3.dbs exQ) sMaster none with
  | .ok [_, k] => (match Keyish.fromStr (k.asUserKey.take 20) with
    | .ok t => t
    | _ => .key [] [])
  | _ => .key [] []
theorem exOpens3 : Opens exX exW3 exR exQ := ⟨by decide +kernel, by decide +kernel, by decide +kernel⟩
example : cacheOk exW3 := fun fs => by
  have : exW3.cache.faults = [] := by decide +kernel
  rw [this]; simp
theorem exUpdate : Committed exX (.refUpdate exOldKey (some [120])) exW3 exR exQ := committed_of exOpens3 (by decide +kernel) (by decide +kernel)
example : Committed exX (.refUpdate exOldKey none) exW3 exR exQ := committed_of exOpens3 (by decide +kernel) (by decide +kernel)
example : Committed exX (.reflogPush exOldKey [120] (some [121])) exW3 exR exQ := committed_of exOpens3 (by decide +kernel) (by decide +kernel)
example : Committed exX (.setHead [120]) exW3 exR exQ := committed_of exOpens3 (by decide +kernel) (by decide +kernel)
example : utf8 [120] = true ∧ utf8 [255] = false := by decide +kernel
example : (match reflogWalk (exW3.dbs exQ) sMaster none with
    | .ok [k2, k1] => (match exW3.printed exX (.refLog none none), (mainRun exX (.refUpdate exOldKey none) exW3).2.2.printed exX (.refLog (some sMaster) none) with
      | [.entry 2 a, .entry 1 b], [.entry 3 c, .entry 2 d, .entry 1 e] => a == k2 && b == k1 && c == k1 && d == k2 && e == k1
      | _, _ => false)
    | _ => false) = true := by decide +kernel

/-! C65: the hypotheses of `C65_checkout`, with the commit in the hard-coded directory -/
example : okName exG.dbPath ∧ exG'.dbPath = exG.dbPath := by decide +kernel
/-- what a command that fails has done to the files stays: `checkout` without the directory `y` gives an error when `a` is already restored -/
theorem C65_no_rollback_counterexample : (match mainRun exG' .checkout (withFs exG2 { exRepo2 with ents := exRepo2.ents.filter fun e => !(e.1 == exGuardDirs ++ [[121]]) }) with
    | (.fatal .enoent, _, w) => exRepo2.content (exGuardDirs ++ [[97]]) == some [9, 9, 9] && w.fs.content (exGuardDirs ++ [[97]]) == some [9]
    | _ => false) = true := by decide +kernel

/-! C66 -/
example : findDbFolder exThen [99] = .ok none ∧ (mainRun { exX with dbPath := [99] } .status (exW exThen)).1 = .fatal .noDatabase := by decide +kernel
example : (∀ n ∈ (exW exThen).fs.cwd, okComp n) ∧ (match (exW exThen).printed { exX with dbPath := [99] } (.walkFsTree sDot) with
    | [] => false
    | _ => true) = true := by decide +kernel
end Snap.Props
