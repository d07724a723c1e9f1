import Verif.ExamplePanicWork
import Verif.Props.PanicCheckout
/-! C79: each of the causes occurs. -/
namespace Snap.Props
open Snap

/-- in the built-in directory, the directory `y` of the commit with a dangling link in it -/
def exLinked : Fs := { exRepo2 with ents := exRepo2.ents ++ [(exGuardDirs ++ [[121], [99]], .broken)] }
theorem exLinked_wf : exLinked.Wf := wf_of_list (by decide) (by decide) (by decide) (by decide)
/-- the same link in a directory that the commit does not have: `z` is removed as a whole, with the link -/
def exLinked' : Fs := { exRepo2 with ents := exRepo2.ents.map (fun e => if e.1 == exGuardDirs ++ [[122]] then (e.1, .dir) else e) ++ [(exGuardDirs ++ [[122], [99]], .broken)] }
example : (mainRun exG' .checkout (withFs exG2 exRepo2)).1 = .success ∧ (mainRun exG' .checkout (withFs exG2 exLinked)).1 = .panicked ∧
    (mainRun exG' .checkout (withFs exG2 exLinked')).1 = .success := by decide +kernel

theorem exSoundG : World.Sound mixH exG2 :=
  World.Sound.run exG (World.Sound.run exG (.fresh (exW exRepo) (fun _ => ⟨rfl, rfl, rfl⟩) exRepo_wf.sane) .init) (.commit none [104] none)
/-- the theorem names the link -/
example : BadHead (exG2.dbs exGQ) ∨ Path.startsWith exGR.root sGuard = false ∨ ∃ k c rel m, getHeadKey (exG2.dbs exGQ) = .ok k ∧ Commit.fromKey (exG2.dbs exGQ) k = .ok c ∧
    Comes (exG2.dbs exGQ) c.tree rel true ∧ exLinked.at (loc exLinked.cwd exGR.root ++ rel ++ [m]) = some .broken :=
  C79_checkout exG' (fun _ _ h => h) (withFs exG2 exLinked) (World.Sound.step exSoundG (.edit _ _ fun _ => SameDb.refl _) exLinked_wf.sane) exLinked_wf exGR exGQ (noColl_of (by decide +kernel))
    ⟨by decide +kernel, by decide +kernel, by decide +kernel⟩ (by decide) (by decide +kernel)
example : Path.startsWith exGR.root sGuard = true := by decide +kernel
example : Path.startsWith exGR.root sGuard = true := (C79_below _).mpr ⟨[], by decide +kernel⟩

/-- elsewhere: nothing has changed since the commit, and `checkout` panics at the first file, having made it empty -/
example : (match mainRun exDeep .checkout exW2 with
    | (.panicked, _, w) => exW2.fs.content [[115], [97]] == some [1] && w.fs.content [[115], [97]] == some []
    | _ => false) = true := by decide +kernel
/-- there is a new file: `checkout` panics before it changes anything -/
example : (match mainRun exDeep .checkout (withFs exW2 exNew) with
    | (.panicked, _, w) => w.fs == exNew
    | _ => false) = true := by decide +kernel
example : Path.startsWith exR.root sGuard = false ∧ exNew.readDir exR.root = .ok [[97], [100], [98], [110]] ∧
    acceptedNames exNew (makeFilter exDeep.glob exR.folder) exR.root [[97], [100], [98], [110]] = .ok [[97], [100], [110]] := by decide +kernel
/-- the newest entry of HEAD is the key of a directory -/
example : (mainRun exDeep .checkout exBadW).1 = .panicked := by decide +kernel
/-- and a file of the commit, as used by `C79_guard` -/
example : (match getHeadKey (exW2.dbs exQ) with
    | .ok k => (match Commit.fromKey (exW2.dbs exQ) k with
      | .ok c => (match getItem (exW2.dbs exQ) c.tree with
        | .ok i => i.itemtype == .dir && (i.children.zip i.names).any fun e => e.2 == [97] && (match getItem (exW2.dbs exQ) e.1 with
          | .ok j => j.itemtype == .file
          | _ => false)
        | _ => false)
      | _ => false)
    | _ => false) = true := by decide +kernel
end Snap.Props
