import Verif.ExampleFetchable
import Verif.Props.Torn
/-! Concrete cases meeting the hypotheses of C99. -/
namespace Snap.Props
open Snap

def fileIs (e : Option Ent) (c : Bytes) : Bool :=
  match e with
  | some (.file d _) => d == c
  | _ => false

/-- the repository where three file-system calls go well, and the fourth one not -/
def exHalfFs : Fs := { exRepo2 with faults := [none, none, none, some 0] }
theorem exHalfFs_wf : exHalfFs.Wf := wf_of_list (by decide +kernel) (by decide +kernel) (by decide +kernel) (by decide +kernel)
def exHalfW : World := withFs exG2 exHalfFs
theorem exHalfSound : World.Sound mixH exHalfW := World.Sound.step exSoundG (.edit _ _ fun _ => SameDb.refl _) exHalfFs_wf.sane
theorem exHalfOpens : Opens exG' exHalfW exGR exGQ := ⟨by decide +kernel, by decide +kernel, by decide +kernel⟩

/-- the `checkout` fails after it has emptied `a`: that file is neither as it was nor as it is stored -/
def exHalfOut : World := (mainRun exG' .checkout exHalfW).2.2
example : (mainRun exG' .checkout exHalfW).1 ≠ .success ∧ fileIs (exHalfW.fs.at (exGuardDirs ++ [[97]])) [9, 9, 9] = true ∧
    fileIs (exHalfOut.fs.at (exGuardDirs ++ [[97]])) [] = true ∧ exHalfOut.fs.at (exGuardDirs ++ [[120]]) = none :=
  ⟨by decide +kernel, by decide +kernel, by decide +kernel, by decide +kernel⟩

/-- the hypotheses of `C99_checkout` hold -/
example : ∃ ck c, getHeadKey (exG2.dbs exGQ) = .ok ck ∧ Commit.fromKey (exG2.dbs exGQ) ck = .ok c ∧
    ∃ odd, Spec.Partway (exG2.dbs exGQ) c.tree (loc exHalfFs.cwd exGR.root) exHalfFs.at exHalfOut.fs.at odd := by
  obtain ⟨ck, c, h1, h2, h3, hr⟩ := exGItem
  exact ⟨ck, c, h1, h2, C99_checkout exG' (fun l => List.Perm.refl l) (by decide) exHalfW exHalfSound exHalfFs_wf exGR exGQ (noColl_of (by decide +kernel)) exHalfOpens
    (by decide +kernel) ck c h1 h2 h3⟩

/-- the hypotheses of `C99_checkout_again` hold -/
example : (mainRun exG' .checkout exHalfOut).1 = .success := by
  obtain ⟨ck, c, h1, h2, h3, hr⟩ := exGItem
  have hready := (C86_checkout exG' (fun l => List.Perm.refl l) (by decide) (withFs exG2 exRepo2) exGSound2 exRepo2_wf exGR exGQ (noColl_of (by decide +kernel)) exGOpens2 (by decide +kernel)
    (by decide +kernel) (by decide +kernel) (by decide +kernel) ck c h1 h2 h3).mp (by decide +kernel)
  exact (C99_checkout_again exG' (fun l => List.Perm.refl l) (by decide) exHalfW exHalfSound exHalfFs_wf exGR exGQ (noColl_of (by decide +kernel)) exHalfOpens (by decide +kernel)
    (by decide +kernel) ck c h1 h2 h3 hready exHalfOut rfl (by decide +kernel) (SameTables.refl _)
    (wf_of_list (by decide +kernel) (by decide +kernel) (by decide +kernel) (by decide +kernel)) ⟨by decide +kernel, by decide +kernel, by decide +kernel⟩ (by decide +kernel) (by decide +kernel)).1
/-- and `a` is then as it is stored, `x` and `y/z` are there again -/
example : (mainRun exG' .checkout exHalfOut).1 = .success ∧ fileIs ((mainRun exG' .checkout exHalfOut).2.2.fs.at (exGuardDirs ++ [[97]])) [9] = true ∧
    fileIs ((mainRun exG' .checkout exHalfOut).2.2.fs.at (exGuardDirs ++ [[121], [122]])) [] = true :=
  ⟨by decide +kernel, by decide +kernel, by decide +kernel⟩

/-- two calls go well and the third does not -/
def exHalfFs2 : Fs := { exRepo2 with faults := [none, none, some 0] }
theorem exHalfFs2_wf : exHalfFs2.Wf := wf_of_list (by decide +kernel) (by decide +kernel) (by decide +kernel) (by decide +kernel)
def exHalfW2 : World := withFs exG2 exHalfFs2
theorem exHalfSound2 : World.Sound mixH exHalfW2 := World.Sound.step exSoundG (.edit _ _ fun _ => SameDb.refl _) exHalfFs2_wf.sane
theorem exHalfOpens2 : Opens exG' exHalfW2 exGR exGQ := ⟨by decide +kernel, by decide +kernel, by decide +kernel⟩
def exHalfOut2 : World := (mainRun exG' (.fetch exTreeKey [110]) exHalfW2).2.2
/-- the `fetch` leaves an empty `n/a`, and no `n/x` -/
example : (mainRun exG' (.fetch exTreeKey [110]) exHalfW2).1 ≠ .success ∧ fileIs (exHalfOut2.fs.at (exGuardDirs ++ [[110], [97]])) [] = true ∧
    exHalfOut2.fs.at (exGuardDirs ++ [[110], [120]]) = none :=
  ⟨by decide +kernel, by decide +kernel, by decide +kernel⟩

/-- the hypotheses of `C99_fetch` hold -/
example : ∃ k, canonicalize (exG2.dbs exGQ) exTreeKey = .ok k ∧ ∃ odd, Spec.Partway (exG2.dbs exGQ) k (loc exHalfFs2.cwd [110]) exHalfFs2.at exHalfOut2.fs.at odd := by
  obtain ⟨k, h1, h2, _⟩ := exFetchKey
  exact ⟨k, h1, (C99_fetch exG' exHalfW2 exHalfSound2 exGR exGQ (noColl_of (by decide +kernel)) exHalfOpens2 (by decide +kernel) exTreeKey k h1 h2 [110] ⟨by decide +kernel, by decide +kernel⟩).1⟩

/-- the hypotheses of `C99_fetch_again` hold: as `n/a` is there, the next `fetch` does not end well -/
theorem exHalfDb2 : exHalfOut2.dbs exGQ = exG2.dbs exGQ := by decide +kernel
example : ¬ ∃ k, canonicalize (exG2.dbs exGQ) exTreeKey = .ok k ∧ ∀ rel c, Spec.Has (exG2.dbs exGQ) k rel c → exHalfOut2.fs.at (loc exHalfFs2.cwd [110] ++ rel) = none := by
  rintro ⟨k', h1', hn⟩
  obtain ⟨k, h1, h2, _⟩ := exFetchKey
  rw [h1] at h1'
  obtain rfl := Res.ok.inj h1'
  have hfree := (C88_fetch exG' (withFs exG2 exRepo2) exGSound2 exRepo2_wf exGR exGQ (noColl_of (by decide +kernel)) exGOpens2 (by decide +kernel) (by decide +kernel) (by decide +kernel)
    exTreeKey k h1 h2 [110] ⟨by decide +kernel, by decide +kernel⟩).mp (by decide +kernel)
  have hno : (mainRun exG' (.fetch exTreeKey [110]) exHalfOut2).1 ≠ .success := by decide +kernel
  exact hno ((C99_fetch_again exG' exHalfW2 exHalfSound2 exGR exGQ (noColl_of (by decide +kernel)) exHalfOpens2 (by decide +kernel) exTreeKey k h1 h2 [110] ⟨by decide +kernel, by decide +kernel⟩
    hfree.1 hfree.2 exHalfOut2 rfl (by decide +kernel) (World.Sound.run exG' exHalfSound2 _) (wf_of_list (by decide +kernel) (by decide +kernel) (by decide +kernel) (by decide +kernel))
    exGR exGQ (noColl_of (by decide +kernel)) ⟨by decide +kernel, by decide +kernel, by decide +kernel⟩ (by decide +kernel) (by decide +kernel) (by decide +kernel) exTreeKey k
    (by rw [exHalfDb2]; exact h1) (by rw [exHalfDb2]; exact h2) (fun rel => by rw [exHalfDb2]; exact Iff.rfl)).mpr hn)

/-- where it fails before a file was created, the next `fetch` ends well -/
def exHalfFs3 : Fs := { exRepo2 with faults := [none, some 0] }
theorem exHalfFs3_wf : exHalfFs3.Wf := wf_of_list (by decide +kernel) (by decide +kernel) (by decide +kernel) (by decide +kernel)
example : (mainRun exG' (.fetch exTreeKey [110]) (withFs exG2 exHalfFs3)).1 ≠ .success ∧
    (mainRun exG' (.fetch exTreeKey [110]) (mainRun exG' (.fetch exTreeKey [110]) (withFs exG2 exHalfFs3)).2.2).1 = .success :=
  ⟨by decide +kernel, by decide +kernel⟩
end Snap.Props
