import Verif.ExampleSettle
import Verif.ExamplePanicCheckout
import Verif.Props.Ready
/-! Concrete cases meeting the hypotheses of C86. -/
namespace Snap.Props
open Snap

def headThat (db : Db) (p : Commit → Bool) : Bool :=
  match getHeadKey db with
  | .ok ck => match Commit.fromKey db ck with
    | .ok c => p c
    | _ => false
  | _ => false

theorem headThat_ok {db : Db} {p : Commit → Bool} (h : headThat db p = true) : ∃ ck c, getHeadKey db = .ok ck ∧ Commit.fromKey db ck = .ok c ∧ p c = true := by
  unfold headThat at h
  split at h
  · rename_i ck h1
    split at h
    · rename_i c h2
      exact ⟨ck, c, h1, h2, h⟩
    · simp at h
  · simp at h

def itemB (db : Db) (k : Key) : Bool :=
  match getObj db k with
  | .ok o => o.objtype == .fsItemFile || o.objtype == .fsItemDir
  | _ => false
theorem itemB_ok {db : Db} {k : Key} (h : itemB db k = true) : LeadsTo db k IsItem := by
  unfold itemB at h
  split at h
  · rename_i o h3
    exact ⟨o, h3, by simpa [IsItem] using h⟩
  · simp at h

def comesB (db : Db) : Key → List Bytes → Bool → Bool
  | k, [], d => match getItem db k with
    | .ok i => (i.itemtype == .dir) == d
    | _ => false
  | k, n :: rel, d => match getItem db k with
    | .ok i => i.itemtype == .dir && (i.children.zip i.names).any fun c => c.2 == n && comesB db c.1 rel d
    | _ => false
theorem comesB_ok {db : Db} {k : Key} {rel : List Bytes} {d : Bool} (h : comesB db k rel d = true) : Comes db k rel d := by
  induction rel generalizing k with
  | nil =>
    unfold comesB at h
    split at h
    · rename_i i hi
      have := Comes.here hi
      rwa [beq_iff_eq.mp h] at this
    · simp at h
  | cons n rel ih =>
    unfold comesB at h
    split at h
    · rename_i i hi
      simp only [Bool.and_eq_true, beq_iff_eq, List.any_eq_true] at h
      obtain ⟨h1, c, h2, h3, h4⟩ := h
      exact .down hi h1 (by rw [← h3]; exact h2) (ih h4)
    · simp at h

theorem exGItem : ∃ ck c, getHeadKey (exG2.dbs exGQ) = .ok ck ∧ Commit.fromKey (exG2.dbs exGQ) ck = .ok c ∧ LeadsTo (exG2.dbs exGQ) c.tree IsItem ∧ Comes (exG2.dbs exGQ) c.tree [[121]] true := by
  obtain ⟨ck, c, h1, h2, h3⟩ := headThat_ok (db := exG2.dbs exGQ) (p := fun c => itemB (exG2.dbs exGQ) c.tree && comesB (exG2.dbs exGQ) c.tree [[121]] true) (by decide +kernel)
  rw [Bool.and_eq_true] at h3
  exact ⟨ck, c, h1, h2, itemB_ok h3.1, comesB_ok h3.2⟩

theorem exGSound2 : World.Sound mixH (withFs exG2 exRepo2) := World.Sound.step exSoundG (.edit _ _ fun _ => SameDb.refl _) exRepo2_wf.sane

/-- all hypotheses of `C86_checkout` hold; the directory is ready, though files were changed, added and removed -/
example : ∃ ck c, getHeadKey (exG2.dbs exGQ) = .ok ck ∧ Commit.fromKey (exG2.dbs exGQ) ck = .ok c ∧ Spec.Ready (exG2.dbs exGQ) c.tree exRepo2.at (loc exRepo2.cwd exGR.root) := by
  obtain ⟨ck, c, h1, h2, h3, hr⟩ := exGItem
  refine ⟨ck, c, h1, h2, (C86_checkout exG' (fun l => List.Perm.refl l) (by decide) (withFs exG2 exRepo2) exGSound2 exRepo2_wf exGR exGQ (noColl_of (by decide +kernel)) exGOpens2 (by decide +kernel)
    (by decide +kernel) (by decide +kernel) (by decide +kernel) ck c h1 h2 h3).mp (by decide +kernel)⟩

/-- a directory of the commit is missing -/
def exRepo4 : Fs := { exRepo2 with ents := exRepo2.ents.filter fun e => !(e.1 == exGuardDirs ++ [[121]]) }
theorem exRepo4_wf : exRepo4.Wf := wf_of_list (by decide +kernel) (by decide +kernel) (by decide +kernel) (by decide +kernel)
theorem exGSound4 : World.Sound mixH (withFs exG2 exRepo4) := World.Sound.step exSoundG (.edit _ _ fun _ => SameDb.refl _) exRepo4_wf.sane
example : (mainRun exG' .checkout (withFs exG2 exRepo4)).1 ≠ .success ∧ ∃ c : Commit, ¬ Spec.Ready (exG2.dbs exGQ) c.tree exRepo4.at (loc exRepo4.cwd exGR.root) := by
  obtain ⟨ck, c, h1, h2, h3, hr⟩ := exGItem
  have ho : Opens exG' (withFs exG2 exRepo4) exGR exGQ := ⟨by decide +kernel, by decide +kernel, by decide +kernel⟩
  have hno : (mainRun exG' .checkout (withFs exG2 exRepo4)).1 ≠ .success := by decide +kernel
  exact ⟨hno, c, fun h => hno ((C86_checkout exG' (fun l => List.Perm.refl l) (by decide) (withFs exG2 exRepo4) exGSound4 exRepo4_wf exGR exGQ (noColl_of (by decide +kernel)) ho (by decide +kernel)
    (by decide +kernel) (by decide +kernel) (by decide +kernel) ck c h1 h2 h3).mpr h)⟩
/-- the hypotheses of `C86_missing` hold -/
example : (mainRun exG' .checkout (withFs exG2 exRepo4)).1 ≠ .success := by
  obtain ⟨ck, c, h1, h2, h3, hr⟩ := exGItem
  have ho : Opens exG' (withFs exG2 exRepo4) exGR exGQ := ⟨by decide +kernel, by decide +kernel, by decide +kernel⟩
  exact C86_missing exG' (fun l => List.Perm.refl l) (by decide) (withFs exG2 exRepo4) exGSound4 exRepo4_wf exGR exGQ (noColl_of (by decide +kernel)) ho (by decide +kernel) ck c h1 h2 h3 [[121]] hr (by decide +kernel)

/-- the hypotheses of `C86_again` hold -/
example : (mainRun exG' .checkout exG3).1 = .success := by
  obtain ⟨ck, c, h1, h2, h3, hr⟩ := exGItem
  exact C86_again exG' (fun l => List.Perm.refl l) (by decide) (withFs exG2 exRepo2) exGSound2 exRepo2_wf exGR exGQ (noColl_of (by decide +kernel)) exGOpens2 (by decide +kernel)
    (by decide +kernel) (by decide +kernel) ck c h1 h2 h3 (by decide +kernel) exG3 rfl (by decide +kernel) (SameDb.refl _)
    (wf_of_list (by decide +kernel) (by decide +kernel) (by decide +kernel) (by decide +kernel)) ⟨by decide +kernel, by decide +kernel, by decide +kernel⟩ (by decide +kernel) (by decide +kernel)

/-- the hypotheses of `C86_committed` hold right after the commit -/
example : (mainRun exG' .checkout (withFs exG2 exG1.fs)).1 = .success := by
  obtain ⟨ck, c, h1, h2⟩ := exGHead
  exact C86_committed exG' (fun l => List.Perm.refl l) (by decide) (withFs exG2 exG1.fs) exGR exGQ ⟨by decide +kernel, by decide +kernel, by decide +kernel⟩ (by decide +kernel) (by decide +kernel)
    (by decide +kernel) ck c h1.key h1.2.2 5 (by decide) h2
end Snap.Props
