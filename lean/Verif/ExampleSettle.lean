import Verif.ExampleStatus
import Verif.Props.Settle
/-! Concrete cases meeting the hypotheses of C85. -/
namespace Snap.Props
open Snap

theorem walkable_of {fs : Fs} {f : Filter} {n : Nat} {path : Path} (hd : fs.metadata path = .ok .dir)
    (h : fs.ents.all (fun e => decide (e.1.length < n) && (match e.2 with | .dir => true | .file _ _ => true | _ => false)) = true) (hn : 0 < n) : Walkable fs f n path := by
  have hat : ∀ q e, fs.at q = some e → q.length < n ∧ e ≠ .special ∧ e ≠ .broken := by
    intro q e he
    by_cases h0 : q = []
    · subst h0
      unfold Fs.at at he
      rw [if_pos rfl] at he
      cases he
      exact ⟨hn, by simp, by simp⟩
    · have := List.all_eq_true.mp h _ (Snap.at_mem h0 he)
      simp only [Bool.and_eq_true, decide_eq_true_eq] at this
      refine ⟨this.1, ?_, ?_⟩ <;> rintro rfl <;> simp at this
  refine ⟨hd, fun rel m _ h => (hat _ _ h).2.2 rfl, fun rel _ h => (hat _ _ h).2.1 rfl, fun rel h => ?_⟩
  obtain ⟨e, he⟩ := Option.ne_none_iff_exists'.mp h
  have := (hat _ _ he).1
  rw [List.length_append] at this
  omega

/-- after the commit the files were changed, then `checkout` -/
def exG3 : World := (mainRun exG' .checkout (withFs exG2 exRepo2)).2.2
theorem exGUses3 : World.Uses mixEnv [exRepo2, exG1.fs, exRepo] exG3 :=
  .run (w := withFs exG2 exRepo2) exG' rfl .checkout (.edit (w := exG2) _ (.run (w := exG1) exG rfl (.commit none [104] none) (.run (w := exW exRepo) exG rfl .init (.start _ rfl))) rfl)
theorem exGHead : ∃ ck c, HeadCommit (exG2.dbs exGQ) sMaster ck c ∧ Snapshot mixEnv (exG2.dbs exGQ) c.tree exG1.fs (makeFilter exG'.glob exGR.folder) 5 exGR.root := by
  have hc : Committed exG (.commit none [104] none) exG1 exGR exGQ := by
    refine ⟨exGOpens1, by decide +kernel, fun fs => ?_⟩
    have : ((Command.commit none [104] none).inRepo exG exGR (startOf exG1 exGQ)).2.db.faults = [] := by decide +kernel
    rw [this]; simp
  have hi : Inv mixH (exG1.dbs exGQ) := World.Reachable.inv ⟨exW exRepo, fun _ => ⟨rfl, rfl, rfl⟩, (World.Steps.refl _).tail (.run exG rfl .init _)⟩ exGQ
  obtain ⟨n, ck, tree, ps, g1, g2, g3, _, ⟨d, g4, g5, g6⟩, _, _, g7, _⟩ := C38_commit exG none [104] none exG1 exGR exGQ hi hc (noColl_of (by decide +kernel))
  have hn : n = sMaster := by
    have : refOrHead (exG1.dbs exGQ) none = .ok sMaster := by decide +kernel
    rw [this] at g1
    simpa using g1.symm
  subst hn
  exact ⟨ck, _, ⟨by decide +kernel, g2, g3⟩, wf_of_list (by decide +kernel) (by decide +kernel) (by decide +kernel) (by decide +kernel), by decide +kernel, _, d, hi, g4, g5, g6⟩

/-- all hypotheses of `C85_checkout` hold: the status is clean -/
example : ∃ ck c, HeadCommit (exG2.dbs exGQ) sMaster ck c ∧
    SameTree exG3.fs (makeFilter exG'.glob exGR.folder) exGR.root exG1.fs (makeFilter exG'.glob exGR.folder) exGR.root ∧
    ((mainRun exG' .status exG3).1 = .success ∧ (mainRun exG' .status exG3).2.1 = [.headAt sMaster (some (ck.asUserKey.take 8)), .result ⟨[], [], []⟩]) := by
  obtain ⟨ck, c, h1, h2⟩ := exGHead
  have := C85_checkout exG' (fun _ l => List.Perm.refl l) (fun l => List.Perm.refl l) (by decide) (withFs exG2 exRepo2) exRepo2_wf exGR exGQ exGOpens2 (by decide +kernel) sMaster ck c h1 exG1.fs 5
    (by decide) h2 (by decide +kernel) (read_short (by decide +kernel)) (by decide +kernel) exG3 rfl (SameDb.refl _)
    (wf_of_list (by decide +kernel) (by decide +kernel) (by decide +kernel) (by decide +kernel)) ⟨by decide +kernel, by decide +kernel, by decide +kernel⟩
    (walkable_of (by decide +kernel) (by decide +kernel) (by decide)) _ exGUses3 (faithfulFs_of (by decide +kernel)) (by decide +kernel) (by decide +kernel)
  exact ⟨ck, c, h1, this.1, this.2.1⟩
/-- before the checkout it was not -/
example : (match (mainRun exG' .status (withFs exG2 exRepo2)).1 with | .panicked => true | _ => false) = true := by decide +kernel
end Snap.Props
