import Verif.ExampleReady
import Verif.ExampleWhole
import Verif.Props.Fetchable
/-! Concrete cases meeting the hypotheses of C88. -/
namespace Snap.Props
open Snap

def keyThat (db : Db) (key : Keyish) (p : Key → Bool) : Bool :=
  match canonicalize db key with
  | .ok k => p k
  | _ => false
theorem keyThat_ok {db : Db} {key : Keyish} {p : Key → Bool} (h : keyThat db key p = true) : ∃ k, canonicalize db key = .ok k ∧ p k = true := by
  unfold keyThat at h
  split at h
  · exact ⟨_, by assumption, h⟩
  · simp at h

theorem exFetchKey : ∃ k, canonicalize (exG2.dbs exGQ) exTreeKey = .ok k ∧ LeadsTo (exG2.dbs exGQ) k IsItem ∧ Comes (exG2.dbs exGQ) k [[121], [122]] false := by
  obtain ⟨k, h1, h2⟩ := keyThat_ok (db := exG2.dbs exGQ) (key := exTreeKey) (p := fun k => itemB (exG2.dbs exGQ) k && comesB (exG2.dbs exGQ) k [[121], [122]] false) (by decide +kernel)
  rw [Bool.and_eq_true] at h2
  exact ⟨k, h1, itemB_ok h2.1, comesB_ok h2.2⟩

/-- all hypotheses of `C88_fetch` hold, and the fetch ends well: nothing is at `n` -/
example : ∃ k, canonicalize (exG2.dbs exGQ) exTreeKey = .ok k ∧ Spec.Free (exG2.dbs exGQ) k exRepo2.at (loc exRepo2.cwd [110]) := by
  obtain ⟨k, h1, h2, _⟩ := exFetchKey
  exact ⟨k, h1, ((C88_fetch exG' (withFs exG2 exRepo2) exGSound2 exRepo2_wf exGR exGQ (noColl_of (by decide +kernel)) exGOpens2 (by decide +kernel) (by decide +kernel) (by decide +kernel)
    exTreeKey k h1 h2 [110] ⟨by decide +kernel, by decide +kernel⟩).mp (by decide +kernel)).2⟩
/-- and to `.` it does not: there is a file `a` -/
example : (mainRun exG' (.fetch exTreeKey [46]) (withFs exG2 exRepo2)).1 ≠ .success ∧ ∃ k, canonicalize (exG2.dbs exGQ) exTreeKey = .ok k ∧ ¬ Spec.Free (exG2.dbs exGQ) k exRepo2.at (loc exRepo2.cwd [46]) := by
  obtain ⟨k, h1, h2, _⟩ := exFetchKey
  have hno : (mainRun exG' (.fetch exTreeKey [46]) (withFs exG2 exRepo2)).1 ≠ .success := by decide +kernel
  refine ⟨hno, k, h1, fun h => hno ((C88_fetch exG' (withFs exG2 exRepo2) exGSound2 exRepo2_wf exGR exGQ (noColl_of (by decide +kernel)) exGOpens2 (by decide +kernel) (by decide +kernel) (by decide +kernel)
    exTreeKey k h1 h2 [46] ⟨by decide +kernel, by decide +kernel⟩).mpr ⟨fun hr => ?_, h⟩)⟩
  obtain ⟨k', h1', h3⟩ := keyThat_ok (db := exG2.dbs exGQ) (key := exTreeKey) (p := fun k => comesB (exG2.dbs exGQ) k [] true) (by decide +kernel)
  rw [h1] at h1'
  simp at h1'
  subst h1'
  generalize hd : false = d at hr
  cases hr with
  | here hi =>
    unfold comesB at h3
    rw [show getItem (exG2.dbs exGQ) k = _ from hi] at h3
    simp_all

/-- the world after the fetch, and the hypotheses of `C88_again` and `C88_occupied` -/
def exFetched : World := (mainRun exG' (.fetch exTreeKey [110]) (withFs exG2 exRepo2)).2.2
theorem exFetchedSound : World.Sound mixH exFetched := World.Sound.run exG' exGSound2 (.fetch exTreeKey [110])
theorem exFetchedOpens : Opens exG' exFetched exGR exGQ := ⟨by decide +kernel, by decide +kernel, by decide +kernel⟩
deriving instance DecidableEq for Db
theorem exFetchedDb : exFetched.dbs exGQ = exG2.dbs exGQ := by decide +kernel
example : (mainRun exG' (.fetch exTreeKey [110]) exFetched).1 ≠ .success := by
  obtain ⟨k, h1, h2, h3⟩ := exFetchKey
  exact C88_again exG' (withFs exG2 exRepo2) exGSound2 exRepo2_wf exGR exGQ (noColl_of (by decide +kernel)) exGOpens2 (by decide +kernel) (by decide +kernel) (by decide +kernel)
    exTreeKey k h1 h2 [110] ⟨by decide +kernel, by decide +kernel⟩ (by decide +kernel) exFetched rfl exFetchedSound exGR exGQ (noColl_of (by decide +kernel)) exFetchedOpens (by decide +kernel) (by decide +kernel)
    exTreeKey k (by rw [exFetchedDb]; exact h1) (by rw [exFetchedDb]; exact h2) [[121], [122]] h3 (by rw [exFetchedDb]; exact h3)
example : (mainRun exG' (.fetch exTreeKey [110]) exFetched).1 ≠ .success := by
  obtain ⟨k, h1, h2, h3⟩ := exFetchKey
  exact C88_occupied exG' exFetched exFetchedSound exGR exGQ (noColl_of (by decide +kernel)) exFetchedOpens (by decide +kernel) (by decide +kernel)
    exTreeKey k (by rw [exFetchedDb]; exact h1) (by rw [exFetchedDb]; exact h2) [110] [[121], [122]] (by rw [exFetchedDb]; exact h3) (by decide +kernel)

/-- the empty directory `d` of the first commit -/
def exEmptyDir : Keyish := match (exW3.dbs exQ).data.filterMap (fun r => match getItem (exW3.dbs exQ) (mixH r.2) with
    | .ok i => if i.itemtype == .dir && i.children.isEmpty then some (mixH r.2) else none
    | _ => none) with
  | k :: _ => (match Keyish.fromStr (k.asUserKey.take 20) with
    | .ok t => t
    | _ => .key [] [])
  | [] => .key [] []
def emptyB (db : Db) (k : Key) : Bool :=
  match getItem db k with
  | .ok i => i.itemtype == .dir && i.children.isEmpty
  | _ => false
theorem emptyB_ok {db : Db} {k : Key} (h : emptyB db k = true) (rel : List Bytes) : ¬ Comes db k rel false := by
  intro hr
  unfold emptyB at h
  generalize hd : false = d at hr
  cases hr with
  | here hi => rw [hi] at h; simp_all
  | down hi hd hm _ => rw [hi] at h; simp_all
example : ∃ w : World, (mainRun { exX with depth := 20 } (.fetch exEmptyDir [47, 116]) w).1 = .success ∧ (mainRun { exX with depth := 20 } (.fetch exEmptyDir [47, 116]) w).2.2.fs = w.fs := by
  obtain ⟨k, h1, h2⟩ := keyThat_ok (db := exW3.dbs exQ) (key := exEmptyDir) (p := fun k => itemB (exW3.dbs exQ) k && emptyB (exW3.dbs exQ) k) (by decide +kernel)
  rw [Bool.and_eq_true] at h2
  exact ⟨exW3, C88_empty { exX with depth := 20 } exW3 exSound3 exR exQ (noColl_of (by decide +kernel)) ⟨by decide +kernel, by decide +kernel, by decide +kernel⟩ (by decide +kernel) (by decide +kernel)
    exEmptyDir k h1 (itemB_ok h2.1) (emptyB_ok h2.2) [47, 116]⟩
end Snap.Props
