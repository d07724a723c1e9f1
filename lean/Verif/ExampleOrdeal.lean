import Verif.Props.Ordeal
import Verif.ExampleStart
import Verif.ExampleFlaky
import Verif.ExampleConcurrent
import Verif.ExampleLinkMain
import Verif.ExampleLiveHash
import Verif.ExampleLive
import Verif.ExampleStatus
/-! Cases for C104. -/
namespace Snap.Props
open Snap

theorem exThen1 : exW1.fs = exThen := by decide +kernel

/-- `init`, -/
theorem exO1 : Spec.Ordeal mixH (fun _ => {}) exW1.dbs := by
  have h := Spec.Ordeal.process (H := mixH) (fun _ => {}) {} exX rfl .init exThen exThen_wf.sane {}
  rwa [show (mainStart {} exX .init ⟨exThen, fun _ => {}, {}⟩).2.2 = exW1 from congrArg Prod.snd (C102_usual {} exX .init (exW exThen) ⟨rfl, rfl, rfl⟩ rfl).1] at h

/-- then a commit whose transaction is not begun and whose third write fails: two rows remain; -/
def exO2 : List Bytes → Db := (mainStart exUnheld exX exCommit exUnheldW).2.2.dbs
theorem exO2_ordeals : Spec.Ordeals mixH (fun _ => {}) exO2 :=
  ((Spec.Ordeals.refl _).tail (.killed exO1 exUnheldW.dbs fun q => .inr (SameDb.faults _ _))).tail
    (.process exUnheldW.dbs exUnheld exX rfl exCommit exW1.fs (exThen1 ▸ exThen_wf.sane) exW1.cache)

/-- `status` while the files change; -/
def exO3 : List Bytes → Db := (runRacing exX exTear exR exQ .status exNow ⟨exThen, exO2, {}⟩).2.2.dbs
/-- a commit that stops since its second query fails (it is counted as having hashed whatever anyone has); -/
def exO4 : List Bytes → Db := fun q => { exO3 q with hashed := (exO3 q).hashed ++ ((runFlaky (exOnce 1) exX exR exQ exCommit ⟨exNow, exO3, {}⟩).2.2.dbs q).hashed }
/-- a commit that gets through, while the files change; -/
def exO5 : List Bytes → Db := (runLive exX exRace exR exQ (.commit none [104, 105] none) exNow ⟨exThen, exO4, {}⟩).2.2.dbs
/-- `init` of another database, by way of a link. -/
def exO6 : List Bytes → Db := (mainLinked exX .init (exLw [[97]] exO5)).2.2.dbs

theorem exO4_flaky : Spec.Ordeal mixH exO3 exO4 := by
  refine .flaky exO3 exO4 (exOnce 1) exX rfl exR exQ exCommit (by simp [exCommit]) exNow exNow_wf.sane {} (fun q => ?_) fun q x hx => ?_
  · have := (runFlaky_tamed (F := exOnce 1) (b := false) (X := exX) (R := exR) (q := exQ) (cmd := exCommit) (w := ⟨exNow, exO3, {}⟩)
      (Flaky.tame_body exX exR exCommit (by simp [exCommit]) (by simp [exCommit]) (fun h => by cases h) _ 0)).1
    rcases this with e | ⟨_, e⟩
    · exfalso
      have h1 : (runFlaky (exOnce 1) exX exR exQ exCommit ⟨exNow, exO3, {}⟩).1 ≠ (runIn exX exR exQ exCommit ⟨exNow, exO3, {}⟩).1 := by decide +kernel
      exact h1 (by rw [e])
    · exact ⟨(e.dbs q).1.symm, (e.dbs q).2.1.symm, (e.dbs q).2.2.symm⟩
  · simp only [exO4, List.mem_append]
    exact hx

theorem exO6_ordeals : Spec.Ordeals mixH (fun _ => {}) exO6 :=
  (((exO2_ordeals.tail (.compared exO2 exX rfl exTear exR exQ .status rfl exThen exNow {})).tail exO4_flaky).tail
    (.stored exO4 exX rfl exRace (exRace_proper) exR exQ (.commit none [104, 105] none) exR.root rfl exThen exNow {})).tail (.linked exO5 exX rfl .init (exLd [[97]]) (exLd_sane _) {})
theorem exO6_endured : Spec.Endured mixH exO6 := ⟨_, fun _ => ⟨rfl, rfl, rfl⟩, exO6_ordeals⟩

/-- The commit is there, and the two rows, -/
example : (exO2 exQ).data.length = 2 ∧ (exO5 exQ).data.length = 9 ∧ (match getHeadKey (exO6 exQ) with
    | .ok k => (match Commit.fromKey (exO6 exQ) k with | .ok c => c.attrs.message == [104, 105] | _ => false)
    | _ => false) = true ∧ getHead (exO6 exLq) = .ok (some sMaster) := by decide +kernel
example : Spec.NoDangling (exO6 exQ) := (C104_sound exO6_endured exQ).1
/-- and what has become of the rows. -/
example : ∀ k v, rawGet (exO2 exQ) k = .ok v → rawGet (exO6 exQ) k = .ok v := by
  refine (C104_kept (H := mixH) ?_ exQ).1
  exact ((((Spec.Ordeals.refl _).tail (.compared exO2 exX rfl exTear exR exQ .status rfl exThen exNow {})).tail exO4_flaky).tail
    (.stored exO4 exX rfl exRace (exRace_proper) exR exQ (.commit none [104, 105] none) exR.root rfl exThen exNow {})).tail (.linked exO5 exX rfl .init (exLd [[97]]) (exLd_sane _) {})

/-- Its tree can be fetched, whatever comes then. -/
def exO6tree : Key := match getHeadKey (exO6 exQ) with
  | .ok k => (match Commit.fromKey (exO6 exQ) k with | .ok c => c.tree | _ => exH [])
  | _ => exH []
theorem exO6leads : LeadsTo (exO6 exQ) exO6tree IsItem := by
  have : (match getObj (exO6 exQ) exO6tree with | .ok o => o.objtype == .fsItemDir | _ => false) = true := by decide +kernel
  cases h : getObj (exO6 exQ) exO6tree with
  | ok o => rw [h] at this; exact ⟨o, h, .inr (by simpa using this)⟩
  | _ => rw [h] at this; simp at this
example : ∃ o, getObj (exO6 exQ) exO6tree = .ok o ∧ WellTyped (exO6 exQ) o := by
  obtain ⟨o, h, _⟩ := exO6leads
  exact ⟨o, h, (C104_readable exO6_endured exQ (noColl_of (by decide +kernel)) exO6tree o h).1⟩
example : ∃ o, ∃ files : List (List Bytes × Bytes), getObj (exO6 exQ) exO6tree = .ok o ∧ ∀ w2 : World, Spec.Ordeals mixH exO6 w2.dbs → w2.fs.Wf → w2.fs.faults = [] → w2.cache.faults = [] →
      ∀ (Y : Ctx) (S : Repo) (key : Keyish) (to : Path), Opens Y w2 S exQ → canonicalize (w2.dbs exQ) key = .ok exO6tree → (exO6 exQ).data.length + 6 ≤ Y.depth → 0 ∉ to ∧ sDotDot ∉ to.comps →
        (o.objtype = .fsItemDir ∨ to.lastIsName = true) → (w2.fs.at (loc w2.fs.cwd to) = none ∧ ∀ p, p <+: loc w2.fs.cwd to → w2.fs.at p = none ∨ w2.fs.at p = some .dir) →
        (mainRun Y (.fetch key to) w2).1 = .success ∧ ∀ rel c, (mainRun Y (.fetch key to) w2).2.2.fs.content (loc w2.fs.cwd to ++ rel) = some c ↔ (rel, c) ∈ files := by
  obtain ⟨o, h, ht⟩ := exO6leads
  obtain ⟨files, hf⟩ := (C104_readable exO6_endured exQ (noColl_of (by decide +kernel)) exO6tree o h).2.2 ht
  exact ⟨o, files, h, hf⟩
/-- `fetch` of ten characters of it into `/t`: the torn mixture that the commit has seen -/
example : (match Keyish.fromStr (exO6tree.asUserKey.take 10) with
    | .ok key => (match mainRun { exX with depth := 20 } (.fetch key [47, 116]) ⟨exNow, exO6, {}⟩ with
      | (.success, _, w) => w.fs.content [[116], [97]] == some [1, 2] && w.fs.content [[116], [100], [120]] == some [3]
      | _ => false)
    | _ => false) = true := by decide +kernel

/-- Three processes at once. -/
example : ∃ dbs', Spec.Ordeal mixH exW1.dbs dbs' ∧ getHead (dbs' exQ) = .ok (some [120]) ∧ Spec.NoDangling (dbs' exQ) := by
  obtain ⟨s, h, _, _, g⟩ := exRun
  let dbs' : List Bytes → Db := fun q => if q = exQ then s.durable else exW1.dbs q
  have e : dbs' exQ = s.durable := if_pos rfl
  have ho : Spec.Ordeal mixH exW1.dbs dbs' := .together exW1.dbs dbs' exQ exP exT (fun _ => exR) exIs (fun p => by show exW1.fs.Sane; rw [exThen1]; exact exThen_wf.sane) s h e fun q' hq => if_neg hq
  exact ⟨dbs', ho, e ▸ g, (C104_sound ⟨_, fun _ => ⟨rfl, rfl, rfl⟩, ((Spec.Ordeals.refl _).tail exO1).tail ho⟩ exQ).1⟩

/-! A commit, then a process that cannot start, then `insert` without its transaction, which fails at its second write, then `checkout`. -/

theorem exG_endured : Spec.Endured mixH exG1.dbs := by
  refine ⟨fun _ => {}, fun _ => ⟨rfl, rfl, rfl⟩, (Spec.Ordeals.refl _).tail ?_⟩
  have h := Spec.Ordeal.process (H := mixH) (fun _ => {}) {} exG rfl .init exRepo exRepo_wf.sane {}
  rwa [show (mainStart {} exG .init ⟨exRepo, fun _ => {}, {}⟩).2.2 = exG1 from congrArg Prod.snd (C102_usual {} exG .init (exW exRepo) ⟨rfl, rfl, rfl⟩ rfl).1] at h
theorem exG_comm : Committed exG (.commit none [104] none) exG1 exGR exGQ := by
  refine ⟨exGOpens1, by decide +kernel, fun fs => ?_⟩
  have : ((Command.commit none [104] none).inRepo exG exGR (startOf exG1 exGQ)).2.db.faults = [] := by decide +kernel
  rw [this]; simp
def exGF : World := ⟨exRepo2, fun q => { exG2.dbs q with faults := [false, true] }, {}⟩
def exG5 : World := (mainStart exUnheld exG (.insert sDot) exGF).2.2
theorem exG5_ordeals : Spec.Ordeals mixH exG2.dbs exG5.dbs := by
  have h0 : Spec.Ordeal mixH exG2.dbs exGF.dbs := .killed (.process exG2.dbs { callback := false } exG rfl .status exRepo2 exRepo2_wf.sane {}) exGF.dbs fun q => .inl (SameDb.faults _ _)
  exact ((Spec.Ordeals.refl _).tail h0).tail (.process exGF.dbs exUnheld exG rfl (.insert sDot) exRepo2 exRepo2_wf.sane {})
/-- one row more, -/
example : (exG5.dbs exGQ).data.length = (exG2.dbs exGQ).data.length + 1 := by decide +kernel
/-- and all is as it was. -/
example : ∃ n ck, refOrHead (exG1.dbs exGQ) none = .ok n ∧ reflogGet (exG2.dbs exGQ) n none = .ok ck ∧ (getHeadKey (exG5.dbs exGQ) = .ok ck →
    ∀ rel c, VisFile exG1.fs (makeFilter exG.glob exGR.folder) exGR.root rel c → (mainRun exG' .checkout exG5).2.2.fs.content (loc exG5.fs.cwd exGR.root ++ rel) = some c) := by
  obtain ⟨n, ck, h1, h2, h3⟩ := C104_checkout exG none [104] none exG1 (wf_of_list (by decide +kernel) (by decide +kernel) (by decide +kernel) (by decide +kernel)) exGR exGQ exG_endured exG_comm
    (noColl_of (by decide +kernel)) (read_short (by decide +kernel))
  refine ⟨n, ck, h1, h2, fun hh => ?_⟩
  exact (h3 exG5 exG5_ordeals (wf_of_list (by decide +kernel) (by decide +kernel) (by decide +kernel) (by decide +kernel)) exG' exGR ⟨by decide +kernel, by decide +kernel, by decide +kernel⟩ (by decide)
    (fun l => List.Perm.refl l) (by decide +kernel) hh (by decide +kernel)).1
example : getHeadKey (exG5.dbs exGQ) = getHeadKey (exG2.dbs exGQ) ∧ (mainRun exG' .checkout exG5).2.2.fs.content (exGuardDirs ++ [[121], [122]]) = some [] := by decide +kernel
example := C104_fetch exG none [104] none exG1 (wf_of_list (by decide +kernel) (by decide +kernel) (by decide +kernel) (by decide +kernel)) exGR exGQ exG_endured exG_comm
  (noColl_of (by decide +kernel)) (read_short (by decide +kernel))
end Snap.Props
