import Verif.Props.Live
import Verif.ExamplePanicWork
/-! Concrete cases of C93. -/
namespace Snap.Props
open Snap

/-- `a` grows and `d/x` appears after `a` was found to have one byte. -/
def exGrowing : Nat → Fs := fun t => if t < 4 then exThen else exNow

theorem exGrowing_sane (t : Nat) : (exGrowing t).Sane := by
  unfold exGrowing
  split
  · exact exThen_wf.sane
  · exact exNow_wf.sane

def exRace : Answers := Spec.during mixEnv exGrowing (makeFilter (fun _ => false) exR.folder)

theorem exRace_proper : Spec.Proper exRace := C93_proper mixEnv exGrowing exGrowing_sane _

theorem exSound1 : World.Sound mixH exW1 := World.Sound.run exX (.fresh (exW exThen) (fun _ => ⟨rfl, rfl, rfl⟩) exThen_wf.sane) .init

/-- What the commit sees: one byte by its length and two by its reads, a mixture that was there at no time. -/
example : Spec.look exRace exX.depth exR.root 0 =
    (.ok [⟨[], none⟩, ⟨[[97]], some (1, [.data [1, 2]])⟩, ⟨[[100]], none⟩, ⟨[[100], [120]], some (1, [.data [3]])⟩], 12) := by decide +kernel

theorem exRace_ok : (runLive exX exRace exR exQ (.commit none [104, 105] none) exNow exW1).1 = .success := by decide +kernel

/-- C93: the frozen tree of this commit, -/
example : ∃ (X' : Ctx) (fs' : Fs) (R' : Repo) (p : Path) (seen : List Spec.Seen) (t : Nat), Spec.look exRace exX.depth exR.root 0 = (.ok seen, t) ∧
    Spec.Caught seen fs' X'.E.rd p ∧ X'.E.H = exX.E.H ∧ X'.E.table = exX.E.table ∧ X'.depth = exX.depth ∧ fs'.Wf ∧ Opens X' { exW1 with fs := fs' } R' exQ ∧
    mainRun X' (.commit (some p) [104, 105] none) { exW1 with fs := fs' } =
      ((runLive exX exRace exR exQ (.commit none [104, 105] none) exNow exW1).1, (runLive exX exRace exR exQ (.commit none [104, 105] none) exNow exW1).2.1,
        { (runLive exX exRace exR exQ (.commit none [104, 105] none) exNow exW1).2.2 with fs := fs' }) :=
  C93_frozen exX exRace exRace_proper exW1 exSound1.sane exR exQ exOpens1 (by decide) (.commit none [104, 105] none) exR.root rfl exNow exRace_ok

/-- the world after it, -/
example : (runLive exX exRace exR exQ (.commit none [104, 105] none) exNow exW1).2.2.Sound mixH :=
  C93_sound exX exRace exRace_proper exW1 exSound1 exR exQ exOpens1 (by decide) _ (by simp) exNow exNow_wf.sane

/-- and the commit without a race. -/
example : runLive exX (Spec.still exX.E exW1.fs (makeFilter exX.glob exR.folder)) exR exQ (.commit none [104, 105] none) exW1.fs exW1 =
    mainRun exX (.commit none [104, 105] none) exW1 := C93_still exX exW1 exR exQ exOpens1 _ exR.root rfl

/-- C93: what was stored. -/
def exLiveDb : Db := (putLive mixEnv exRace 9 exR.root ({}, 0)).2.1
theorem exLive_ok : ∃ k t, putLive mixEnv exRace 9 exR.root ({}, 0) = (.ok k, (exLiveDb, t)) := by
  have h : (putLive mixEnv exRace 9 exR.root ({}, 0)).1.isOk = true := by decide +kernel
  cases hr : putLive mixEnv exRace 9 exR.root ({}, 0) with
  | mk r s =>
    rw [hr] at h
    cases r with
    | ok k => exact ⟨k, s.2, by rw [exLiveDb, hr]⟩
    | err e => simp [Res.isOk] at h
    | panic => simp [Res.isOk] at h
    | fuel => simp [Res.isOk] at h

example : ∃ k t, putLive mixEnv exRace 9 exR.root ({}, 0) = (.ok k, (exLiveDb, t)) ∧ ∃ ps : List (KNode × Spec.Seen), Snap.Stored exLiveDb 9 k (ps.map (·.1)) ∧
    Spec.look exRace 9 exR.root 0 = (.ok (ps.map (·.2)), t) ∧ ∀ x ∈ ps, x.1.node.rel = x.2.rel ∧ Spec.KeptOf mixEnv.table x.1.node.content x.2.what := by
  obtain ⟨k, t, h⟩ := exLive_ok
  exact ⟨k, t, h, C93_contents mixEnv exRace 9 exR.root {} exLiveDb 0 t k ⟨by simp, by simp⟩ h (noColl_of (by decide +kernel))⟩

/-- `a` is removed after the listing: the command fails and the databases stay as they are. -/
def exGoing : Answers := Spec.during mixEnv (fun t => if t < 3 then exThen else { exThen with ents := exThen.ents.filter (·.1 != [[115], [97]]) }) (makeFilter (fun _ => false) exR.folder)
example : (runLive exX exGoing exR exQ (.commit none [104, 105] none) exNow exW1).1 = .fatal .enoent := by decide +kernel
example : ∀ q, SameDb ((runLive exX exGoing exR exQ (.commit none [104, 105] none) exNow exW1).2.2.dbs q) (exW1.dbs q) :=
  C93_lost exX exGoing exW1 exR exQ _ exNow (.inl ⟨.enoent, by decide +kernel⟩)
/-- One question earlier it is the filter that asks, and panics. -/
example : (runLive exX (Spec.during mixEnv (fun t => if t < 2 then exThen else { exThen with ents := exThen.ents.filter (·.1 != [[115], [97]]) }) (makeFilter (fun _ => false) exR.folder))
    exR exQ (.commit none [104, 105] none) exNow exW1).1 = .panicked := by decide +kernel

/-- A file that is moved from a directory not yet visited to one already visited: it is there at all times, and not in the commit. -/
def exMovedFrom : Fs := { ents := [([[115]], .dir), ([[115], [99]], .dir), ([[115], [100]], .dir), ([[115], [100], [120]], .file [3] ⟨8, 8⟩), ([[115], [98]], .dir)], cwd := [[115]] }
def exMovedTo : Fs := { ents := [([[115]], .dir), ([[115], [99]], .dir), ([[115], [99], [120]], .file [3] ⟨8, 8⟩), ([[115], [100]], .dir), ([[115], [98]], .dir)], cwd := [[115]] }
example : exMovedFrom.Wf ∧ exMovedTo.Wf := ⟨wf_of_list (by decide) (by decide) (by decide) (by decide), wf_of_list (by decide) (by decide) (by decide) (by decide)⟩
example : Spec.look (Spec.during mixEnv (fun t => if t < 5 then exMovedFrom else exMovedTo) (makeFilter (fun _ => false) exR.folder)) 9 exR.root 0 =
    (.ok [⟨[], none⟩, ⟨[[99]], none⟩, ⟨[[100]], none⟩], 9) := by decide +kernel

/-- A listing with a name twice, which POSIX permits while a directory changes, is stored as it is: the hypothesis of C93_frozen is needed. -/
def exDouble : Answers := { exRace with list := fun t p => if p = exR.root then .ok [some [97], some [97]] else exRace.list t p }
example : (match putLive mixEnv exDouble 9 exR.root ({}, 0) with
    | (.ok k, (db, _)) => (match getItem db k with
      | .ok it => it.names == [[97], [97]]
      | _ => false)
    | _ => false) = true := by decide +kernel

end Snap.Props
