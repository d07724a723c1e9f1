import Verif.Props.Links
import Verif.ExampleLive
/-! Concrete cases of C94. -/
namespace Snap.Props
open Snap

/-- `/s/d/x` is a link to the file `/o/f`, `/s/d/y` one to the database folder `/s/b`, `/s/e` one to `/s/d`. -/
def exAlias : LinkFs := {
  ents := [([[115]], .dir), ([[115], [98]], .dir), ([[115], [97]], .file [1] ⟨1, 1⟩), ([[115], [100]], .dir), ([[115], [100], [120]], .link [47, 111, 47, 102]),
    ([[115], [100], [121]], .link [46, 46, 47, 98]), ([[115], [101]], .link [100]), ([[111]], .dir), ([[111], [102]], .file [7, 7] ⟨2, 2⟩)],
  cwd := [[115]], limit := 3 }

theorem exAlias_sane : exAlias.Sane := ⟨by decide, by unfold okName; decide⟩

def exAliasA : Answers := exAlias.answers mixEnv (fun _ => false) exR.folder

/-- What a commit of `/s` sees: the file outside twice, and nothing of the database. -/
example : Spec.look exAliasA 9 exR.root 0 = (.ok [⟨[], none⟩, ⟨[[97]], some (1, [.data [1]])⟩, ⟨[[100]], none⟩, ⟨[[100], [120]], some (2, [.data [7, 7]])⟩, ⟨[[101]], none⟩,
    ⟨[[101], [120]], some (2, [.data [7, 7]])⟩], 20) := by decide +kernel

theorem exAlias_ok : (runLive exX exAliasA exR exQ (.commit none [104, 105] none) exNow exW1).1 = .success := by decide +kernel

/-- C94: the same commit in a world without links, -/
example : ∃ (X' : Ctx) (fs' : Fs) (R' : Repo) (p : Path) (seen : List Spec.Seen), (∀ s, s ∈ seen ↔ Spec.Reached exAlias exX.E exX.glob exR.folder exR.root s) ∧
    Spec.Caught seen fs' X'.E.rd p ∧ X'.E.H = exX.E.H ∧ X'.E.table = exX.E.table ∧ X'.depth = exX.depth ∧ fs'.Wf ∧ Opens X' { exW1 with fs := fs' } R' exQ ∧
    mainRun X' (.commit (some p) [104, 105] none) { exW1 with fs := fs' } =
      ((runLive exX exAliasA exR exQ (.commit none [104, 105] none) exNow exW1).1, (runLive exX exAliasA exR exQ (.commit none [104, 105] none) exNow exW1).2.1,
        { (runLive exX exAliasA exR exQ (.commit none [104, 105] none) exNow exW1).2.2 with fs := fs' }) :=
  C94_tree exX exAlias exAlias_sane exW1 exSound1.sane exR exQ exOpens1 (by decide) (.commit none [104, 105] none) exR.root rfl exNow exAlias_ok

/-- what was stored, -/
def exAliasDb : Db := (putLive mixEnv exAliasA 9 exR.root ({}, 0)).2.1
theorem exAliasDb_ok : ∃ k t, putLive mixEnv exAliasA 9 exR.root ({}, 0) = (.ok k, (exAliasDb, t)) := by
  have h : (putLive mixEnv exAliasA 9 exR.root ({}, 0)).1.isOk = true := by decide +kernel
  cases hr : putLive mixEnv exAliasA 9 exR.root ({}, 0) with
  | mk r s =>
    rw [hr] at h
    cases r with
    | ok k => exact ⟨k, s.2, by rw [exAliasDb, hr]⟩
    | err e => simp [Res.isOk] at h
    | panic => simp [Res.isOk] at h
    | fuel => simp [Res.isOk] at h

example : ∃ k, ∃ ps : List (KNode × Spec.Seen), Snap.Stored exAliasDb 9 k (ps.map (·.1)) ∧
    (∀ x ∈ ps, x.1.node.rel = x.2.rel ∧ Spec.KeptOf mixEnv.table x.1.node.content x.2.what) ∧
    ∀ s, s ∈ ps.map (·.2) ↔ Spec.Reached exAlias mixEnv (fun _ => false) exR.folder exR.root s := by
  obtain ⟨k, t, h⟩ := exAliasDb_ok
  exact ⟨k, C94_stored mixEnv exAlias _ _ 9 exR.root {} exAliasDb 0 t k ⟨by simp, by simp⟩ h (noColl_of (by decide +kernel))⟩

/-- and that nothing of it is in the database folder. -/
example : ∃ k, ∃ ns : List KNode, Snap.Stored exAliasDb 9 k ns ∧
    ∀ x ∈ ns, x.node.rel ≠ [] → ∃ q, exAlias.canonicalize (joins exR.root x.node.rel) = .ok q ∧ ¬ [[115], [98]] <+: q := by
  obtain ⟨k, t, h⟩ := exAliasDb_ok
  exact ⟨k, C94_folder mixEnv exAlias _ _ 9 exR.root {} exAliasDb 0 t k ⟨by simp, by simp⟩ h (noColl_of (by decide +kernel)) [[115], [98]] (by decide +kernel)⟩

/-- C94: recursion of depth 17 is always enough for it. -/
example : Halts (putLive mixEnv exAliasA 17 exR.root) := C94_ends mixEnv exAlias exAlias_sane _ _ 3 (by decide) 17 (by decide) exR.root

/-- `/s/d/l` is a link to `/s`. -/
def exLooped : LinkFs := {
  ents := [([[115]], .dir), ([[115], [98]], .dir), ([[115], [100]], .dir), ([[115], [100], [108]], .link [46, 46])], cwd := [[115]], limit := 3 }

theorem exLooped_sane : exLooped.Sane := ⟨by decide, by unfold okName; decide⟩

def exLoopedA : Answers := exLooped.answers mixEnv (fun _ => false) exR.folder

/-- The commit panics, when it has followed the link too often. -/
example : (runLive exX exLoopedA exR exQ (.commit none [104, 105] none) exNow exW1).1 = .panicked := by decide +kernel

/-- C94: as it must. -/
example (n : Nat) (s s' : Db × Nat) (k : Key) : putLive mixEnv exLoopedA n exR.root s ≠ (.ok k, s') := by
  refine C94_cycle mixEnv exLooped exLooped_sane exR.folder exR.root [] [[100], [108]] (by simp) [[115]] (by decide +kernel) ?_ (by decide +kernel) n s s' k
  refine ⟨fun r m h => ?_, [[115]], by decide +kernel⟩
  have h2 : r ++ [m] = [[100]] ∨ r ++ [m] = [[100], [108]] := by
    match r, h with
    | [], h => simp_all
    | [a], h => simp_all
    | a :: b :: c, h => simpa using h.length_le
  rcases h2 with h2 | h2
  · obtain ⟨rfl, rfl⟩ : r = [] ∧ m = [100] := by
      match r, h2 with
      | [], h2 => simp_all
      | a :: c, h2 => simp_all
    exact ⟨[[115]], [[115], [100]], [[115], [98]], by decide +kernel⟩
  · obtain ⟨rfl, rfl⟩ : r = [[100]] ∧ m = [108] := by
      match r, h2 with
      | [], h2 => simp_all
      | [a], h2 => simp_all
      | a :: b :: c, h2 => simp_all
    exact ⟨[[115], [100]], [[115]], [[115], [98]], by decide +kernel⟩

/-- C94: the file systems of the other examples. -/
example : (exNow.asLinks 40).answers mixEnv (fun _ => false) exR.folder = Spec.still mixEnv exNow (makeFilter (fun _ => false) exR.folder) :=
  C94_plain exNow exNow_wf.sane (by decide +kernel) 40 mixEnv _ _

end Snap.Props
