import Verif.ExamplePanicShow
import Verif.ExampleStatus
import Verif.Props.PanicWork
/-! C78: each of the causes occurs. -/
namespace Snap.Props
open Snap

theorem exSound2 : World.Sound mixH exW2 :=
  World.Sound.run exX (World.Sound.run exX (.fresh (exW exThen) (fun _ => ⟨rfl, rfl, rfl⟩) exThen_wf.sane) .init) (.commit none [104, 105] none)

/-- a tracked file is missing: listed from both sides, -/
theorem exMissing : ∃ A B, walkReal exGone (makeFilter exDeep.glob exR.folder) exDeep.depth exR.root = .ok A ∧
    (∃ t, compareKey (exW2.dbs exQ) none = .ok t ∧ walkItems (exW2.dbs exQ) exDeep.depth t = .ok B) ∧ Missing A B := by
  have h : (match walkReal exGone (makeFilter exDeep.glob exR.folder) exDeep.depth exR.root, compareKey (exW2.dbs exQ) none with
      | .ok A, .ok t => (match walkItems (exW2.dbs exQ) exDeep.depth t with
        | .ok B => B.any fun e => !(A.map (·.1)).contains e.1
        | _ => false)
      | _, _ => false) = true := by decide +kernel
  cases hA : walkReal exGone (makeFilter exDeep.glob exR.folder) exDeep.depth exR.root with
  | ok A =>
    cases ht : compareKey (exW2.dbs exQ) none with
    | ok t =>
      rw [hA, ht] at h
      dsimp only at h
      cases hB : walkItems (exW2.dbs exQ) exDeep.depth t with
      | ok B =>
        rw [hB] at h
        obtain ⟨e, he, hn⟩ := List.any_eq_true.mp h
        exact ⟨A, B, rfl, ⟨t, rfl, hB⟩, e.1, List.mem_map.mpr ⟨e, he, rfl⟩, by simpa using hn⟩
      | _ => rw [hB] at h; simp at h
    | _ => rw [hA, ht] at h; simp at h
  | _ => rw [hA] at h; simp at h
/-- so all three commands panic -/
example : (mainRun exDeep .status (withFs exW2 exGone)).1 = .panicked ∧ ∀ refname, (mainRun exDeep (.checkoutHead refname) (withFs exW2 exGone)).1 = .panicked := by
  obtain ⟨A, B, h1, ⟨t, h2, h3⟩, h4⟩ := exMissing
  exact (C78_panics exDeep exIterDeep (withFs exW2 exGone) exR exQ ⟨by decide +kernel, by decide +kernel, by decide +kernel⟩ none none t h2 A B h1 h3 (.inl h4)).2 rfl rfl

/-- a new file, seen from another directory than the root of the repository -/
def exAway : Fs := { exNew with cwd := [[115], [100]] }
example : (mainRun exDeep .status (withFs exW2 exNew)).1 = .success ∧ (mainRun exDeep .status (withFs exW2 exAway)).1 = .panicked ∧
    (mainRun exDeep (.compare none none false) (withFs exW2 exAway)).1 = .panicked := by decide +kernel

/-- the newest entry of HEAD is the key of a directory -/
def exBadW : World := match Keyish.fromStr (exDirKey.asUserKey.take 10) with
  | .ok s => (mainRun exDeep (.refUpdate s none) exW3).2.2
  | _ => exW3
example : (mainRun exDeep .status exBadW).1 = .panicked ∧ (mainRun exDeep (.checkoutHead [120]) exBadW).1 = .panicked ∧ (mainRun exDeep (.compare none none false) exBadW).1 = .panicked := by
  decide +kernel

/-- `d` is a file now: `compare` reports it, `compare --stat` panics -/
def exFiled : Fs := { exThen with ents := exThen.ents.map fun e => if e.1 == [[115], [100]] then (e.1, .file [5] ⟨9, 9⟩) else e }
example : (mainRun exDeep (.compare none none false) (withFs exW2 exFiled)).1 = .success ∧ (mainRun exDeep (.compare none none true) (withFs exW2 exFiled)).1 = .panicked := by decide +kernel
/-- the cache has the key of the new file from another repository -/
def exForeign : World := { withFs exW2 exNew with cache := ⟨[(CacheKey.bytes ⟨3, 3, 1⟩, (exH [4]).asDbKey)], []⟩ }
example : (mainRun exDeep (.compare none none false) exForeign).1 = .success ∧ (mainRun exDeep (.compare none none true) exForeign).1 = .panicked := by decide +kernel
/-- in good conditions the hypotheses of `C78_status_iff` hold -/
example : Fit ((exW2.dbs exQ), exW2.cache) := ⟨by decide +kernel, by
  rintro ⟨ck, h⟩
  have : exW2.cache.rows = [] := by decide +kernel
  exact h none (by unfold Cache.get; rw [this]; rfl)⟩
end Snap.Props
