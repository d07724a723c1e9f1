import Verif.ExampleCli
import Verif.Props.Whole
/-! C75 on the world after two commits. -/
namespace Snap.Props
open Snap

theorem exSound3 : World.Sound mixH exW3 :=
  World.Sound.run exX (World.Sound.step (World.Sound.run exX (World.Sound.run exX (.fresh (exW exThen) (fun _ => ⟨rfl, rfl, rfl⟩) exThen_wf.sane) .init) (.commit none [104, 105] none))
    (.edit _ (withFs exW2 exNow) fun _ => SameDb.refl _) exNow_wf.sane) (.commit none [104, 111] none)

example : NoColl mixH (exW3.dbs exQ) := noColl_of (by decide +kernel)
/-- the types in this database: contents, files, directories and commits -/
example : (exW3.dbs exQ).data.map (fun r => match Object.decode r.2 with | .ok o => some o.objtype | _ => none) =
    [some .fileBlob, some .fsItemFile, some .fsItemDir, some .fsItemDir, some .commit, some .fileBlob, some .fsItemFile, some .fileBlob, some .fsItemFile, some .fsItemDir, some .fsItemDir, some .commit] := by decide +kernel
/-- one key of a directory, -/
def exDirKey : Key := match Commit.fromKey (exW3.dbs exQ) ((reflogGet (exW3.dbs exQ) sMaster none).toOption.getD (exH [])) with | .ok c => c.tree | _ => exH []
theorem exDirLeads : LeadsTo (exW3.dbs exQ) exDirKey IsItem := by
  have : (match getObj (exW3.dbs exQ) exDirKey with | .ok o => o.objtype == .fsItemDir | _ => false) = true := by decide +kernel
  cases h : getObj (exW3.dbs exQ) exDirKey with
  | ok o => rw [h] at this; exact ⟨o, h, .inr (by simpa using this)⟩
  | _ => rw [h] at this; simp at this
/-- and what is under it -/
example : ∃ files : List (List Bytes × Bytes), ∀ fuel, (exW3.dbs exQ).data.length ≤ fuel → ∃ m, walkItems (exW3.dbs exQ) fuel exDirKey = .ok m ∧
    ∀ p, (∃ kf, (p, kf, false) ∈ m) ↔ ∃ rel c, (rel, c) ∈ files ∧ p = relPath rel := by
  obtain ⟨o, h, ht⟩ := exDirLeads
  obtain ⟨files, _, _, h3⟩ := C75_items exSound3 exQ (noColl_of (by decide +kernel)) exDirKey o h ht
  refine ⟨files, fun fuel hf => ?_⟩
  obtain ⟨m, h4, _, h5⟩ := (h3 _ (List.prefix_refl _)).1 fuel hf
  exact ⟨m, h4, h5⟩
example : (match walkItems (exW3.dbs exQ) 9 exDirKey with | .ok m => m.map (fun e => (e.1, e.2.2)) | _ => []) ≠ [] := by decide +kernel
/-- `fetch` of ten characters of it into `/t` -/
example : (match Keyish.fromStr (exDirKey.asUserKey.take 10) with
    | .ok key => canonicalize (exW3.dbs exQ) key == .ok exDirKey && exW3.fs.at [[116]] == none && (mainRun { exX with depth := 20 } (.fetch key [47, 116]) exW3).1 == .success
    | _ => false) = true := by decide +kernel
end Snap.Props
