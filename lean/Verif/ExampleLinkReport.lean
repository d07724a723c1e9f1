import Verif.ExampleLinkStatus
import Verif.Props.LinkReport
/-! A case for the report of C97. -/
namespace Snap.Props
open Snap

theorem exKchanged_sane : exKchanged.disk.toLinkFs.Sane := ⟨by decide, by unfold okName; decide⟩
theorem exKchanged_honest : Spec.Honest mixEnv exKchanged.disk.toLinkFs := by
  have hf : ∀ p c md, exKchanged.disk.toLinkFs.metadata p = .ok (.file c md) → (c = [9] ∧ md = ⟨7, 7⟩) ∨ (c = [8, 8] ∧ md = ⟨3, 5⟩) := by
    intro p c md h
    obtain ⟨q, _, h2⟩ := lmeta_iff.mp h
    have hq : q ≠ [] := by
      rintro rfl
      simp [LinkFs.at] at h2
    have := lat_mem_ents hq h2
    simp [exKchanged, exKd] at this
    rcases this with ⟨_, rfl, rfl⟩ | ⟨_, rfl, rfl⟩ <;> simp
  intro p p' c md c' md' h1 h2 h3
  have hs : Snap.Spec.smallReads [.data c] := by
    rcases hf p c md h1 with ⟨rfl, _⟩ | ⟨rfl, _⟩ <;> simp [Snap.Spec.smallReads]
  refine ⟨?_, hs, hs, rfl, rfl⟩
  rcases hf p c md h1 with ⟨rfl, rfl⟩ | ⟨rfl, rfl⟩ <;> rcases hf p' c' md' h2 with ⟨rfl, rfl⟩ | ⟨rfl, rfl⟩ <;> first | rfl | (exact absurd h3 (by decide))

/-- The file `f`, to which `m` leads, was changed after the commit. -/
example : ∃ head ck tree B r, walkItems (exKchanged.dbs exLq) exX.depth tree = .ok B ∧ (mainLinked exX .status exKchanged).2.1 = [.headAt head (some (Key.asUserKey ck |>.take 8)), .result (simplify r)] ∧
    r.deleted = [] ∧
    (∀ p, (∃ e ∈ r.added, e.path = p) ↔ (∃ x : Spec.Seen, Spec.Reached exKchanged.disk.toLinkFs mixEnv exX.glob exLc.folder exLc.root x ∧ x.rel ≠ [] ∧ p = relPath x.rel) ∧ ∀ v, (p, v) ∉ B) := by
  obtain ⟨head, ck, tree, ps, g0, g1, g2, -, -⟩ := C94_commit exX none [104, 105] none exKw exLc exLq exK_inv exK_commit (noColl_of (by decide +kernel))
  have hh : getHead (exKchanged.dbs exLq) = .ok (some sMaster) := by decide +kernel
  have hw : rawGetState (exKw.dbs exLq) sHEAD = .ok (some sMaster) := by decide +kernel
  have hm : head = sMaster := by
    unfold Spec.WorksOn at g0
    rw [hw] at g0
    simp at g0
    exact g0.1.symm
  subst hm
  obtain ⟨B, r, b1, b2, b3, -, b4, -⟩ := C97_reported exX (fun _ _ => List.Perm.refl _) exKchanged exKchanged_sane exKchanged_honest exLc exLq ⟨by rfl, by rfl, by rfl⟩ (exVouched _ (by decide +kernel)) sMaster ck _
    ⟨hh, g1, g2⟩ (by decide +kernel)
  exact ⟨_, ck, _, B, r, b1, b2, b3, b4⟩
example : ((mainLinked exX .status exKchanged).2.1.map fun o => match o with | .result r => (r.added.map (·.path), r.modified.map (·.path)) | _ => ([], [])) = [([], []), ([], [[102], [109]])] := by decide +kernel

end Snap.Props
