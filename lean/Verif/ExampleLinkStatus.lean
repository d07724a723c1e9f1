import Verif.ExampleLinkStore
import Verif.ExampleLinkCompare
import Verif.Props.LinkStatus
/-! Cases for C97 on the whole program. -/
namespace Snap.Props
open Snap

theorem exKd_sane : exKd.toLinkFs.Sane := ⟨by decide, by unfold okName; decide⟩
theorem exKd_honest : Spec.Honest mixEnv exKd.toLinkFs := by
  have hf : ∀ p c md, exKd.toLinkFs.metadata p = .ok (.file c md) → (c = [9] ∧ md = ⟨7, 7⟩) ∨ (c = [1, 2] ∧ md = ⟨3, 4⟩) := by
    intro p c md h
    obtain ⟨q, _, h2⟩ := lmeta_iff.mp h
    have hq : q ≠ [] := by
      rintro rfl
      simp [LinkFs.at] at h2
    have := lat_mem_ents hq h2
    simp [exKd] at this
    rcases this with ⟨_, rfl, rfl⟩ | ⟨_, rfl, rfl⟩ <;> simp
  intro p p' c md c' md' h1 h2 h3
  have hs : Snap.Spec.smallReads [.data c] := by
    rcases hf p c md h1 with ⟨rfl, _⟩ | ⟨rfl, _⟩ <;> simp [Snap.Spec.smallReads]
  refine ⟨?_, hs, hs, rfl, rfl⟩
  rcases hf p c md h1 with ⟨rfl, rfl⟩ | ⟨rfl, rfl⟩ <;> rcases hf p' c' md' h2 with ⟨rfl, rfl⟩ | ⟨rfl, rfl⟩ <;> first | rfl | (exact absurd h3 (by decide))

/-- after the commit of the directory with `f` and the link to it -/
def exKdone : LinkWorld := (mainLinked exX (.commit none [104, 105] none) exKw).2.2
theorem exKdone_disk : exKdone.disk = exKd := by rfl

theorem exK_clean : ∃ head ck, getHead (exKw.dbs exLq) = .ok (some head) ∧ reflogGet (exKdone.dbs exLq) head none = .ok ck ∧
    ((mainLinked exX .status exKdone).1 = .success ∧ (mainLinked exX .status exKdone).2.1 = [.headAt head (some (ck.asUserKey.take 8)), .result ⟨[], [], []⟩]) ∧
    ∀ n, (mainLinked exX (.checkoutHead n) exKdone).1 = .success ∧ (mainLinked exX (.checkoutHead n) exKdone).2.1 = [.text sNewHead] ∧
      rawGetState ((mainLinked exX (.checkoutHead n) exKdone).2.2.dbs exLq) sHEAD = .ok (some n) :=
  C97_committed exX (fun _ _ => List.Perm.refl _) [104, 105] exKw exKd_sane exKd_honest exLc exLq exK_inv (by decide +kernel) exK_commit (noColl_of (by decide +kernel)) exKdone exKdone_disk
    ⟨⟨rfl, rfl, rfl⟩, fun _ h => h⟩ (exVouched _ (by decide +kernel)) (by decide +kernel) (by decide +kernel)

/-- the converse, for `checkout-head x` there -/
example : ∃ k B, walkItems (exKdone.dbs exLq) exX.depth k = .ok B ∧
    (∀ p, (∃ v, (p, v) ∈ B) ↔ ∃ x : Spec.Seen, Spec.Reached exKd.toLinkFs mixEnv exX.glob exLc.folder exLc.root x ∧ x.rel ≠ [] ∧ p = relPath x.rel) := by
  obtain ⟨head, ck, tree, ps, g0, g1, g2, -, -⟩ := C94_commit exX none [104, 105] none exKw exLc exLq exK_inv exK_commit (noColl_of (by decide +kernel))
  have hh : getHead (exKdone.dbs exLq) = .ok (some sMaster) := by decide +kernel
  have hw : rawGetState (exKw.dbs exLq) sHEAD = .ok (some sMaster) := by decide +kernel
  have hm : head = sMaster := by
    unfold Spec.WorksOn at g0
    rw [hw] at g0
    simp at g0
    exact g0.1.symm
  subst hm
  obtain ⟨B, b1, b2, -⟩ := C97_switched exX (fun _ _ => List.Perm.refl _) [120] exKdone exKd_sane exKd_honest exLc exLq exK_commit.1 (exVouched _ (by decide +kernel)) sMaster ck _ hh g1 g2 (by decide +kernel)
  exact ⟨_, B, b1, b2⟩

/-- with the file changed, both `f` and the link to it are reported, and HEAD stays -/
def exKchanged : LinkWorld := { exKdone with disk := { exKd with ents := exKd.ents.map fun e => if e.1 == [[99], [102]] then (e.1, .file [8, 8] ⟨3, 5⟩) else e } }
example : ((mainLinked exX (.checkoutHead [120]) exKchanged).2.1.map fun o => match o with | .result r => r.modified.map (·.path) | _ => []) = [[], [[102], [109]]] ∧
    rawGetState ((mainLinked exX (.checkoutHead [120]) exKchanged).2.2.dbs exLq) sHEAD = .ok (some sMaster) := by decide +kernel

end Snap.Props
