import Verif.Props.Named
import Verif.ExampleIncremental
/-!
C38 and C47: a commit on a ref that is not HEAD's, and clean and changed working directories.
-/
namespace Snap.Props
open Snap

/-- HEAD is `master`, the commit goes to `x` -/
theorem exSide : Committed exX (.commit none [104, 111] (some [120])) (withFs exW2 exMore) exR exQ := committed_of exOpensMore (by decide +kernel) (by decide +kernel)
example : ∃ ck, reflogWalk ((mainRun exX (.commit none [104, 111] (some [120])) (withFs exW2 exMore)).2.2.dbs exQ) [120] none = .ok [ck] ∧
    reflogWalk ((mainRun exX (.commit none [104, 111] (some [120])) (withFs exW2 exMore)).2.2.dbs exQ) sMaster none = reflogWalk (exW2.dbs exQ) sMaster none := by
  obtain ⟨n, ck, tree, ps, h1, _, _, _, _, h6, h7, _⟩ := C38_ref exX none [104, 111] (some [120]) (withFs exW2 exMore) exR exQ (World.Reachable.inv exReach2 exQ) exSide (noColl_of (by decide +kernel))
  have hn : n = [120] := by
    rcases h1 with h | ⟨h, _⟩
    · simpa using h.symm
    · simp at h
  subst hn
  exact ⟨ck, h6 [] (by decide +kernel), h7 _ _ (.inl (by decide +kernel))⟩

/-- files as committed: HEAD is set; files changed: it is not -/
theorem exClean_committed : Committed exX (.checkoutHead [120]) (withFs exW2 exThen) exR exQ := committed_of ⟨by decide +kernel, by decide +kernel, by decide +kernel⟩ (by decide +kernel) (by decide +kernel)
theorem exDirty_committed : Committed exX (.checkoutHead [120]) (withFs exW2 exNow) exR exQ := committed_of exOpens2 (by decide +kernel) (by decide +kernel)
example : rawGetState ((mainRun exX (.checkoutHead [120]) (withFs exW2 exThen)).2.2.dbs exQ) sHEAD = .ok (some [120]) ∧
    rawGetState ((mainRun exX (.checkoutHead [120]) (withFs exW2 exNow)).2.2.dbs exQ) sHEAD = .ok (some sMaster) := by decide +kernel
/-- so by `C47_clean` the comparison has found something where HEAD was left alone -/
example : ∃ t r, HeadTree (exW2.dbs exQ) t ∧
    (Snap.compare mixEnv exNow exX.iter exX.depth (.fileSystem exR.root exX.glob exR.folder) t (exW2.dbs exQ, exW2.cache)).1 = .ok r ∧ (r.added ≠ [] ∨ r.deleted ≠ [] ∨ r.modified ≠ []) := by
  obtain ⟨t, r, h1, h2, h3, _⟩ := C47_clean exX [120] (withFs exW2 exNow) exR exQ exDirty_committed
  refine ⟨t, r, h1, h2, Classical.byContradiction fun hno => ?_⟩
  have := h3 ⟨Classical.byContradiction fun h => hno (.inl h), Classical.byContradiction fun h => hno (.inr (.inl h)), Classical.byContradiction fun h => hno (.inr (.inr h))⟩
  revert this
  decide +kernel

/-- and nothing where HEAD was set -/
example : ∃ t r, HeadTree (exW2.dbs exQ) t ∧ (Snap.compare mixEnv exThen exX.iter exX.depth (.fileSystem exR.root exX.glob exR.folder) t (exW2.dbs exQ, exW2.cache)).1 = .ok r ∧
    r.added = [] ∧ r.deleted = [] ∧ r.modified = [] := by
  obtain ⟨t, r, h1, h2, _, h4⟩ := C47_clean exX [120] (withFs exW2 exThen) exR exQ exClean_committed
  have hno : ¬ (r.added ≠ [] ∨ r.deleted ≠ [] ∨ r.modified ≠ []) := fun g => by
    have := h4 g
    revert this
    decide +kernel
  exact ⟨t, r, h1, h2, Classical.byContradiction fun h => hno (.inl h), Classical.byContradiction fun h => hno (.inr (.inl h)), Classical.byContradiction fun h => hno (.inr (.inr h))⟩

end Snap.Props
