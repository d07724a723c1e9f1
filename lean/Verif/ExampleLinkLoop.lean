import Verif.ExampleLinkStatus
import Verif.Props.LinkLoop
/-! Cases for C94 and C97 where a directory contains itself. -/
namespace Snap.Props
open Snap

/-- `/c`, in which the folder `b` is a link to `/s`, and `d/l` one to `/c` itself -/
def exJd : Disk where
  ents := [([[115]], .dir), ([[99]], .dir), ([[99], [98]], .link [46, 46, 47, 115]), ([[99], [100]], .dir), ([[99], [100], [108]], .link [46, 46])]
  cwd := [[99]]
/-- with the database of ExampleLinkStatus, in which there is a commit -/
def exJ : LinkWorld := ⟨exJd, exKdone.dbs, {}⟩
theorem exJ_opens : OpensLinked exX exJ exLc exLq := ⟨by rfl, by rfl, by rfl⟩
theorem exJ_sane : exJ.disk.toLinkFs.Sane := ⟨by decide, by unfold okName; decide⟩
theorem exJ_loops : Spec.Loops exJ.disk.toLinkFs exX.E exLc.folder exLc.root := by
  refine ⟨[], [[100], [108]], [[99]], by simp, by decide +kernel, ⟨fun r m h => ?_, [[99]], by decide +kernel, by decide +kernel⟩, by decide +kernel⟩
  have h2 : r ++ [m] = [[100]] ∨ r ++ [m] = [[100], [108]] := by
    match r, h with
    | [], h => simp_all
    | [a], h => simp_all
    | a :: b :: c, h => simpa using h.length_le
  rcases h2 with h2 | h2
  · obtain ⟨rfl, rfl⟩ : r = [] ∧ m = [100] := by
      match r, h2 with
      | [], h2 => simpa using h2
      | a :: b, h2 => simp at h2
    exact ⟨[[99]], [[99], [100]], [[115]], by decide +kernel, by decide +kernel, by decide +kernel, by decide +kernel, by decide +kernel, by decide +kernel, rfl⟩
  · obtain ⟨rfl, rfl⟩ : r = [[100]] ∧ m = [108] := by
      match r, h2 with
      | [], h2 => simp at h2
      | [a], h2 => simpa using h2
      | a :: b :: c, h2 => simp at h2
    exact ⟨[[99], [100]], [[99]], [[115]], by decide +kernel, by decide +kernel, by decide +kernel, by decide +kernel, by decide +kernel, by decide +kernel, rfl⟩

/-- `commit` there -/
example : (mainLinked exX (.commit none [104] none) exJ).1 ≠ .success ∧ ∀ q', SameTables ((mainLinked exX (.commit none [104] none) exJ).2.2.dbs q') (exJ.dbs q') :=
  C94_looped exX rfl exJ exJ_sane exLc exLq exJ_opens _ exLc.root (.inr ⟨none, [104], none, rfl, rfl⟩) exJ_loops

/-- `status` and `checkout-head` there -/
example : (mainLinked exX .status exJ).1 ≠ .success := by
  refine (C97_looped exX rfl exJ exJ_sane exLc exLq exJ_opens _ (.inr ⟨rfl, fun head hh => ?_⟩) exJ_loops).1
  obtain ⟨head', ck, g1, g2, _⟩ := exK_clean
  have e : getHead (exKw.dbs exLq) = getHead (exJ.dbs exLq) := by decide +kernel
  rw [e, hh] at g1
  simp only [Res.ok.injEq, Option.some.injEq] at g1
  subst g1
  exact ⟨ck, g2⟩
example : (mainLinked exX (.checkoutHead [120]) exJ).1 ≠ .success ∧ ∀ q', SameTables ((mainLinked exX (.checkoutHead [120]) exJ).2.2.dbs q') (exJ.dbs q') :=
  C97_looped exX rfl exJ exJ_sane exLc exLq exJ_opens _ (.inl ⟨_, rfl⟩) exJ_loops

end Snap.Props
