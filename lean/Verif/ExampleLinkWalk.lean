import Verif.ExampleLinkStatus
import Verif.Props.LinkWalk
/-! Cases for C89 with links. -/
namespace Snap.Props
open Snap

/-- in `/c`, of ExampleLinkStore: what is in `/s` is listed under both links to it -/
example : ((mainLinked exX (.walkFsTree sDot) exKw).2.1.map fun o => match o with | .fsItem p d => (p, d) | _ => ([], false)) =
    [([98], true), ([98, 47, 120], false), ([102], false), ([108], true), ([108, 47, 120], false), ([109], false)] := by decide +kernel
example : ∃ l : List (List Bytes × Bool), (mainLinked exX (.walkFsTree sDot) exKw).2.1 = l.map (fun x => .fsItem (relPath x.1) x.2) ∧ ([[108], [120]], false) ∈ l ∧ ([], true) ∉ l := by
  obtain ⟨l, h1, -, h3⟩ := C89_links exX (fun _ _ => List.Perm.refl _) exKw exKd_sane sDot (by decide +kernel)
  refine ⟨l, h1, (h3 _ _).mpr ⟨by simp, fun r n hr => ?_, [[115], [120]], by decide +kernel, .inr ⟨rfl, _, _, (by decide +kernel : exKd.toLinkFs.at [[115], [120]] = some (.file [9] ⟨7, 7⟩))⟩⟩, fun h => ((h3 _ _).mp h).1 rfl⟩
  have h2 : r ++ [n] = [[108]] ∨ r ++ [n] = [[108], [120]] := by
    match r, hr with
    | [], hr => simp_all
    | [a], hr => simp_all
    | a :: b :: c, hr => simpa using hr.length_le
  rcases h2 with h2 | h2
  · obtain ⟨rfl, rfl⟩ : r = [] ∧ n = [108] := by
      match r, h2 with
      | [], h2 => simpa using h2
      | a :: b, h2 => simp at h2
    exact ⟨[[99]], by decide +kernel, by decide +kernel, by decide +kernel⟩
  · obtain ⟨rfl, rfl⟩ : r = [[108]] ∧ n = [120] := by
      match r, h2 with
      | [], h2 => simp at h2
      | [a], h2 => simpa using h2
      | a :: b :: c, h2 => simp at h2
    exact ⟨[[115]], by decide +kernel, by decide +kernel, by decide +kernel⟩

end Snap.Props
