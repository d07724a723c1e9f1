import Verif.ExampleFetchable
import Verif.Props.WalkCmd
/-! Concrete cases meeting the hypotheses of C89. -/
namespace Snap.Props
open Snap

/-- the committed tree: five lines, among them the directory `y` and the file `y/z` -/
example : ∃ k k', canonicalize (exG2.dbs exGQ) exTreeKey = .ok k ∧ Spec.Under (exG2.dbs exGQ) k [[121], [122]] k' ∧
    Spec.Prints (mainRun exG' (.walkTree exTreeKey) (withFs exG2 exRepo2)).2.1 (fun rel (a : Key × Bool) => .item (relPath rel) a.1 a.2)
      (fun rel a => Spec.Under (exG2.dbs exGQ) k rel a.1 ∧ Comes (exG2.dbs exGQ) a.1 [] a.2 ∧ ¬ (rel = [] ∧ a.2 = true)) := by
  obtain ⟨k, h1, h2, h3⟩ := exFetchKey
  have h := C89_tree exG' (fun _ l => List.Perm.refl l) (withFs exG2 exRepo2) exGSound2 exGR exGQ (noColl_of (by decide +kernel)) exGOpens2 (by decide +kernel) (by decide +kernel) exTreeKey k h1 h2
  have hu : ∀ {k : Key} {rel : List Bytes} {d : Bool}, Comes (exG2.dbs exGQ) k rel d → ∃ k', Spec.Under (exG2.dbs exGQ) k rel k' := by
    intro k rel d hc
    induction hc with
    | here _ => exact ⟨_, .here⟩
    | down hi ht hm _ ih => obtain ⟨k', h⟩ := ih; exact ⟨k', .down hi ht hm h⟩
  obtain ⟨k', hk'⟩ := hu h3
  exact ⟨k, k', h1, hk', h.2.1⟩
example : (mainRun exG' (.walkTree exTreeKey) (withFs exG2 exRepo2)).2.1.map (fun o => match o with | .item p _ d => (p, d) | _ => ([], false)) =
    [([97], false), ([120], false), ([101], true), ([121], true), ([121, 47, 122], false)] := by decide +kernel

/-- the repository, walked from inside: it ends well and lists `.`'s files, those of the repository too -/
example : (mainRun exG' (.walkFsTree [46]) (withFs exG2 exRepo2)).1 = .success ∧
    Spec.Prints (mainRun exG' (.walkFsTree [46]) (withFs exG2 exRepo2)).2.1 (fun rel d => .fsItem (relPath rel) d) (fun rel d => rel ≠ [] ∧ KindAt exRepo2 (loc exRepo2.cwd [46] ++ rel) d) := by
  have hd : ∀ rel, exRepo2.at (loc exRepo2.cwd [46] ++ rel) ≠ none → rel.length < exG'.depth := by
    intro rel h
    have hm : ∃ e ∈ exRepo2.ents, e.1 = loc exRepo2.cwd [46] ++ rel := by
      unfold Fs.at at h
      split at h
      · rename_i h0; simp [show loc exRepo2.cwd [46] = exGuardDirs from by decide +kernel, exGuardDirs] at h0
      · cases hf : exRepo2.ents.find? (fun e => e.1 == loc exRepo2.cwd [46] ++ rel) with
        | none => rw [hf] at h; simp at h
        | some e => exact ⟨e, List.mem_of_find?_eq_some hf, by simpa using List.find?_some hf⟩
    obtain ⟨e, he, heq⟩ := hm
    have hl : exRepo2.ents.all (fun e => decide (e.1.length < 20)) = true := by decide +kernel
    have := List.all_eq_true.mp hl e he
    rw [heq] at this
    simp at this
    show rel.length < 20
    omega
  have h := C89_fs exG' (fun _ l => List.Perm.refl l) (withFs exG2 exRepo2) exRepo2_wf (.inl ⟨_, _, exGOpens2⟩) (by decide +kernel) [46] hd
  have hs : (mainRun exG' (.walkFsTree [46]) (withFs exG2 exRepo2)).1 = .success := by decide +kernel
  exact ⟨hs, h.2.1 hs⟩
example : (mainRun exG' (.walkFsTree [46]) (withFs exG2 exRepo2)).2.1.map (fun o => match o with | .fsItem p d => (p, d) | _ => ([], false)) =
    [([97], false), ([101], true), ([121], true), ([122], false), ([100], true), ([100, 47, 98], false)] := by decide +kernel
/-- of a file it is an error -/
example : (mainRun exG' (.walkFsTree [97]) (withFs exG2 exRepo2)).1 ≠ .success ∧ exRepo2.metadata [97] ≠ .ok .dir := by decide +kernel
end Snap.Props
