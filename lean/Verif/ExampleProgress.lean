import Verif.ExampleStatus
import Verif.Props.Progress
/-! Concrete cases meeting the hypotheses of C68. -/
namespace Snap.Props
open Snap

theorem at_len {fs : Fs} {n : Nat} (h0 : 0 < n) (h : (fs.ents.all fun e => decide (e.1.length < n)) = true) {q : List Bytes} (hq : fs.at q ≠ none) : q.length < n := by
  by_cases hn : q = []
  · subst hn; exact h0
  · cases ha : fs.at q with
    | none => exact absurd ha hq
    | some e => simpa using List.all_eq_true.mp h _ (Snap.at_mem hn ha)

theorem names_sum (l : List (List Bytes × Ent)) (q : List Bytes) :
    ((l.filterMap fun e => if e.1 ≠ [] ∧ e.1.dropLast = q then e.1.getLast? else none).map fun m => m.length + 9).sum ≤ (l.map fun e => (e.1.getLast?.getD []).length + 9).sum := by
  induction l with
  | nil => simp
  | cons e l ih =>
    rw [List.filterMap_cons, List.map_cons, List.sum_cons]
    split
    · omega
    · rename_i b hb
      rw [List.map_cons, List.sum_cons]
      split at hb
      · rw [hb]; simp only [Option.getD_some]; omega
      · simp at hb

/-- Checking bounds of a concrete file tree. -/
theorem bounded_of {fs : Fs} {filter : Filter} {n : Nat} {path : Path} (h0 : 0 < n) (h1 : (fs.ents.all fun e => decide (e.1.length < n)) = true)
    (h2 : shortFiles fs = true) (h3 : (fs.ents.map fun e => (e.1.getLast?.getD []).length + 9).sum + 100 < 2 ^ 64) : Bounded mixEnv fs filter n path := by
  refine ⟨fun rel h => ?_, fun rel c hv => ?_, fun q => ?_⟩
  · have := at_len h0 h1 h
    simp at this
    omega
  · have hf := read_short_at h2 (joins path rel) rel c hv
    rw [hf.1]
    obtain ⟨md, hat⟩ := content_some.mp hv.2
    obtain ⟨e, he, h⟩ := Snap.Props.at_mem hat
    have := List.all_eq_true.mp h2 e he
    rw [h] at this
    simp at this
    omega
  · have := names_sum fs.ents q
    unfold Fs.names
    omega

/-- `exNow` can be read, hence the second commit succeeds -/
theorem exBounded : Bounded mixEnv exNow (makeFilter exX.glob exR.folder) 9 exR.root := bounded_of (by decide) (by decide) (by decide) (by decide)
theorem exReadable : Readable mixEnv exNow (makeFilter exX.glob exR.folder) exR.root :=
  ((C68_commit exX (withFs exW2 exNow) exReach2' exNow_wf exR exQ exOpens2 (by decide +kernel) (by decide +kernel) none [104, 111] (by decide +kernel) (by decide) none exBounded).mp (by decide +kernel)).2
example : (mainRun exX (.insert sDot) (withFs exW2 exNow)).1 = .success := by decide +kernel
/-- a dangling link, even an excluded one, makes it panic; so does a fifo; a name that is not UTF-8 is an error -/
def exLink : Fs := { exNow with ents := exNow.ents ++ [([[115], [108]], .broken)] }
def exFifo : Fs := { exNow with ents := exNow.ents ++ [([[115], [108]], .special)] }
def exLatin : Fs := { exNow with ents := exNow.ents ++ [([[115], [255]], .dir)] }
example : (mainRun { exX with glob := fun p => p == [108] } (.commit none [104] none) (withFs exW2 exLink)).1 = .panicked ∧
    (mainRun exX (.commit none [104] none) (withFs exW2 exFifo)).1 = .panicked ∧ (mainRun exX (.commit none [104] none) (withFs exW2 exLatin)).1 = .fatal .encode := by decide +kernel

/-- all hypotheses of `C67_working` hold after the first commit, with changed files -/
example : ∃ ck r, (mainRun exX .status (withFs exW2 exNow)).2.1 = [.headAt sMaster (some (Key.asUserKey ck |>.take 8)), .result r] ∧
    Reports exNow (makeFilter exX.glob exR.folder) exR.root exW1.fs (makeFilter exX.glob exR.folder) exR.root r := by
  obtain ⟨ck, c, h1, h2⟩ := exHead2
  have := (C67_working exX (fun _ l => List.Perm.refl l) (withFs exW2 exNow) exReach2' exNow_wf exR exQ exOpens2 _ exUsesNow (faithfulFs_of (by decide +kernel)) (by decide +kernel) (by decide +kernel)
    sMaster ck c h1 exW1.fs _ 9 (Nat.le_refl _) _ h2 (by decide +kernel) (by decide +kernel) exBounded exReadable (noColl_of (by decide +kernel))
    (fun rel c h => ⟨read_short_at (by decide +kernel) _ rel c h, read_short_at (by decide +kernel) _ rel c h⟩) (read_short (by decide +kernel))).2 (by decide +kernel)
  obtain ⟨_, r, h3, h4⟩ := this
  exact ⟨ck, r, h3, h4⟩
end Snap.Props
