import Verif.ExampleEffects
import Verif.Props.Status
/-! Concrete cases meeting the hypotheses of C67. -/
namespace Snap.Props
open Snap

/-- All files are short, whatever path they are read by. -/
theorem read_short_at {fs : Fs} (h : shortFiles fs = true) {filter : Filter} {path : Path} (p : Path) (rel : List Bytes) (c : Bytes) (hv : VisFile fs filter path rel c) :
    FullyRead mixEnv p c := by
  obtain ⟨md, hat⟩ := content_some.mp hv.2
  obtain ⟨e, he, h2⟩ := at_mem hat
  have := List.all_eq_true.mp h e he
  rw [h2] at this
  exact fullyRead_short (by simpa using this)

theorem exHead2 : ∃ ck c, HeadCommit (exW2.dbs exQ) sMaster ck c ∧ Snapshot mixEnv (exW2.dbs exQ) c.tree exW1.fs (makeFilter exX.glob exR.folder) 9 exR.root := by
  obtain ⟨ck, c, h1, h2⟩ := exChain2
  cases h2 with
  | root h => exact ⟨ck, c, ⟨by decide +kernel, h1, h.commit⟩, h.tree⟩

theorem exLater3 : ∃ k, Snapshot mixEnv (exW3.dbs exQ) k exNow (makeFilter exX.glob exR.folder) 9 exR.root := by
  obtain ⟨ck, c, ck', c', h1, h2⟩ := exChain3
  cases h2 with
  | step h _ _ => exact ⟨_, h.tree⟩

theorem exUsesNow : World.Uses mixEnv [exW1.fs, exThen] (withFs exW2 exNow) := .edit _ exUses2 rfl

/-- after the first commit the files are changed: all hypotheses of `C67_status` hold -/
theorem exStatus : ∃ ck c r, HeadCommit (exW2.dbs exQ) sMaster ck c ∧
    (mainRun exX .status (withFs exW2 exNow)).2.1 = [.headAt sMaster (some (ck.asUserKey.take 8)), .result r] ∧
    Reports exNow (makeFilter exX.glob exR.folder) exR.root exW1.fs (makeFilter exX.glob exR.folder) exR.root r := by
  obtain ⟨ck, c, h1, h2⟩ := exHead2
  obtain ⟨k, h3⟩ := exLater3
  have := C67_status exX (fun _ l => List.Perm.refl l) (withFs exW2 exNow) exR exQ exOpens2 _ exUsesNow (faithfulFs_of (by decide +kernel)) (by decide +kernel) (by decide +kernel)
    sMaster ck c h1 (exW3.dbs exQ) k exW1.fs _ 9 9 (Nat.le_refl _) (Nat.le_refl _) _ h3 h2 (steps_data ((World.Steps.refl _).tail (.run exX rfl _ _)) exQ) (by decide +kernel)
    (fun rel c h => ⟨read_short_at (by decide +kernel) _ rel c h, read_short_at (by decide +kernel) _ rel c h⟩) (read_short (by decide +kernel))
  have hs : (mainRun exX .status (withFs exW2 exNow)).1 = .success := by decide +kernel
  obtain ⟨_, r, h4, h5⟩ := this.2 fun rel b hb => Classical.byContradiction fun hno => by
    have := this.1 ⟨rel, b, hb, fun b' hb' => hno ⟨b', hb'⟩⟩
    rw [hs] at this
    simp at this
  exact ⟨ck, c, r, h1, h4, h5⟩

/-- what is printed: `a` is modified, `d/x` is new -/
example : (match (mainRun exX .status (withFs exW2 exNow)).2.1 with
    | [.headAt h (some k), .result r] => h == sMaster && k.length == 8 && r.added.map (·.path) == [[100, 47, 120]] && r.deleted.isEmpty && r.modified.map (·.path) == [[97]]
    | _ => false) = true := by decide +kernel
/-- of a new directory `n` only the directory is shown -/
def exNew : Fs := { exThen with ents := exThen.ents ++ [([[115], [110]], .dir), ([[115], [110], [99]], .file [4] ⟨3, 3⟩)] }
example : (match (mainRun exX .status (withFs exW2 exNew)).2.1 with
    | [.headAt _ (some _), .result r] => r.added.map (·.path) == [[110]] && r.deleted.isEmpty && r.modified.isEmpty
    | _ => false) = true := by decide +kernel
/-- a file has been deleted -/
def exGone : Fs := { exThen with ents := exThen.ents.filter fun e => !(e.1 == [[115], [97]]) }
example : (mainRun exX .status (withFs exW2 exGone)).1 = .panicked := by decide +kernel
/-- `compare` with the tree of the commit, and without a key -/
example : (match reflogGet (exW2.dbs exQ) sMaster none with
    | .ok ck => (match Commit.fromKey (exW2.dbs exQ) ck with
      | .ok c => (match Keyish.fromStr (c.tree.asUserKey.take 20) with
        | .ok t => canonicalize (exW2.dbs exQ) t == .ok c.tree
        | _ => false)
      | _ => false)
    | _ => false) = true := by decide +kernel
end Snap.Props
