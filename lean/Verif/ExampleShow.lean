import Verif.ExampleCli
import Verif.Props.Show
/-! Concrete cases meeting the hypotheses of C34, C53 and C63. -/
namespace Snap.Props
open Snap

theorem fullyRead_short {p : Path} {c : Bytes} (h : c.length < 32768) : FullyRead mixEnv p c := by
  have hd : Spec.delivered (mixEnv.rd p c) = c := by
    by_cases hc : c = [] <;> simp [mixEnv, Spec.delivered, hc]
  refine ⟨hd, by by_cases hc : c = [] <;> simp [mixEnv, Spec.readFails, hc], smallReads_of_short (by rw [hd]; omega), ?_⟩
  rw [cuts_short _ _ _ _ (by simpa using h)]
  rintro ⟨h, _⟩
  exact h rfl

/-- All files are short. -/
def shortFiles (fs : Fs) : Bool := fs.ents.all fun e => match e.2 with | .file c _ => decide (c.length < 32768) | _ => true

theorem read_short {fs : Fs} (h : shortFiles fs = true) {filter : Filter} {path : Path} (rel : List Bytes) (c : Bytes) (hv : VisFile fs filter path rel c) :
    FullyRead mixEnv (joins path rel) c := by
  obtain ⟨md, hat⟩ := content_some.mp hv.2
  obtain ⟨e, he, h2⟩ := at_mem hat
  have := List.all_eq_true.mp h e he
  rw [h2] at this
  exact fullyRead_short (by simpa using this)

/-- C34: both directories are in one store, with different keys -/
theorem exPut1 : ∃ t, PutIn mixEnv exDb2 t exThen exFilter 3 sDot := by
  obtain ⟨t, ⟨h1, h2, d, d', h3, h4, h5, h6⟩, _⟩ := exSnap1
  exact ⟨t, h1, ⟨d, d', h3, h4, h5, h6.trans ((isPuts_putFsItem mixEnv exNow exFilter 3 sDot).grow exDb1).data⟩, read_short (by decide)⟩
theorem exPut2 : ∃ k, PutIn mixEnv exDb2 k exNow exFilter 3 sDot := by
  obtain ⟨k, ⟨h1, h2, d, d', h3, h4, h5, h6⟩, _⟩ := exSnap2
  exact ⟨k, h1, ⟨d, d', h3, h4, h5, h6⟩, read_short (by decide)⟩
example : ¬ Alike mixEnv exThen exFilter sDot exNow exFilter sDot := by
  intro h
  have := h.shapes [[97]] (by
    intro r hr hp
    have : r = [[97]] := by
      rcases List.prefix_cons_iff.mp hp with h | ⟨t, rfl, ht⟩
      · exact absurd h hr
      · rw [List.prefix_nil.mp ht]
    subst this
    decide +kernel) (by
    intro r hr hp
    have : r = [[97]] := by
      rcases List.prefix_cons_iff.mp hp with h | ⟨t, rfl, ht⟩
      · exact absurd h hr
      · rw [List.prefix_nil.mp ht]
    subst this
    decide +kernel)
  revert this
  decide +kernel

/-! C63 -/

def srcOf (fs : Fs) : Src := ⟨fs, makeFilter exX.glob exR.folder, exX.depth, exR.root⟩

/-- the history of `exW3`: `exThen`, then `exNow` -/
theorem committed_of {cmd : Command} {w : World} (ho : Opens exX w exR exQ) (h1 : (cmd.inRepo exX exR (startOf w exQ)).1 = .ok ())
    (h2 : (cmd.inRepo exX exR (startOf w exQ)).2.db.faults = []) : Committed exX cmd w exR exQ :=
  ⟨ho, h1, fun fs => by rw [h2]; simp⟩

theorem exChain2 : ∃ ck c, reflogGet (exW2.dbs exQ) sMaster none = .ok ck ∧ Chain mixEnv (exW2.dbs exQ) 9 [(ck, c, srcOf exW1.fs)] := by
  obtain ⟨head, ck, c, h1, h2, _, h3, _⟩ := C63_commit exX [104, 105] exW1 (by rw [show exW1.fs = exThen by decide +kernel]; exact exThen_wf) exR exQ exReach1 (by decide +kernel)
    (committed_of exOpens1 (by decide +kernel) (by decide +kernel)) (noColl_of (by decide +kernel)) (read_short (by decide +kernel)) 9 (Nat.le_refl _)
  have : head = sMaster := by
    have : getHead (exW1.dbs exQ) = .ok (some sMaster) := by decide +kernel
    rw [this] at h1
    simpa using h1.symm
  subst this
  exact ⟨ck, c, h2, h3 (by decide +kernel)⟩

theorem exChain3 : ∃ ck c ck' c', reflogGet (exW3.dbs exQ) sMaster none = .ok ck' ∧
    Chain mixEnv (exW3.dbs exQ) 9 [(ck', c', srcOf exNow), (ck, c, srcOf exW1.fs)] := by
  obtain ⟨ck, c, g1, g2⟩ := exChain2
  obtain ⟨head, ck', c', h1, h2, _, _, h3⟩ := C63_commit exX [104, 111] (withFs exW2 exNow) exNow_wf exR exQ exReach2' (by decide +kernel)
    (committed_of exOpens2 (by decide +kernel) (by decide +kernel)) (noColl_of (by decide +kernel)) (read_short (by decide +kernel)) 9 (Nat.le_refl _)
  have : head = sMaster := by
    have : getHead ((withFs exW2 exNow).dbs exQ) = .ok (some sMaster) := by decide +kernel
    rw [this] at h1
    simpa using h1.symm
  subst this
  exact ⟨ck, c, ck', c', h2, h3 (ck, c, srcOf exW1.fs) [] g1 g2 rfl⟩

/-- `d` gained the file `d/x`, so `snapcd log` panics; the commit was printed before. -/
example : (match mainRun exX (.log none) exW3 with | (.panicked, _, _) => true | _ => false) = true := by decide +kernel
/-- A file of the root changed its contents: `snapcd log` prints both commits. -/
example : (match mainRun exX (.log none) exV2 with | (.success, _, _) => true | _ => false) = true := by decide +kernel

end Snap.Props
