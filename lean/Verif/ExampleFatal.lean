import Verif.Props.Fatal
import Verif.ExampleText
import Verif.ExampleEffects
/-! Concrete cases for C87. -/
namespace Snap.Props
open Snap

/-- A commit of a missing path: no sign but the text. -/
example : (mainRun exX (.commit (some [120]) [104] none) exW1).1 = .fatal .enoent ∧
    mainText exF exX (.commit (some [120]) [104] none) exW1 = Text.lit "fatal: error\n" := by decide +kernel
example : Spec.fatal <+: mainText exF exX (.commit (some [120]) [104] none) exW1 := (C87_told exF exX (.commit (some [120]) [104] none) trivial exW1).mpr ⟨.enoent, by decide +kernel⟩
example (q : List Bytes) : SameTables ((mainRun exX (.commit (some [120]) [104] none) exW1).2.2.dbs q) (exW1.dbs q) :=
  C87_unchanged exF exX (.commit (some [120]) [104] none) (by simp) trivial exW1 ((C87_told exF exX (.commit (some [120]) [104] none) trivial exW1).mpr ⟨.enoent, by decide +kernel⟩) q

/-- A command that succeeds and prints something else. -/
example : (mainRun exX .getHead exW2).1 = .success ∧ ¬ Spec.fatal <+: mainText exF exX .getHead exW2 :=
  ⟨by decide +kernel, fun h => by obtain ⟨e, he⟩ := (C87_told exF exX .getHead trivial exW2).mp h; revert he; rw [show (mainRun exX .getHead exW2).1 = .success by decide +kernel]; simp⟩

/-- `status` fails after it has printed a line: the error is the last line, not the first. -/
example : (mainRun exX .status (withFs exW2 exFifo)).1 = .fatal .unimplementedFileType ∧ ¬ Spec.fatal <+: mainText exF exX .status (withFs exW2 exFifo) := by decide +kernel
example : ∃ before, mainText exF exX .status (withFs exW2 exFifo) = before ++ (Spec.fatal ++ exF.error .unimplementedFileType ++ [10]) := C87_line exF exX .status _ _ (by decide +kernel)

end Snap.Props
