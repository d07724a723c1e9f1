import Verif.Props.RoundTrip
import Verif.ExampleRetrieve
import Verif.ExampleShow
/-! Cases for C103. -/
namespace Snap.Props
open Snap

/-- The key printed by `insert`. -/
def exPrinted (w : World) (p : Path) : Option Key := match w.printed exX (.insert p) with
  | [.key k] => some k
  | _ => none
/-- The world after `fetch` of the first ten characters of a key to `/t`. -/
def exFetchT (w : World) (k : Key) : World := match Keyish.fromStr (k.asUserKey.take 10) with
  | .ok key => (mainRun exY (.fetch key [47, 116]) w).2.2
  | _ => w
/-- The world after `insert`. -/
def exInserted (w : World) (p : Path) : World := (mainRun exX (.insert p) w).2.2

/-- `a` and `d/x` inserted, fetched to `/t` and inserted from there: the key is the same -/
example : (match exPrinted exI sDot with
    | some k => exPrinted (exFetchT exI2 k) [47, 116] == some k
    | none => false) = true := by decide +kernel

/-- with the entries of `/t` listed in another order, it is not, -/
def exBackwards (fs : Fs) : Fs := { fs with ents := fs.ents.filter (fun e => e.1 != [[116], [97]]) ++ fs.ents.filter fun e => e.1 == [[116], [97]] }
example : (match exPrinted exI sDot with
    | some k =>
      let v := withFs (exFetchT exI2 k) (exBackwards (exFetchT exI2 k).fs)
      (match exPrinted v [47, 116] with
      | some k' => k' != k && (match walkItems (exI2.dbs exQ) 9 k, walkItems ((exInserted v [47, 116]).dbs exQ) 9 k' with
        | .ok (m : List (Path × Key × Bool)), .ok (m' : List (Path × Key × Bool)) =>
          -- but the two files have the same keys
          m.length == 3 && m'.length == 3 && (m.filter fun e => !e.2.2).all (fun e => m'.contains e) && (m.filter fun e => !e.2.2).length == 2
        | _, _ => false)
      | none => false)
    | none => false) = true := by decide +kernel

/-- with `d` empty, `d` is not fetched and the key is another one; from then on it stays the same -/
example : (match exPrinted exW1 sDot with
    | some k =>
      let v := exFetchT (exInserted exW1 sDot) k
      (match exPrinted v [47, 116] with
      | some k' => k' != k && v.fs.at [[116], [100]] == none &&
        (match Keyish.fromStr (k'.asUserKey.take 10) with
        | .ok key => exPrinted (mainRun exY (.fetch key [47, 117]) (exInserted v [47, 116])).2.2 [47, 117] == some k'
        | _ => false)
      | none => false)
    | none => false) = true := by decide +kernel

theorem exI_read (rel : List Bytes) (c : Bytes) (hv : VisFile exI.fs (makeFilter exX.glob exR.folder) sDot rel c) : FullyRead exX.E (joins sDot rel) c := by
  have hc : c = [1, 2] ∨ c = [3] := by
    obtain ⟨md, h⟩ := content_some.mp hv.2
    have h' : exNow.at (loc exNow.cwd sDot ++ rel) = some (.file c md) := h
    unfold Fs.at at h'
    split at h'
    · simp at h'
    · rw [Option.map_eq_some_iff] at h'
      obtain ⟨e, he, h2⟩ := h'
      have hm := List.mem_of_find?_eq_some he
      simp only [exNow, List.mem_cons, List.not_mem_nil, or_false] at hm
      rcases hm with rfl | rfl | rfl | rfl | rfl <;> simp at h2
      · exact .inl h2.1.symm
      · exact .inr h2.1.symm
  rcases hc with rfl | rfl <;> exact fullyRead_short (by decide)

/-- every directory of `exNow` leads to a file -/
example : Spec.Filled exNow (makeFilter exX.glob exR.folder) sDot := by
  intro rel hv hd
  have hx : rel = [] ∨ rel = [[100]] ∨ rel = [[98]] := by
    have h' : exNow.at ([[115]] ++ rel) = some .dir := hd
    unfold Fs.at at h'
    rw [if_neg (by simp), Option.map_eq_some_iff] at h'
    obtain ⟨e, he, h2⟩ := h'
    have hm := List.mem_of_find?_eq_some he
    have hq := List.find?_some he
    simp only [exNow, List.mem_cons, List.not_mem_nil, or_false] at hm
    rcases hm with rfl | rfl | rfl | rfl | rfl <;> simp at hq h2
    · exact .inl hq
    · exact .inr (.inl hq.symm)
    · exact .inr (.inr hq.symm)
  rcases hx with rfl | rfl | rfl
  · exact ⟨[[97]], [1, 2], visible_cons.mpr ⟨by decide +kernel, visible_nil _ _ _⟩, by decide +kernel⟩
  · exact ⟨[[120]], [3], visible_cons.mpr ⟨by decide +kernel, visible_cons.mpr ⟨by decide +kernel, visible_nil _ _ _⟩⟩, by decide +kernel⟩
  · exact absurd (visible_cons.mp hv).1 (by decide +kernel)

example := C103_again exX sDot exI exReach2' exNow_wf exR exQ exIComm (noColl_of (by decide +kernel)) exI_read

end Snap.Props
