import Verif.Props.Checks
/-! Concrete cases for C105: texts, contents and changes that meet the hypotheses, and checks that do fail elsewhere. -/
namespace Snap.Props
open Snap

/-- "é/ü": the slash stands between two characters of two bytes. -/
example : utf8 [195, 169, 47, 195, 188] = true ∧ Checked.fromStr [195, 169, 47, 195, 188] = .ok (.reflog [195, 169, 47, 195, 188] (some [195, 169]) [195, 188]) := by decide +kernel
example : Checked.fromStr [195, 169, 47, 195, 188] = Keyish.fromStr [195, 169, 47, 195, 188] := C105_parse _ (by decide +kernel) (by decide)
/-- Cutting elsewhere is a panic. -/
example : Checked.strSlice [195, 169, 47] 0 1 = .panic ∧ Checked.strSlice [195, 169, 47] 1 3 = .panic ∧ Checked.strSlice [195, 169, 47] 0 4 = .panic := by decide +kernel

/-- A table with 31 digits would not do. -/
example : Checked.index (table32.take 31) (popU5 [true, true, true, true, true]).1 = .panic := by decide +kernel
example : Checked.toBase32 [255] = .ok [55, 52] ∧ Checked.fromBase32 [55, 52] 8 = .ok [true, true, true, true, true, true, true, true] := by decide +kernel
/-- The text accepted may have capital letters, the digit looked up never is one. -/
example : Checked.fromBase32 [81, 113] 10 = fromBase32 [81, 113] 10 := (C105_base32 _ _).2

def chKey : Key := ⟨List.replicate 32 7, by decide⟩
example : Checked.shortKey chKey = .ok [98, 97, 52, 100, 113, 111, 98, 121] := by decide +kernel
example : Checked.fromDbKey [] = .err .emptyDbKey ∧ Checked.fromDbKey [1, 2] = .err (.incorrectLength 1) := by decide +kernel

/-- Contents that arrive in two reads. -/
example (table : UInt8 → BitVec 64) (H : Bytes → Key) : Checked.putData table H [.data [1, 2], .interrupted, .data [3]] = putData table H [.data [1, 2], .interrupted, .data [3]] :=
  C105_store table H _ (by simp)
/-- A fifth level would be out of bounds. -/
example (H : Bytes → Key) (kb : KeyBufs) (db : Db) : Checked.cascade H 0 [5] kb db = (.panic, db) := rfl
/-- The assertion is about hashes with too few zeros. -/
example : Checked.assert (leadingZeros 0xffffffffffffffff#64 ≥ blobZeroCount ∨ 5 = blobMax) = .panic := by decide +kernel

example : Checked.hunksOf [.same [97], .rem [98], .add [99, 10, 100]] = .ok [⟨1, 2, 1, 2, [.same [97], .rem [98], .add [99], .add [100]]⟩] := by decide +kernel
example : Checked.hunksOf [.same [97], .rem [98], .add [99, 10, 100]] = hunksOf [.same [97], .rem [98], .add [99, 10, 100]] := (C105_patch _ (by decide +kernel)).1
/-- A counter that is full already overflows. -/
example : Checked.number (2 ^ 64 - 1) 1 [.rem []] = .panic := by decide +kernel

end Snap.Props
