import Verif.Model.Basic
/-!
Specification vocabulary used in the property statements. Nothing here refers to the model of the code (only to the types
`Bytes` and `Bits`).
-/
namespace Snap.Spec

/-- The bits of a byte string, most significant bit of each byte first: bit `i` is bit `7 - i % 8` of byte `i / 8`. -/
def bits (x : Bytes) : Bits :=
  (List.range (8 * x.length)).map (fun i => (x[i / 8]?.getD 0).toNat.testBit (7 - i % 8))

/-- The lower-case base32 alphabet: `a`–`z` and `2`–`7`. -/
def IsBase32 (c : UInt8) : Prop := (97 ≤ c ∧ c ≤ 122) ∨ (50 ≤ c ∧ c ≤ 55)
instance (c : UInt8) : Decidable (IsBase32 c) := by unfold IsBase32; infer_instance

/-- ASCII upper case letters. -/
def IsUpper (c : UInt8) : Prop := 65 ≤ c ∧ c ≤ 90
instance (c : UInt8) : Decidable (IsUpper c) := by unfold IsUpper; infer_instance

/-- ASCII lower-casing of one character. -/
def lower (c : UInt8) : UInt8 := if IsUpper c then c + 32 else c

/-- Base32 characters in either case. -/
def IsBase32Ci (c : UInt8) : Prop := IsBase32 c ∨ IsUpper c
instance (c : UInt8) : Decidable (IsBase32Ci c) := by unfold IsBase32Ci; infer_instance

/-- Value of a base32 character in either case: `a` is 0, ..., `z` is 25, `2` is 26, ..., `7` is 31. -/
def val32 (c : UInt8) : Nat := if 50 ≤ c ∧ c ≤ 55 then c.toNat - 50 + 26 else (lower c).toNat - 97

/-- Half-open range of byte strings in lexicographic order, unbounded above if `stop` is `none`. -/
def InRange (start : Bytes) (stop : Option Bytes) (k : Bytes) : Prop :=
  start ≤ k ∧ ∀ e, stop = some e → k < e

end Snap.Spec
