import Verif.Model.Basic
/-! Model of src/base32.rs. -/
namespace Snap

/-- `TABLE = *b"abcdefghijklmnopqrstuvwxyz234567"`; src/base32.rs:62. -/
def table32 : Bytes :=
  [97, 98, 99, 100, 101, 102, 103, 104, 105, 106, 107, 108, 109, 110, 111, 112, 113, 114, 115, 116, 117, 118, 119, 120,
   121, 122, 50, 51, 52, 53, 54, 55]

/-- `pop_u5_from_bitvec`; src/base32.rs:4-23. Missing bits read as 0; then up to five bits are removed from the front. -/
def popU5 (x : Bits) : Nat × Bits :=
  let v := ((x[0]?.getD false).toNat <<< 4) ||| ((x[1]?.getD false).toNat <<< 3) ||| ((x[2]?.getD false).toNat <<< 2)
    ||| ((x[3]?.getD false).toNat <<< 1) ||| ((x[4]?.getD false).toNat <<< 0)
  (v, x.drop 5)

/-- The `while !scratch.is_empty()` loop of `to_base32`; src/base32.rs:91-94. `TABLE[v as usize]` indexes a table of 32 with a
value below 32, so the index panic cannot happen (the `getD` default is never used: lemma `popU5_lt`). -/
def toBase32Loop (scratch : Bits) : Bytes :=
  if _h : scratch = [] then []
  else (table32[(popU5 scratch).1]?.getD 0) :: toBase32Loop (popU5 scratch).2
termination_by scratch.length
decreasing_by
  have : scratch.length ≠ 0 := by simpa using _h
  simp [popU5]; omega

/-- `to_base32`; src/base32.rs:88-97. -/
def toBase32 (x : Bytes) : Bytes := toBase32Loop (fromVec x)

/-- `if (b'A'..=b'Z').contains(&ch) { ch |= 0b0010_0000 }`; src/base32.rs:39-41. -/
def lowerAZ (ch : UInt8) : UInt8 := if 65 ≤ ch ∧ ch ≤ 90 then ch ||| 32 else ch

/-- The five `result.push(idx & 0b..... != 0)`; src/base32.rs:50-54. -/
def pushIdx (idx : Nat) : Bits :=
  [(idx &&& 16) != 0, (idx &&& 8) != 0, (idx &&& 4) != 0, (idx &&& 2) != 0, (idx &&& 1) != 0]

/-- The `for mut ch in x.bytes()` loop of `from_base32`; src/base32.rs:38-55. -/
def fromBase32Loop : Bytes → Bits → Res Bits
  | [], result => .ok result
  | ch0 :: rest, result =>
    let ch := lowerAZ ch0
    match table32.findIdx? (fun x => x == ch) with
    | none => .err (.unknownByte ch)
    | some idx => fromBase32Loop rest (result ++ pushIdx idx)

/-- `from_base32`; src/base32.rs:35-60. -/
def fromBase32 (x : Bytes) (maxLen : Nat) : Res Bits :=
  match fromBase32Loop x [] with
  | .ok r => .ok (r.take maxLen)
  | r => r

end Snap
