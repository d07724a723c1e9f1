import Verif.Model.Key
/-! Model of src/keyish.rs. -/
namespace Snap

/-- `enum Keyish`; src/keyish.rs:6-21. -/
inductive Keyish where
  | range (s : Bytes) (start : Bytes) (stop : Option Bytes)
  | key (s : Bytes) (k : Bytes)
  | reflog (orig : Bytes) (remote : Option Bytes) (keyname : Bytes)
  deriving DecidableEq, Repr

/-- One position of bitvec 0.17's longhand addition, least significant bit first: sum bits and the final carry
(`impl AddAssign for BitVec`, used at src/keyish.rs:108). `a` is the reversed left operand, `b` the reversed right operand,
zero-extended. -/
def addRev : Bits → Bits → Bool → Bits
  | [], _, c => if c then [true] else []
  | a :: as, [], c => (a ^^ c) :: addRev as [] (a && c)
  | a :: as, b :: bs, c => ((a ^^ b) ^^ c) :: addRev as bs ((a && b) || (a && c) || (b && c))

/-- `end += bitvec![Msb0, u8; 1]`; src/keyish.rs:106-108: `BitVec` addition of the one-bit vector `1`, right-aligned. (bitvec swaps the operands
when the right one is longer; here it has one bit and the left one at least one, as `all()` is true of the empty vector.) -/
def incBits (x : Bits) : Bits := (addRev x.reverse [true] false).reverse

/-- `parse_from_ref`; src/keyish.rs:45-66. `idx` is the position of the first '/' (47). -/
def parseFromRef (s : Bytes) : Res Keyish :=
  match s.findIdx? (· == 47) with
  | none => .panic
  | some idx =>
    if idx = 0 then .ok (.reflog s none (s.drop 1))
    else .ok (.reflog s (some (s.take idx)) (s.drop (idx + 1)))

/-- `str::is_ascii`; src/keyish.rs:68-118. -/
def isAscii (s : Bytes) : Bool := s.all (· < 128)

/-- `parse_from_base32`; src/keyish.rs:68-118. `s.get(1..)` is `None` only for the empty string. -/
def parseFromBase32 (s : Bytes) : Res Keyish :=
  if !isAscii s then .err (.keyishInvalid s)
  else match s with
  | [] => .err .keyishEmpty
  | pfx :: bytes =>
    if pfx = 98 then
      let maxLen := 32 * 8
      match fromBase32 bytes maxLen with
      | .ok input =>
        if input.length = maxLen then .ok (.key s (1 :: intoVec input))
        else
          let didOverflow := input.all id
          let retStart := 1 :: intoVec input
          let retEnd := if didOverflow then none else some (1 :: intoVec (incBits input))
          .ok (.range s retStart retEnd)
      | _ => .err (.keyishInvalid s)
    else .err (.keyishUnknownPrefix pfx)

/-- `impl FromStr for Keyish`; src/keyish.rs:38-43. -/
def Keyish.fromStr (s : Bytes) : Res Keyish :=
  if s.contains 47 then parseFromRef s else parseFromBase32 s

end Snap
