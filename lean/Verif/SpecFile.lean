import Verif.Model.File
/-!
Specification vocabulary for file storage: what a reader delivers, where content-defined cuts are, when the top of the chunk tree overflows.
Only the type `ReadEv` of the model is used.
-/
namespace Snap.Spec

/-- The bytes a reader delivers before end of file or failure. -/
def delivered : List ReadEv → Bytes
  | [] => []
  | .data d :: evs => if d = [] then [] else d ++ delivered evs
  | .interrupted :: evs => delivered evs
  | .error :: _ => []

/-- The reader fails before reaching end of file. -/
def readFails : List ReadEv → Bool
  | [] => false
  | .data d :: evs => if d = [] then false else readFails evs
  | .interrupted :: evs => readFails evs
  | .error :: _ => true

/-- No single read before end of file or failure returns more than 32768 bytes. -/
def smallReads : List ReadEv → Prop
  | [] => True
  | .data d :: evs => d = [] ∨ (d.length ≤ 32768 ∧ smallReads evs)
  | .interrupted :: evs => smallReads evs
  | .error :: _ => True

/-- Gear hash of a byte string, continuing from `h`. -/
def gear (table : UInt8 → BitVec 64) (h : BitVec 64) (bs : Bytes) : BitVec 64 :=
  bs.foldl (fun h b => 2 * h + table b) h

/-- Content-defined chunks: a chunk ends at the first byte at which it has at least 32768 bytes and the gear hash of all bytes so far is below 2^51 (its top 13 bits
are zero). Gives the finished chunks, each with the hash at its end, and the unfinished rest. `cur` is the chunk so far. -/
def cuts (table : UInt8 → BitVec 64) : BitVec 64 → Bytes → Bytes → List (Bytes × BitVec 64) × Bytes
  | _, cur, [] => ([], cur)
  | h, cur, b :: bs =>
    let h' := 2 * h + table b
    let cur' := cur ++ [b]
    if h'.toNat < 2 ^ 51 ∧ 32768 ≤ cur'.length then
      let (cs, rest) := cuts table h' [] bs
      ((cur', h') :: cs, rest)
    else cuts table h' cur' bs

/-- Numbers of nodes waiting on each level after one more node was added on level 0: level `o` is closed, adding a node to level `o + 1`, if it has 512 nodes or the
hash at the cut is below 2^(43 - 7 o). -/
def promote (h : BitVec 64) : List Nat → (Nat → Nat) → Nat → Nat
  | [], n => n
  | o :: os, n =>
    if h.toNat < 2 ^ (43 - 7 * o) ∨ 512 ≤ n o then
      promote h os (fun i => if i = o then 0 else if i = o + 1 then n (o + 1) + 1 else n i)
    else n

/-- Numbers of nodes waiting on levels 0..4 after cuts with the given hashes. -/
def waiting (hs : List (BitVec 64)) : Nat → Nat :=
  hs.foldl (fun n h => promote h [0, 1, 2, 3] (fun i => if i = 0 then n 0 + 1 else n i)) (fun _ => 0)

/-- The top level has nodes and the level below it has none. -/
def Spilled (hs : List (BitVec 64)) : Prop := waiting hs 4 ≠ 0 ∧ waiting hs 3 = 0

end Snap.Spec
