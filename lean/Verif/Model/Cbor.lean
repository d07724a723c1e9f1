import Verif.Model.Basic
/-!
Model of the part of CBOR that serde_cbor 0.11 produces for the types of this crate, and of the corresponding decoder.
The crate calls it at src/ds/mod.rs:292-303 (`from_slice`, `to_vec`), src/dir.rs:33-62, src/commit.rs:61-93.
Only definite-length integers, byte strings, text strings, arrays and maps are represented (nothing else is ever produced); on other input (floats, tags,
indefinite lengths, null, booleans) the model's decoder fails where serde_cbor might accept, so statements about foreign bytes are limited to
this subset.
-/
namespace Snap

/-- CBOR data items; a map is its flattened key/value sequence; src/object.rs:4-9, src/dir.rs:16-29, src/commit.rs:22-26 are what is encoded. -/
inductive Cbor where
  | uint (n : Nat)
  | nint (n : Nat)
  | bytes (b : Bytes)
  | text (b : Bytes)
  | array (l : List Cbor)
  | map (l : List Cbor)
  deriving Repr

/-- Big-endian bytes of `n`, `w` of them (`u16/u32/u64::to_be_bytes`); serde_cbor, called at src/ds/mod.rs:300. -/
def beBytes : Nat → Nat → Bytes
  | 0, _ => []
  | w + 1, n => UInt8.ofNat (n / 256 ^ w) :: beBytes w n

/-- Value of big-endian bytes; serde_cbor, called at src/ds/mod.rs:296. -/
def beVal (b : Bytes) : Nat := b.foldl (fun a x => 256 * a + x.toNat) 0

/-- serde_cbor's `write_u64` (minimal length header): major type `m` (0..7) and argument `n`; called at src/ds/mod.rs:300. -/
def cborHdr (m n : Nat) : Bytes :=
  if n < 24 then [UInt8.ofNat (m * 32 + n)]
  else if n < 2 ^ 8 then UInt8.ofNat (m * 32 + 24) :: beBytes 1 n
  else if n < 2 ^ 16 then UInt8.ofNat (m * 32 + 25) :: beBytes 2 n
  else if n < 2 ^ 32 then UInt8.ofNat (m * 32 + 26) :: beBytes 4 n
  else UInt8.ofNat (m * 32 + 27) :: beBytes 8 n

mutual
/-- `serde_cbor::to_vec` on the data model above; src/ds/mod.rs:300, src/dir.rs:37. -/
def Cbor.enc : Cbor → Bytes
  | .uint n => cborHdr 0 n
  | .nint n => cborHdr 1 n
  | .bytes b => cborHdr 2 b.length ++ b
  | .text b => cborHdr 3 b.length ++ b
  | .array l => cborHdr 4 l.length ++ Cbor.encList l
  | .map l => cborHdr 5 (l.length / 2) ++ Cbor.encList l
/-- Elements one after the other; src/ds/mod.rs:300. -/
def Cbor.encList : List Cbor → Bytes
  | [] => []
  | c :: l => c.enc ++ Cbor.encList l
end

/-- `std::str::from_utf8` succeeds: well-formed UTF-8 (Unicode table 3-7); src/ds/mod.rs:222, and inside serde_cbor at src/ds/mod.rs:296. -/
def utf8 : Bytes → Bool
  | [] => true
  | a :: r =>
    if a < 0x80 then utf8 r
    else if 0xc2 ≤ a ∧ a ≤ 0xdf then
      match r with
      | b :: r => (0x80 ≤ b && b ≤ 0xbf) && utf8 r
      | _ => false
    else if 0xe0 ≤ a ∧ a ≤ 0xef then
      match r with
      | b :: c :: r =>
        ((if a = 0xe0 then (0xa0 : UInt8) else 0x80) ≤ b && b ≤ (if a = 0xed then (0x9f : UInt8) else 0xbf))
          && (0x80 ≤ c && c ≤ 0xbf) && utf8 r
      | _ => false
    else if 0xf0 ≤ a ∧ a ≤ 0xf4 then
      match r with
      | b :: c :: d :: r =>
        ((if a = 0xf0 then (0x90 : UInt8) else 0x80) ≤ b && b ≤ (if a = 0xf4 then (0x8f : UInt8) else 0xbf))
          && (0x80 ≤ c && c ≤ 0xbf) && (0x80 ≤ d && d ≤ 0xbf) && utf8 r
      | _ => false
    else false

mutual
/-- Values that exist in Rust: lengths and integers fit 64 bits, text is a `str`. (Encoding anything else is an error in the model; such values cannot occur
in the program because a `Vec` has fewer than 2^63 elements.); src/ds/mod.rs:300. -/
def Cbor.wf : Cbor → Bool
  | .uint n => n < 2 ^ 64
  | .nint n => n < 2 ^ 64
  | .bytes b => b.length < 2 ^ 64
  | .text b => b.length < 2 ^ 64 && utf8 b
  | .array l => l.length < 2 ^ 64 && Cbor.wfList l
  | .map l => l.length % 2 == 0 && l.length / 2 < 2 ^ 64 && Cbor.wfList l
/-- All elements are; src/ds/mod.rs:300. -/
def Cbor.wfList : List Cbor → Bool
  | [] => true
  | c :: l => c.wf && Cbor.wfList l
end

mutual
/-- Nesting depth: 1 for scalars, 2 for an empty array or map; the decoder called at src/ds/mod.rs:296 has a limit for it. -/
def Cbor.depth : Cbor → Nat
  | .uint _ => 1
  | .nint _ => 1
  | .bytes _ => 1
  | .text _ => 1
  | .array l => max 1 (Cbor.depthList l) + 1
  | .map l => max 1 (Cbor.depthList l) + 1
/-- The greatest depth of the elements; src/ds/mod.rs:296. -/
def Cbor.depthList : List Cbor → Nat
  | [] => 0
  | c :: l => max c.depth (Cbor.depthList l)
end

/-- Decoder: header `initial byte` and argument; `none` for reserved or indefinite lengths and for truncated input; src/ds/mod.rs:296. -/
def parseHdr : Bytes → Option (Nat × Nat × Bytes)
  | [] => none
  | b :: r =>
    let m := b.toNat / 32
    let a := b.toNat % 32
    let w := if a = 24 then 1 else if a = 25 then 2 else if a = 26 then 4 else if a = 27 then 8 else 0
    if a < 24 then some (m, a, r)
    else if w = 0 then none
    else if r.length < w then none
    else some (m, beVal (r.take w), r.drop w)

/-- `n` items one after the other; src/ds/mod.rs:296. -/
def parseSeq (p : Bytes → Option (Cbor × Bytes)) : Nat → Bytes → Option (List Cbor × Bytes)
  | 0, b => some ([], b)
  | n + 1, b =>
    match p b with
    | none => none
    | some (c, b) =>
      match parseSeq p n b with
      | none => none
      | some (l, b) => some (c :: l, b)

/-- `serde_cbor::de` reading one item; `fuel` is its recursion limit (`remaining_depth`, 128): entering an array or map lowers it by one and fails at zero; src/ds/mod.rs:296. -/
def parseItem : Nat → Bytes → Option (Cbor × Bytes)
  | 0, _ => none
  | fuel + 1, b =>
    match parseHdr b with
    | none => none
    | some (m, n, r) =>
      if m = 0 then some (.uint n, r)
      else if m = 1 then some (.nint n, r)
      else if m = 2 then if r.length < n then none else some (.bytes (r.take n), r.drop n)
      else if m = 3 then
        if r.length < n then none
        else if utf8 (r.take n) then some (.text (r.take n), r.drop n) else none
      else if fuel = 0 then none
      else if m = 4 then (parseSeq (parseItem fuel) n r).map fun (l, r) => (.array l, r)
      else if m = 5 then (parseSeq (parseItem fuel) (2 * n) r).map fun (l, r) => (.map l, r)
      else none

/-- `serde_cbor::from_slice` up to the typed layer: one item, nothing after it (`TrailingData`); src/ds/mod.rs:296, src/dir.rs:56. -/
def Cbor.parse (b : Bytes) : Res Cbor :=
  match parseItem 128 b with
  | some (c, []) => .ok c
  | _ => .err .decode

/-- Values of the entries of a map whose key is the text `name`, in order (serde's derived struct visitors match fields by name); src/object.rs:4-9. -/
def Cbor.field (name : Bytes) : List Cbor → List Cbor
  | .text k :: v :: l => if k = name then v :: Cbor.field name l else Cbor.field name l
  | _ :: _ :: l => Cbor.field name l
  | _ => []

end Snap
