/-!
Common vocabulary of the model: byte strings, bit strings, results with panics.
-/
namespace Snap

/-- Byte strings (`Vec<u8>`, `&[u8]`). A Rust `String`/`&str` is represented by its UTF-8 bytes; src/base32.rs:88, src/ds/mod.rs:191-216. -/
abbrev Bytes := List UInt8

/-- Bit strings: `bitvec::BitVec<Msb0, u8>`, first bit first; src/base32.rs:4,35,89. -/
abbrev Bits := List Bool

/-- Msb0 bits of one byte, highest bit first (`BitVec<Msb0, u8>` storage order); src/base32.rs:89. -/
def byteBits (b : UInt8) : Bits :=
  [7, 6, 5, 4, 3, 2, 1, 0].map (fun i => b.toNat.testBit i)

/-- `BitVec::<Msb0, u8>::from_vec` (used at src/base32.rs:89). -/
def fromVec (x : Bytes) : Bits := x.flatMap byteBits

/-- Value of a bit string read as a big-endian number; src/base32.rs:5-22. -/
def bitsVal (bs : Bits) : Nat := bs.foldl (fun a b => 2 * a + b.toNat) 0

/-- `BitVec::<Msb0, u8>::into_vec` (src/keyish.rs:90,99,110): groups of eight bits, the last byte padded with zero bits.
bitvec 0.17 returns its backing bytes; the unused bits of the last byte are zero because every byte is zero when it is appended by
`push` and only live bits are ever set. -/
def intoVec (bs : Bits) : Bytes :=
  if _h : bs = [] then []
  else UInt8.ofNat (bitsVal ((bs.take 8) ++ List.replicate (8 - (bs.take 8).length) false)) :: intoVec (bs.drop 8)
termination_by bs.length
decreasing_by
  have : bs.length ≠ 0 := by simpa using _h
  simp; omega

/-- Errors, one constructor per error variant the modelled code can return
(src/base32.rs:26, src/key.rs:78, src/keyish.rs:24, src/ds/mod.rs:19-175, src/dir.rs, src/commit.rs:109, src/main.rs:233-241). Payloads that are only
used for messages are dropped. -/
inductive Err
  | unknownByte (ch : UInt8)        -- FromBase32Error::UnknownByte
  | unknownHashId (id : UInt8)      -- FromDbKeyError::UnknownHashId
  | emptyDbKey                      -- FromDbKeyError::Empty
  | incorrectLength (got : Nat)     -- FromDbKeyError::IncorrectLength
  | keyishInvalid (s : Bytes)       -- KeyishParseError::Invalid
  | keyishUnknownPrefix (c : UInt8) -- KeyishParseError::UnknownPrefix
  | keyishEmpty                     -- KeyishParseError::Empty
  | sqlite                          -- DSError::SqliteError
  | notFound                        -- GetReflogError::NotFound
  | canonNotFound (s : Bytes)       -- CanonicalizeError::NotFound
  | ambiguous (s : Bytes) (keys : List Bytes) -- CanonicalizeError::Ambigious (keys by their hash bytes)
  | decode                          -- serde_cbor decoding error
  | encode                          -- serde_cbor encoding error
  | utf8                            -- FromUtf8Error
  | io                              -- std::io::Error
  | enoent                          -- std::io::Error with kind NotFound
  | unimplementedFileType           -- *Error::UnimplementedFileTypeFound
  | nonFile                         -- HashFsItemError::NonFileError
  | noDatabase                      -- DatabaseNotFoundError
  | noHead                          -- NoHeadError
  | binaryPatch                     -- DiffPatchError::Binary
  deriving DecidableEq, Repr

/-- Outcome of a call: a value, an `Err`, a panic, or "did not return within the recursion depth given to the model"; all of src/*.rs; for example src/ds/mod.rs:250-291. -/
inductive Res (α : Type) where
  | ok (a : α)
  | err (e : Err)
  | panic
  | fuel
  deriving DecidableEq, Repr

namespace Res
/-- `Result::map`; src/main.rs:657. -/
def map {α β} (f : α → β) : Res α → Res β
  | ok a => ok (f a) | err e => err e | panic => panic | fuel => fuel
/-- The `?` operator (panics propagate too); src/dir.rs:86-140. -/
def bind {α β} (r : Res α) (f : α → Res β) : Res β :=
  match r with
  | ok a => f a | err e => err e | panic => panic | fuel => fuel
/-- The `?` operator; src/dir.rs:86-140. -/
instance : Monad Res where
  pure := ok
  bind := Res.bind
/-- `Result::unwrap`/`expect`: an error becomes a panic; src/ds/mod.rs:259, src/display.rs:23. -/
def unwrap {α} : Res α → Res α
  | err _ => panic | r => r
/-- `Result::ok()`; src/main.rs:600. -/
def toOption {α} : Res α → Option α
  | ok a => some a | _ => none
/-- Whether a call succeeded (`if let Err(e) = result`); src/main.rs:788. -/
def isOk {α} : Res α → Bool
  | ok _ => true | _ => false

@[simp] theorem pure_eq {α} (a : α) : (pure a : Res α) = ok a := rfl
@[simp] theorem ok_bind {α β} (a : α) (f : α → Res β) : (ok a >>= f) = f a := rfl
@[simp] theorem err_bind {α β} (e : Err) (f : α → Res β) : ((err e : Res α) >>= f) = err e := rfl
@[simp] theorem panic_bind {α β} (f : α → Res β) : ((panic : Res α) >>= f) = panic := rfl
@[simp] theorem fuel_bind {α β} (f : α → Res β) : ((fuel : Res α) >>= f) = fuel := rfl
@[simp] theorem unwrap_ok {α} (a : α) : (ok a).unwrap = ok a := rfl
@[simp] theorem unwrap_err {α} (e : Err) : (err e : Res α).unwrap = panic := rfl
@[simp] theorem unwrap_panic {α} : (panic : Res α).unwrap = panic := rfl

theorem bind_eq_ok {α β} {r : Res α} {f : α → Res β} {b : β} (h : (r >>= f) = ok b) :
    ∃ a, r = ok a ∧ f a = ok b := by
  cases r <;> simp_all
end Res

end Snap
