import Verif.Model.Base32
/-! Model of src/key.rs. `TypedKey<T>` is a `Key` with a phantom type (src/key.rs:10-16) and is modelled by `Key` itself. -/
namespace Snap

/-- `enum Key { Blake3B([u8; 32]) }`; src/key.rs:6-8. -/
structure Key where
  hash : Bytes
  len32 : hash.length = 32
  deriving DecidableEq

/-- `Debug`, src/key.rs:4. -/
instance : Repr Key := ⟨fun k _ => repr k.hash⟩

/-- Derived `Ord` for `Key`/`TypedKey` (src/key.rs:4,35-44): lexicographic order of the 32 bytes. -/
def Key.le (a b : Key) : Bool := decide (a.hash ≤ b.hash)

/-- `Key::hash_id`; src/key.rs:94-98. -/
def Key.hashId (_ : Key) : UInt8 := 1

/-- `Key::from_db_key`; src/key.rs:106-131. -/
def fromDbKey (x : Bytes) : Res Key :=
  match x with
  | [] => .err .emptyDbKey
  | hashId :: hashBytes =>
    if hashId = 1 then
      if h : hashBytes.length = 32 then .ok ⟨hashBytes, h⟩
      else .err (.incorrectLength hashBytes.length)
    else .err (.unknownHashId hashId)

/-- `Key::as_db_key`; src/key.rs:133-143. -/
def Key.asDbKey (k : Key) : Bytes := k.hashId :: k.hash

/-- `Key::as_user_key` and `Display`; src/key.rs:145-172. The prefix is `"b"` (98). -/
def Key.asUserKey (k : Key) : Bytes := 98 :: toBase32 k.hash

end Snap
