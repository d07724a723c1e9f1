import Verif.Model.Ds
/-! Model of src/cache.rs. -/
namespace Snap

/-- `struct CacheKey`; src/cache.rs:8-13. `mtime` is an `i64`, given by its bits. -/
structure CacheKey where
  inode : BitVec 64
  mtime : BitVec 64
  size : BitVec 64
  deriving DecidableEq, Repr

/-- `to_le_bytes`, `w` bytes; src/cache.rs:48-50. -/
def leBytes : Nat → Nat → Bytes
  | 0, _ => []
  | w + 1, n => UInt8.ofNat n :: leBytes w (n / 256)

/-- The bytes under which an entry is stored; src/cache.rs:47-50,64-68. -/
def CacheKey.bytes (k : CacheKey) : Bytes :=
  leBytes 8 k.inode.toNat ++ (leBytes 8 k.mtime.toNat ++ leBytes 8 k.size.toNat)

/-- Table `cache`, src/cache.rs:97-102, with an oracle for failing writes. -/
structure Cache where
  rows : List (Bytes × Bytes) := []
  faults : List Bool := []
  deriving Repr

/-- `Cache::get`; src/cache.rs:46-61,129-138. -/
def Cache.get (c : Cache) (k : CacheKey) : Res (Option Key) :=
  match assoc c.rows k.bytes with
  | some v => do
    let key ← fromDbKey v
    pure (some key)
  | none => .ok none

/-- `Cache::put`: `INSERT OR IGNORE`; src/cache.rs:63-73,140-149. -/
def Cache.put (k : CacheKey) (v : Key) : SM Cache Unit := fun c =>
  match c.faults with
  | true :: fs => (.err .sqlite, { c with faults := fs })
  | _ => (.ok (), { rows := insertIgnore c.rows k.bytes v.asDbKey, faults := c.faults.tail })

end Snap
