import Verif.Model.Ds
/-!
Model of src/file.rs. Parameters: the hash `H` and the gear table `table` (`gearhash::DEFAULT_TABLE`).
-/
namespace Snap
variable [Serde]

/-- What one call of `Read::read` does (src/file.rs:72). End of the list: end of file. `data []` is `Ok(0)`, i.e. end of file as well. -/
inductive ReadEv where
  | data (d : Bytes)
  | interrupted
  | error
  deriving DecidableEq, Repr

/-- `BLOB_ZERO_COUNT` = 13, src/file.rs:157. -/
def blobZeroCount : Nat := 13
/-- `BLOB_ZERO_COUNT_MAX` = 15, src/file.rs:158. -/
def blobZeroCountMax : Nat := blobZeroCount + 2
/-- `1 << BLOB_ZERO_COUNT_MAX` = 32768, src/file.rs:29,45. -/
def blobMax : Nat := 2 ^ blobZeroCountMax
/-- `BLOB_ZERO_COUNT_BITMASK = !((1 << (64 - 13)) - 1)`: the top 13 bits, src/file.rs:160. -/
def blobMask : BitVec 64 := ~~~((1#64 <<< (64 - blobZeroCount)) - 1#64)
/-- `PER_LEVEL_COUNT` = 7, src/file.rs:162. -/
def perLevelCount : Nat := 7
/-- `1 << PER_LEVEL_COUNT_MAX` = 512, src/file.rs:53,163. -/
def perLevelMax : Nat := 2 ^ (perLevelCount + 2)

/-- One step of gearhash 0.1: `hash = (hash << 1) + table[byte]` (wrapping); called at src/file.rs:27. -/
def gearStep (table : UInt8 → BitVec 64) (h : BitVec 64) (b : UInt8) : BitVec 64 := (h <<< 1) + table b

/-- `gearhash::Hasher::next_match`, called at src/file.rs:27: position after the first byte whose hash has the mask bits zero; the hash stops there, or at the
end if there is no match. -/
def nextMatch (table : UInt8 → BitVec 64) (mask : BitVec 64) : BitVec 64 → Bytes → Option Nat × BitVec 64
  | h, [] => (none, h)
  | h, b :: bs =>
    let h' := gearStep table h b
    if h' &&& mask = 0#64 then (some 1, h')
    else
      match nextMatch table mask h' bs with
      | (some n, h'') => (some (n + 1), h'')
      | (none, h'') => (none, h'')

/-- `u64::leading_zeros`; src/file.rs:41. -/
def leadingZeros (h : BitVec 64) : Nat := if h.toNat = 0 then 64 else 63 - Nat.log2 h.toNat

/-- `key_bufs: [Vec<Key>; 5]`; src/file.rs:17 (only indices 0..4 are used). -/
abbrev KeyBufs := Nat → List Key

/-- `key_bufs[i] = v`; src/file.rs:50-65. -/
def KeyBufs.set (kb : KeyBufs) (i : Nat) (v : List Key) : KeyBufs := fun j => if j = i then v else kb j

/-- An object holding file bytes; src/file.rs:46,91,95. -/
def blobObj (d : Bytes) : Object := ⟨d, [], .fileBlob⟩
/-- An object holding keys; src/file.rs:55-59,100,111. -/
def treeObj (ks : List Key) : Object := ⟨[], ks, .fileBlobTree⟩

/-- The `for offset in 0..4 { … break }` loop; src/file.rs:50-65. The list holds the offsets still to do. -/
def cascade (H : Bytes → Key) (zeros : Nat) : List Nat → KeyBufs → M KeyBufs
  | [], kb => pure kb
  | o :: os, kb =>
    if zeros > blobZeroCount + (o + 1) * perLevelCount ∨ (kb o).length ≥ perLevelMax then do
      let key ← putObj H (treeObj (kb o))
      cascade H zeros os ((kb.set o []).set (o + 1) (kb (o + 1) ++ [key]))
    else pure kb

/-- Storing a finished chunk and promoting full levels; src/file.rs:45-66. Returns the key buffers and the new `current_chunk`. -/
def emitChunk (H : Bytes → Key) (zeros : Nat) (cur : Bytes) (kb : KeyBufs) : M (KeyBufs × Bytes) :=
  if cur.length ≥ blobMax then do
    let key ← putObj H (blobObj cur)
    let kb ← cascade H zeros [0, 1, 2, 3] (kb.set 0 (kb 0 ++ [key]))
    pure (kb, [])
  else pure (kb, cur)

/-- The block computing `m`; src/file.rs:26-35. -/
def boundary (table : UInt8 → BitVec 64) (h : BitVec 64) (buf : Bytes) : Option Nat × BitVec 64 :=
  let (m, h') := nextMatch table blobMask h buf
  if buf.length > blobMax then (some blobMax, h') else (m, h')

/-- The iterations of `loop` up to and including the clearing of `chunk_buffer` before the next read; src/file.rs:25-70. The guard of the
`if` always holds (otherwise Rust would panic on the slice or loop forever). -/
def feed (table : UInt8 → BitVec 64) (H : Bytes → Key) (h : BitVec 64) (buf cur : Bytes) (kb : KeyBufs) :
    M (BitVec 64 × Bytes × KeyBufs) :=
  match boundary table h buf with
  | (some b, h') =>
    if _hb : 0 < b ∧ b ≤ buf.length then do
      let (kb, cur) ← emitChunk H (leadingZeros h') (cur ++ buf.take b) kb
      feed table H h' (buf.drop b) cur kb
    else SM.panic
  | (none, h') => pure (h', cur ++ buf, kb)
termination_by buf.length
decreasing_by simp; omega

/-- The whole `loop`; src/file.rs:25-85. -/
def putLoop (table : UInt8 → BitVec 64) (H : Bytes → Key) (h : BitVec 64) (buf cur : Bytes) (kb : KeyBufs) :
    List ReadEv → M (Bytes × KeyBufs)
  | [] => do
    let (_, cur, kb) ← feed table H h buf cur kb
    pure (cur, kb)
  | ev :: evs => do
    let (h, cur, kb) ← feed table H h buf cur kb
    match ev with
    | .data d => if d = [] then pure (cur, kb) else putLoop table H h d cur kb evs
    | .interrupted => putLoop table H h [] cur kb evs
    | .error => SM.throw .io

/-- The final `for offset in 0..4` and the last node; src/file.rs:99-111. -/
def finishTree (H : Bytes → Key) : List Nat → KeyBufs → M Key
  | [], kb => putObj H (treeObj (kb 4))
  | o :: os, kb => do
    let key ← putObj H (treeObj (kb o))
    if (kb o).length = 1 ∧ os.all (fun x => (kb x).isEmpty) then
      match (kb o).getLast? with
      | some k => pure k
      | none => SM.panic
    else finishTree H os (kb.set (o + 1) (kb (o + 1) ++ [key]))

/-- After the loop; src/file.rs:87-112. (`chunk_buffer` is empty here.) -/
def putFinish (H : Bytes → Key) (cur : Bytes) (kb : KeyBufs) : M Key :=
  if [0, 1, 2, 3].all (fun x => (kb x).isEmpty) then putObj H (blobObj cur)
  else do
    let kb ← (if cur.isEmpty then pure kb else do
      let key ← putObj H (blobObj cur)
      pure (kb.set 0 (kb 0 ++ [key])))
    finishTree H [0, 1, 2, 3] kb

/-- `put_data`; src/file.rs:16-112. -/
def putData (table : UInt8 → BitVec 64) (H : Bytes → Key) (evs : List ReadEv) : M Key := do
  let (cur, kb) ← putLoop table H 0#64 [] [] (fun _ => []) evs
  putFinish H cur kb

/-- `read_data`, writing with `sink`; src/file.rs:123-155. `fuel` bounds the recursion depth (Rust has no bound but its stack). -/
def readDataTo {σ : Type} (db : Db) (sink : Bytes → SM σ Unit) : Nat → Key → SM σ Unit
  | 0, _ => fun s => (.fuel, s)
  | fuel + 1, key => do
    let obj ← SM.lift (getObj db key)
    match obj.objtype with
    | .fileBlobTree => SM.each (readDataTo db sink fuel) obj.keys
    | .fileBlob => sink obj.data
    | .fsItemFile =>
      match obj.keys with
      | [k] => readDataTo db sink fuel k
      | _ => SM.panic
    | _ => SM.panic

/-- `read_data` writing to an in-memory sink (`Vec<u8>`); the state is what has been written; src/file.rs:123-155, called so at src/diff.rs:294,339. -/
def readData (db : Db) : Nat → Key → SM Bytes Unit := readDataTo db (fun d => SM.modify (· ++ d))

end Snap
