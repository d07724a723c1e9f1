import Verif.Model.Diff
/-!
The checks that Rust makes without being told to, where Model/*.lean leaves them out: indexes and slices within bounds, slices of strings between characters, integer
overflow and `debug_assert!` (the last two only in debug builds). A check that fails is a panic. The functions are otherwise those of the files cited there.
-/
namespace Snap.Checked

/-- `debug_assert!`; src/base32.rs:20,48, src/file.rs:43. -/
def assert (p : Prop) [Decidable p] : Res Unit := if p then .ok () else .panic

/-- `l[i]`; src/base32.rs:93, src/key.rs:113. -/
def index {α} (l : List α) (i : Nat) : Res α := match l[i]? with
  | some a => .ok a
  | none => .panic

/-- `&l[i..j]`; src/file.rs:38, src/key.rs:114. -/
def slice {α} (l : List α) (i j : Nat) : Res (List α) := if i ≤ j ∧ j ≤ l.length then .ok ((l.take j).drop i) else .panic

/-- `str::is_char_boundary`: not in the middle of a character; src/keyish.rs:53-58, src/main.rs:604. -/
def charBoundary (s : Bytes) (i : Nat) : Bool := i == 0 || (match s[i]? with
  | some b => !(128 ≤ b && b < 192)
  | none => i == s.length)

/-- `&s[i..j]` of a string; src/keyish.rs:53-58, src/main.rs:604. -/
def strSlice (s : Bytes) (i j : Nat) : Res Bytes :=
  if i ≤ j ∧ charBoundary s i = true ∧ charBoundary s j = true then .ok ((s.take j).drop i) else .panic

/-- Addition of unsigned integers of `w` bits; src/file.rs:52, src/diff.rs:519-541. -/
def add (w a b : Nat) : Res Nat := if a + b < 2 ^ w then .ok (a + b) else .panic

/-- Multiplication of unsigned integers of `w` bits; src/file.rs:52. -/
def mul (w a b : Nat) : Res Nat := if a * b < 2 ^ w then .ok (a * b) else .panic

/-! ### Keys -/

/-- `pop_u5_from_bitvec`; src/base32.rs:4-23. -/
def popU5 (x : Bits) : Res (Nat × Bits) := do
  let r := Snap.popU5 x
  assert (r.1 ≤ 31)
  pure r

/-- The loop of `to_base32`; src/base32.rs:91-94. At most `n` rounds. -/
def toBase32Loop : Nat → Bits → Res Bytes
  | 0, _ => .fuel
  | n + 1, scratch =>
    if scratch = [] then .ok []
    else do
      let r ← popU5 scratch
      let c ← index table32 r.1
      let l ← toBase32Loop n r.2
      pure (c :: l)

/-- `to_base32`; src/base32.rs:88-97. -/
def toBase32 (x : Bytes) : Res Bytes := toBase32Loop (8 * x.length + 1) (fromVec x)

/-- The loop of `from_base32`; src/base32.rs:38-55. -/
def fromBase32Loop : Bytes → Bits → Res Bits
  | [], result => .ok result
  | ch0 :: rest, result =>
    let ch := lowerAZ ch0
    match table32.findIdx? (fun x => x == ch) with
    | none => .err (.unknownByte ch)
    | some idx => do
      assert ((97 ≤ ch ∧ ch ≤ 122) ∨ (48 ≤ ch ∧ ch ≤ 57))
      fromBase32Loop rest (result ++ pushIdx idx)

/-- `from_base32`; src/base32.rs:35-60. -/
def fromBase32 (x : Bytes) (maxLen : Nat) : Res Bits :=
  match fromBase32Loop x [] with
  | .ok r => .ok (r.take maxLen)
  | r => r

/-- `Key::as_user_key`; src/key.rs:145-159. -/
def asUserKey (k : Key) : Res Bytes := do
  let t ← toBase32 k.hash
  pure (98 :: t)

/-- `&k.inner().as_user_key()[0..8]`; src/main.rs:604. -/
def shortKey (k : Key) : Res Bytes := do
  let t ← asUserKey k
  strSlice t 0 8

/-- `Key::from_db_key`; src/key.rs:106-131. -/
def fromDbKey (x : Bytes) : Res Key :=
  if x = [] then .err .emptyDbKey
  else do
    let hashId ← index x 0
    let hashBytes ← slice x 1 x.length
    if hashId = 1 then
      if h : hashBytes.length = 32 then .ok ⟨hashBytes, h⟩
      else .err (.incorrectLength hashBytes.length)
    else .err (.unknownHashId hashId)

/-- `parse_from_ref`; src/keyish.rs:45-66. -/
def parseFromRef (s : Bytes) : Res Keyish :=
  match s.findIdx? (· == 47) with
  | none => .panic
  | some idx =>
    if idx = 0 then do
      let n ← strSlice s 1 s.length
      pure (.reflog s none n)
    else do
      let r ← strSlice s 0 idx
      let i ← add 64 idx 1
      let n ← strSlice s i s.length
      pure (.reflog s (some r) n)

/-- `parse_from_base32`; src/keyish.rs:68-118. `s.get(1..)` is `None` where slicing would be out of bounds. -/
def parseFromBase32 (s : Bytes) : Res Keyish :=
  if !isAscii s then .err (.keyishInvalid s)
  else
    match strSlice s 1 s.length with
    | .ok bytes =>
      match s.head? with
      | some pfx =>
        if pfx = 98 then
          match fromBase32 bytes (32 * 8) with
          | .ok input =>
            if input.length = 32 * 8 then .ok (.key s (1 :: intoVec input))
            else .ok (.range s (1 :: intoVec input) (if input.all id then none else some (1 :: intoVec (incBits input))))
          | .panic => .panic
          | _ => .err (.keyishInvalid s)
        else .err (.keyishUnknownPrefix pfx)
      | none => .err (.keyishInvalid s)
    | _ => .err .keyishEmpty

/-- `impl FromStr for Keyish`; src/keyish.rs:38-43. -/
def fromStr (s : Bytes) : Res Keyish := if s.contains 47 then parseFromRef s else parseFromBase32 s

/-! ### Storing contents -/

/-- `key_bufs[i]`, one of five; src/file.rs:17,51-62,97-108. -/
def bufAt (kb : KeyBufs) (i : Nat) : Res (List Key) := if i < 5 then .ok (kb i) else .panic

/-- `BLOB_ZERO_COUNT + (offset + 1) * PER_LEVEL_COUNT` in `u32`; src/file.rs:52. -/
def threshold (o : Nat) : Res Nat := do
  let a ← add 32 o 1
  let b ← mul 32 a perLevelCount
  add 32 blobZeroCount b

/-- The loop over the levels; src/file.rs:50-65. -/
def cascade (H : Bytes → Key) (zeros : Nat) : List Nat → KeyBufs → M KeyBufs
  | [], kb => pure kb
  | o :: os, kb => do
    let l ← SM.lift (bufAt kb o)
    let t ← SM.lift (threshold o)
    if zeros > t ∨ l.length ≥ perLevelMax then do
      let key ← putObj H (treeObj l)
      let i ← SM.lift (add 64 o 1)
      let l' ← SM.lift (bufAt kb i)
      cascade H zeros os ((kb.set o []).set i (l' ++ [key]))
    else pure kb

/-- Storing a finished chunk; src/file.rs:45-66. -/
def emitChunk (H : Bytes → Key) (zeros : Nat) (cur : Bytes) (kb : KeyBufs) : M (KeyBufs × Bytes) :=
  if cur.length ≥ blobMax then do
    let key ← putObj H (blobObj cur)
    let l ← SM.lift (bufAt kb 0)
    let kb ← cascade H zeros [0, 1, 2, 3] (kb.set 0 (l ++ [key]))
    pure (kb, [])
  else pure (kb, cur)

/-- The iterations of `loop` between two reads; src/file.rs:25-70. At most `n`. -/
def feed (table : UInt8 → BitVec 64) (H : Bytes → Key) : Nat → BitVec 64 → Bytes → Bytes → KeyBufs → M (BitVec 64 × Bytes × KeyBufs)
  | 0, _, _, _, _ => SM.lift .fuel
  | n + 1, h, buf, cur, kb =>
    match boundary table h buf with
    | (some b, h') => do
      let s ← SM.lift (slice buf 0 b)
      let rest ← SM.lift (slice buf b buf.length)
      SM.lift (assert (leadingZeros h' ≥ blobZeroCount ∨ b = blobMax))
      let (kb, cur) ← emitChunk H (leadingZeros h') (cur ++ s) kb
      feed table H n h' rest cur kb
    | (none, h') => pure (h', cur ++ buf, kb)

/-- The whole `loop`; src/file.rs:25-85. `read_buffer` has 65536 bytes. -/
def putLoop (table : UInt8 → BitVec 64) (H : Bytes → Key) (h : BitVec 64) (buf cur : Bytes) (kb : KeyBufs) :
    List ReadEv → M (Bytes × KeyBufs)
  | [] => do
    let (_, cur, kb) ← feed table H (buf.length + 1) h buf cur kb
    pure (cur, kb)
  | ev :: evs => do
    let (h, cur, kb) ← feed table H (buf.length + 1) h buf cur kb
    match ev with
    | .data d => do
      SM.lift (assert (d.length ≤ 65536))
      if d = [] then pure (cur, kb) else putLoop table H h d cur kb evs
    | .interrupted => putLoop table H h [] cur kb evs
    | .error => SM.throw .io

/-- The final loop; src/file.rs:99-111. -/
def finishTree (H : Bytes → Key) : List Nat → KeyBufs → M Key
  | [], kb => do
    let l ← SM.lift (bufAt kb 4)
    putObj H (treeObj l)
  | o :: os, kb => do
    let l ← SM.lift (bufAt kb o)
    let key ← putObj H (treeObj l)
    if l.length = 1 ∧ os.all (fun x => (kb x).isEmpty) then
      match l.getLast? with
      | some k => pure k
      | none => SM.panic
    else do
      let i ← SM.lift (add 64 o 1)
      let l' ← SM.lift (bufAt kb i)
      finishTree H os (kb.set i (l' ++ [key]))

/-- After the loop; src/file.rs:87-112. -/
def putFinish (H : Bytes → Key) (cur : Bytes) (kb : KeyBufs) : M Key :=
  if [0, 1, 2, 3].all (fun x => (kb x).isEmpty) then putObj H (blobObj cur)
  else do
    let kb ← (if cur.isEmpty then pure kb else do
      let key ← putObj H (blobObj cur)
      let l ← SM.lift (bufAt kb 0)
      pure (kb.set 0 (l ++ [key])))
    finishTree H [0, 1, 2, 3] kb

/-- `put_data`; src/file.rs:16-112. -/
def putData (table : UInt8 → BitVec 64) (H : Bytes → Key) (evs : List ReadEv) : M Key := do
  let (cur, kb) ← putLoop table H 0#64 [] [] (fun _ => []) evs
  putFinish H cur kb

/-! ### Patches -/

/-- Numbering the lines with two counters of 64 bits; src/diff.rs:503-547. -/
def number : Nat → Nat → List DLine → Res (List (Nat × Nat × DLine))
  | _, _, [] => .ok []
  | b, a, l :: ls => do
    let b' ← (if l.old then add 64 b 1 else .ok b)
    let a' ← (if l.new then add 64 a 1 else .ok a)
    let r ← number b' a' ls
    pure ((b, a, l) :: r)

/-- The hunks of a list of changes; slices and subtractions are checked in `hunksOf` already; src/diff.rs:503-607. -/
def hunksOf (cs : List Change) : Res (List Hunk) := do
  let l ← number 1 1 (cs.flatMap Change.lines)
  let keyed ← mapRes (keyLine l) (List.range l.length)
  mapRes (fun g => mkHunk (g.2.map (·.2))) ((groupBy (·.1) keyed).filter (·.1))

end Snap.Checked
