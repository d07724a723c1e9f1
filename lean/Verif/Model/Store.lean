import Verif.Model.Dir
import Verif.Model.Commit
/-!
The trait `DataStore` (src/ds/mod.rs:190-304) with its two implementations, src/ds/sqlite.rs and src/ds/null.rs, and the functions that take any data store
(`ds: &mut impl DataStore`). For the SQLite implementation these are the functions of Ds.lean, File.lean, Dir.lean and Commit.lean (proved in Props/Stores.lean), which the
rest of the model uses directly.
-/
namespace Snap
variable [Serde]

/-- The methods an implementation has to give; src/ds/mod.rs:191-248. `hashing` is a ghost: it notes the bytes hashed (see `Db.hashed`), and does nothing in the code. -/
structure Store (σ : Type) where
  rawGet : σ → Bytes → Res Bytes
  rawPut : Bytes → Bytes → SM σ Unit
  rawExists : σ → Bytes → Res Bool
  rawGetState : σ → Bytes → Res (Option Bytes)
  rawPutState : Bytes → Bytes → SM σ Unit
  reflogPush : Bytes → Option Bytes → Key → SM σ Unit
  reflogGet : σ → Bytes → Option Bytes → Res Key
  reflogWalk : σ → Bytes → Option Bytes → Res (List Key)
  rawBetween : σ → Bytes → Option Bytes → Res (List Bytes)
  hashing : Bytes → σ → σ

/-- `impl DataStore for SqliteDS`; src/ds/sqlite.rs:84-238. -/
def sqliteStore : Store Db where
  rawGet := rawGet
  rawPut := rawPut
  rawExists := rawExists
  rawGetState := rawGetState
  rawPutState := rawPutState
  reflogPush := reflogPush
  reflogGet := reflogGet
  reflogWalk := reflogWalk
  rawBetween := rawBetween
  hashing d db := { db with hashed := d :: db.hashed }

/-- `impl DataStore for NullDS`: writing does nothing, reading is `unimplemented!`; src/ds/null.rs:16-57. -/
def nullStore : Store Unit where
  rawGet _ _ := .panic
  rawPut _ _ := pure ()
  rawExists _ _ := .panic
  rawGetState _ _ := .panic
  rawPutState _ _ := pure ()
  reflogPush _ _ _ := pure ()
  reflogGet _ _ _ := .panic
  reflogWalk _ _ _ := .panic
  rawBetween _ _ _ := .panic
  hashing _ s := s

namespace Store
variable {σ : Type} (S : Store σ)

/-- `get`; src/ds/mod.rs:199-203. -/
def get (s : σ) (k : Key) : Res Bytes := S.rawGet s k.asDbKey

/-- `put`; src/ds/mod.rs:205-216. -/
def put (H : Bytes → Key) (data : Bytes) : SM σ Key := do
  SM.modify (S.hashing data)
  S.rawPut (H data).asDbKey data
  pure (H data)

/-- `get_head`; src/ds/mod.rs:218-225. -/
def getHead (s : σ) : Res (Option Bytes) := do
  match ← S.rawGetState s sHEAD with
  | some b => if utf8 b then .ok (some b) else .err .utf8
  | none => .ok none

/-- `put_head`; src/ds/mod.rs:227-230. -/
def putHead (head : Bytes) : SM σ Unit := S.rawPutState sHEAD head

/-- `canonicalize`; src/ds/mod.rs:250-291. -/
def canonicalize (s : σ) (search : Keyish) : Res Key :=
  let finish (errStr : Bytes) (results : List Bytes) : Res Key :=
    match results with
    | [] => .err (.canonNotFound errStr)
    | [k] => fromDbKey k
    | _ => do
      let strs ← mapRes fromDbKey results
      .err (.ambiguous errStr (strs.map (·.hash)))
  match search with
  | .key e key => do
    let k ← (S.rawGet s key).unwrap
    finish e [k]
  | .range e start stop => do
    let results ← (S.rawBetween s start stop).unwrap
    finish e results
  | .reflog orig remote keyname =>
    match S.reflogGet s keyname remote with
    | .err .notFound => .err (.canonNotFound orig)
    | r => r

/-- `get_obj`; src/ds/mod.rs:293-297. -/
def getObj (s : σ) (k : Key) : Res Object := do
  let data ← S.get s k
  Object.decode data

/-- `put_obj`; src/ds/mod.rs:299-303. -/
def putObj (H : Bytes → Key) (o : Object) : SM σ Key := do
  let data ← SM.lift o.encode
  S.put H data

/-- The loop over the levels; src/file.rs:50-65. -/
def cascade (H : Bytes → Key) (zeros : Nat) : List Nat → KeyBufs → SM σ KeyBufs
  | [], kb => pure kb
  | o :: os, kb =>
    if zeros > blobZeroCount + (o + 1) * perLevelCount ∨ (kb o).length ≥ perLevelMax then do
      let key ← S.putObj H (treeObj (kb o))
      cascade H zeros os ((kb.set o []).set (o + 1) (kb (o + 1) ++ [key]))
    else pure kb

/-- Storing a finished chunk; src/file.rs:45-66. -/
def emitChunk (H : Bytes → Key) (zeros : Nat) (cur : Bytes) (kb : KeyBufs) : SM σ (KeyBufs × Bytes) :=
  if cur.length ≥ blobMax then do
    let key ← S.putObj H (blobObj cur)
    let kb ← S.cascade H zeros [0, 1, 2, 3] (kb.set 0 (kb 0 ++ [key]))
    pure (kb, [])
  else pure (kb, cur)

/-- The iterations of `loop` between two reads; src/file.rs:25-70. -/
def feed (table : UInt8 → BitVec 64) (H : Bytes → Key) (h : BitVec 64) (buf cur : Bytes) (kb : KeyBufs) :
    SM σ (BitVec 64 × Bytes × KeyBufs) :=
  match boundary table h buf with
  | (some b, h') =>
    if _hb : 0 < b ∧ b ≤ buf.length then do
      let (kb, cur) ← S.emitChunk H (leadingZeros h') (cur ++ buf.take b) kb
      feed table H h' (buf.drop b) cur kb
    else SM.panic
  | (none, h') => pure (h', cur ++ buf, kb)
termination_by buf.length
decreasing_by simp; omega

/-- The whole `loop`; src/file.rs:25-85. -/
def putLoop (table : UInt8 → BitVec 64) (H : Bytes → Key) (h : BitVec 64) (buf cur : Bytes) (kb : KeyBufs) :
    List ReadEv → SM σ (Bytes × KeyBufs)
  | [] => do
    let (_, cur, kb) ← S.feed table H h buf cur kb
    pure (cur, kb)
  | ev :: evs => do
    let (h, cur, kb) ← S.feed table H h buf cur kb
    match ev with
    | .data d => if d = [] then pure (cur, kb) else putLoop table H h d cur kb evs
    | .interrupted => putLoop table H h [] cur kb evs
    | .error => SM.throw .io

/-- The final loop and the last node; src/file.rs:99-111. -/
def finishTree (H : Bytes → Key) : List Nat → KeyBufs → SM σ Key
  | [], kb => S.putObj H (treeObj (kb 4))
  | o :: os, kb => do
    let key ← S.putObj H (treeObj (kb o))
    if (kb o).length = 1 ∧ os.all (fun x => (kb x).isEmpty) then
      match (kb o).getLast? with
      | some k => pure k
      | none => SM.panic
    else finishTree H os (kb.set (o + 1) (kb (o + 1) ++ [key]))

/-- After the loop; src/file.rs:87-112. -/
def putFinish (H : Bytes → Key) (cur : Bytes) (kb : KeyBufs) : SM σ Key :=
  if [0, 1, 2, 3].all (fun x => (kb x).isEmpty) then S.putObj H (blobObj cur)
  else do
    let kb ← (if cur.isEmpty then pure kb else do
      let key ← S.putObj H (blobObj cur)
      pure (kb.set 0 (kb 0 ++ [key])))
    S.finishTree H [0, 1, 2, 3] kb

/-- `put_data`; src/file.rs:16-112. -/
def putData (table : UInt8 → BitVec 64) (H : Bytes → Key) (evs : List ReadEv) : SM σ Key := do
  let (cur, kb) ← S.putLoop table H 0#64 [] [] (fun _ => []) evs
  S.putFinish H cur kb

/-- The loop over directory entries; src/dir.rs:94-104. -/
def putEntries (fs : Fs) (filter : Filter) (rec : Path → SM σ Key) (path : Path) : List Bytes → SM σ (List (Bytes × Key))
  | [] => pure []
  | n :: ns => do
    if ← SM.lift (filter fs (Path.join path n)) then do
      let k ← rec (Path.join path n)
      let r ← putEntries fs filter rec path ns
      pure ((n, k) :: r)
    else putEntries fs filter rec path ns

/-- Storing a file; src/dir.rs:121-137. -/
def putFile (E : Env) (path : Path) (content : Bytes) : SM σ Key := do
  let k ← S.putData E.table E.H (E.rd path content)
  let obj ← SM.lift (FsItem.toObject ⟨content.length, .file, [], [k]⟩)
  S.putObj E.H obj

/-- `put_fs_item`; src/dir.rs:81-140. -/
def putFsItem (E : Env) (fs : Fs) (filter : Filter) : Nat → Path → SM σ Key
  | 0, _ => SM.lift .fuel
  | n + 1, path => do
    match ← SM.lift (fs.metadata path) with
    | .dir => do
      let names ← SM.lift (fs.readDir path)
      let r ← putEntries fs filter (putFsItem E fs filter n) path names
      let obj ← SM.lift (FsItem.toObject ⟨r.length, .dir, r.map (·.1), r.map (·.2)⟩)
      S.putObj E.H obj
    | .file c _ => S.putFile E path c
    | _ => SM.panic

/-- `commit_tree`; src/commit.rs:118-137. -/
def commitTree (H : Bytes → Key) (tree : Key) (parents : List Key) (attrs : CommitAttrs) : SM σ Key := do
  let obj ← SM.lift (Commit.toObject ⟨tree, sortBy Key.le parents, attrs⟩)
  S.putObj H obj

/-- `read_data`; src/file.rs:123-155. -/
def readDataTo {τ : Type} (s : σ) (sink : Bytes → SM τ Unit) : Nat → Key → SM τ Unit
  | 0, _ => fun t => (.fuel, t)
  | fuel + 1, key => do
    let obj ← SM.lift (S.getObj s key)
    match obj.objtype with
    | .fileBlobTree => SM.each (readDataTo s sink fuel) obj.keys
    | .fileBlob => sink obj.data
    | .fsItemFile =>
      match obj.keys with
      | [k] => readDataTo s sink fuel k
      | _ => SM.panic
    | _ => SM.panic

end Store
end Snap
