import Verif.Model.Dir
import Verif.Model.Sort
/-!
Model of src/diff.rs. The line-diff crates `diff` and `difference` and `String::from_utf8_lossy` are parameters (`DiffLib`). Formatting (`colored`, the `Display` of crate
`patch`) is not modelled: a patch is the list of its hunks.
-/
namespace Snap
variable [Serde]

/-- `enum DiffTarget`; src/diff.rs:9-13. The exclude patterns are given compiled. -/
inductive Target where
  | fileSystem (path : Path) (glob : Path → Bool) (dbPath : Path)
  | database (key : Key)

/-- `struct DeletedDiffResult`; src/diff.rs:15-20. -/
structure Deleted where
  path : Path
  isDir : Bool
  originalKey : Option Key
  deriving DecidableEq, Repr

/-- `struct ModifiedDiffResult`; src/diff.rs:22-27. -/
structure Modified where
  path : Path
  originalKey : Key
  newKey : Key
  deriving DecidableEq, Repr

/-- `struct AddedDiffResult`; src/diff.rs:29-34. -/
structure Added where
  path : Path
  isDir : Bool
  newKey : Option Key
  deriving DecidableEq, Repr

/-- `struct DiffResult`; src/diff.rs:36-41. -/
structure DiffResult where
  deleted : List Deleted
  added : List Added
  modified : List Modified
  deriving DecidableEq, Repr

/-! ### Orders -/

/-- Comparing by `f` first, then by `g`: what `derive(Ord)` does with the fields; src/diff.rs:15-34. -/
def lexLe {α} (f g : α → α → Bool) (a b : α) : Bool := f a b && (!f b a || g a b)

/-- Rank of a `Component`: `RootDir < CurDir < ParentDir < Normal`; src/diff.rs:15-34 (ordering of `PathBuf`). -/
def compRank (c : Bytes) : Nat := if c = sSlash then 0 else if c = sDot then 1 else if c = sDotDot then 2 else 3

/-- `Ord` of `std::path::Component`; src/diff.rs:15-34 (ordering of `PathBuf`). -/
def compLe (a b : Bytes) : Bool := lexLe (fun a b => decide (compRank a ≤ compRank b)) (fun a b => decide (a ≤ b)) a b

/-- Lexicographic order of lists; src/diff.rs:15-34 (ordering of `PathBuf`). -/
def listLe {α} (le : α → α → Bool) : List α → List α → Bool
  | [], _ => true
  | _ :: _, [] => false
  | a :: l, b :: m => le a b && (!le b a || listLe le l m)

/-- `Ord` of `Path`: that of the component lists; src/diff.rs:15-34. -/
def Path.le (p q : Path) : Bool := listLe compLe p.comps q.comps

/-- `Ord` of `bool`; src/diff.rs:18,32. -/
def boolLe (a b : Bool) : Bool := !a || b

/-- `Ord` of `Option<Key>`: `None` first; src/diff.rs:19,33. -/
def optLe : Option Key → Option Key → Bool
  | none, _ => true
  | some _, none => false
  | some a, some b => Key.le a b

/-- Derived `Ord` of the result types; src/diff.rs:15-34. -/
def Added.le : Added → Added → Bool :=
  lexLe (fun a b => Path.le a.path b.path) (lexLe (fun a b => boolLe a.isDir b.isDir) (fun a b => optLe a.newKey b.newKey))
/-- Derived `Ord`; src/diff.rs:15-20. -/
def Deleted.le : Deleted → Deleted → Bool :=
  lexLe (fun a b => Path.le a.path b.path) (lexLe (fun a b => boolLe a.isDir b.isDir) (fun a b => optLe a.originalKey b.originalKey))
/-- Derived `Ord`; src/diff.rs:22-27. -/
def Modified.le : Modified → Modified → Bool :=
  lexLe (fun a b => Path.le a.path b.path) (lexLe (fun a b => Key.le a.originalKey b.originalKey) (fun a b => Key.le a.newKey b.newKey))

/-! ### compare -/

/-- The items compared from: the real walk (`either::Left`) or a stored tree's (`either::Right`); src/diff.rs:65-77. -/
inductive FromMap where
  | left (m : PMap Bool)
  | right (m : PMap (Key × Bool))

/-- `from_map.keys()`; src/diff.rs:84-87. -/
def FromMap.keys : FromMap → List Path
  | .left m => m.map (·.1)
  | .right m => m.map (·.1)

/-- `y[x]` / `y[x].1`; src/diff.rs:114,123: indexing a `HashMap` panics for a missing key. -/
def FromMap.isDir (m : FromMap) (x : Path) : Res Bool :=
  match m with
  | .left y => match y.get x with | some b => .ok b | none => .panic
  | .right y => match y.get x with | some b => .ok b.2 | none => .panic

/-- Collecting results of a computation over a list; src/diff.rs:90-163. -/
def mapSM {σ α β} (f : α → SM σ β) : List α → SM σ (List β)
  | [] => pure []
  | a :: l => do
    let b ← f a
    let r ← mapSM f l
    pure (b :: r)

/-- One path only in `from`; src/diff.rs:93-115. The file is looked up at `x` itself, a path relative to the walked directory; an error is a panic. -/
def addedOf (E : Env) (fs : Fs) (m : FromMap) (x : Path) : SM (Db × Cache) Added := do
  let key ← (match m with
    | .left _ => do
      if ← SM.lift (m.isDir x) then pure none
      else do
        let h ← SM.unwrap (hashFsItem E fs x)
        pure (some h)
    | .right y => match y.get x with | some b => pure (some b.1) | none => SM.panic)
  let d ← SM.lift (m.isDir x)
  pure ⟨x, d, key⟩

/-- One path only in `to`; src/diff.rs:120-124. -/
def deletedOf (m : FromMap) (to : PMap (Key × Bool)) (x : Path) : Res Deleted := do
  let k ← (match to.get x with | some b => .ok b.1 | none => .panic : Res Key)
  let d ← m.isDir x
  pure ⟨x, d, some k⟩

/-- One path in both; src/diff.rs:131-163. `none`: nothing to report. -/
def modifiedOf (E : Env) (fs : Fs) (m : FromMap) (base : Path) (to : PMap (Key × Bool)) (x : Path) : SM (Db × Cache) (Option Modified) := do
  let f ← (match m with
    | .left y => match y.get x with
      | some true => pure none
      | some false => do
        let h ← hashFsItem E fs (Path.join base x)
        pure (some h)
      | none => SM.panic
    | .right y => match y.get x with | some b => pure (some b.1) | none => SM.panic)
  match f with
  | none => pure none
  | some f => match to.get x with
    | some t => pure (if f = t.1 then none else some ⟨x, t.1, f⟩)
    | none => SM.panic

/-- `compare`; src/diff.rs:55-174. `iter 0`, `iter 1`, `iter 2` are the orders in which the three `HashSet` operations (difference, difference, intersection) are
iterated; `n` bounds the depth of the walks. -/
def compare (E : Env) (fs : Fs) (iter : Nat → List Path → List Path) (n : Nat) (source : Target) (to : Option Key) : SM (Db × Cache) DiffResult := do
  let m ← (match source with
    | .fileSystem path glob dbPath => do
      let m ← SM.lift (walkReal fs (makeFilter glob dbPath) n path)
      pure (FromMap.left m)
    | .database key => do
      let m ← SM.read (fun s => walkItems s.1 n key)
      pure (FromMap.right m))
  let base := (match source with | .fileSystem path _ _ => path | .database _ => [])
  let toMap ← (match to with
    | some t => SM.read (fun s => walkItems s.1 n t)
    | none => pure [])
  let fromKeys := m.keys
  let toKeys := toMap.map (·.1)
  let added ← mapSM (addedOf E fs m) (iter 0 (fromKeys.filter fun x => !toKeys.contains x))
  let deleted ← mapSM (fun x => SM.lift (deletedOf m toMap x)) (iter 1 (toKeys.filter fun x => !fromKeys.contains x))
  let modified ← mapSM (modifiedOf E fs m base toMap) (iter 2 (fromKeys.filter fun x => toKeys.contains x))
  pure ⟨sortBy Deleted.le deleted, sortBy Added.le added, sortBy Modified.le (modified.filterMap id)⟩

/-! ### simplify, statistics -/

/-- Keeping what does not lie below something kept before; src/diff.rs:180-200. -/
def simplifyBy {α} (path : α → Path) (l : List α) : List α :=
  l.foldl (fun kept p => if kept.any (fun x => Path.startsWith (path p) (path x)) then kept else kept ++ [p]) []

/-- `simplify`; src/diff.rs:176-209. -/
def simplify (r : DiffResult) : DiffResult :=
  { added := simplifyBy (·.path) r.added, modified := r.modified, deleted := simplifyBy (·.path) r.deleted }

/-- `diff_result_empty`; src/diff.rs:346-348. -/
def DiffResult.isEmpty (r : DiffResult) : Bool := r.added.isEmpty && r.deleted.isEmpty && r.modified.isEmpty

/-- One line of `diff::lines`: removed (`Left`), added (`Right`), unchanged (`Both`); src/diff.rs:302-312. -/
inductive LineDiff where
  | left | right | both
  deriving DecidableEq, Repr

/-- One `difference::Difference`; its text may consist of several lines; src/diff.rs:511-543. -/
inductive Change where
  | same (s : Bytes) | add (s : Bytes) | rem (s : Bytes)
  deriving DecidableEq, Repr

/-- The library functions that are not modelled: `String::from_utf8_lossy`, `diff::lines`, `difference::Changeset::new(_, _, "\n").diffs`; src/diff.rs:299-302,501. -/
structure DiffLib where
  lossy : Bytes → Bytes
  lines : Bytes → Bytes → List LineDiff
  changes : Bytes → Bytes → List Change

/-- `file::read_data` into a fresh `Vec`; src/diff.rs:293-297,338-339,385-386,438-439,479-486. -/
def readAll (db : Db) (n : Nat) (k : Key) : Res Bytes :=
  match readData db n k [] with
  | (.ok _, b) => .ok b
  | (.err e, _) => .err e
  | (.panic, _) => .panic
  | (.fuel, _) => .fuel

/-- `line_ct`; src/diff.rs:337-344. -/
def lineCt (db : Db) (n : Nat) (k : Key) : Res Nat := do
  let data ← (readAll db n k).unwrap
  pure (data.count 10)

/-- `struct FileStatResult`; src/diff.rs:260-265. -/
structure FileStat where
  fname : Path
  added : Nat
  removed : Nat
  deriving DecidableEq, Repr

/-- The statistic of one modified file; src/diff.rs:292-319. -/
def modifiedStat (lib : DiffLib) (db : Db) (n : Nat) (m : Modified) : Res FileStat := do
  let before ← (readAll db n m.originalKey).unwrap
  let after ← (readAll db n m.newKey).unwrap
  let lines := lib.lines (lib.lossy before) (lib.lossy after)
  pure ⟨m.path, lines.count .right, lines.count .left⟩

/-- The statistic of added or removed files: directories and entries without key are left out; src/diff.rs:272-290. -/
def countStat {α} (db : Db) (n : Nat) (isDir : α → Bool) (key : α → Option Key) (mk : α → Nat → FileStat) (l : List α) : Res (List FileStat) := do
  let r ← mapRes (fun a => match key a with
    | some k => do
      let c ← lineCt db n k
      pure (some (mk a c))
    | none => pure none) (l.filter fun a => !isDir a)
  pure (r.filterMap id)

/-- `line_stat`; src/diff.rs:267-322. -/
def lineStat (lib : DiffLib) (db : Db) (n : Nat) (r : DiffResult) : Res (List FileStat) := do
  let a ← countStat db n Added.isDir Added.newKey (fun x c => ⟨x.path, c, 0⟩) r.added
  let d ← countStat db n Deleted.isDir Deleted.originalKey (fun x c => ⟨x.path, 0, c⟩) r.deleted
  let m ← mapRes (modifiedStat lib db n) r.modified
  pure (a ++ d ++ m)

/-- Derived `Ord` of `FileStatResult`; src/diff.rs:260-265. -/
def FileStat.le : FileStat → FileStat → Bool :=
  lexLe (fun a b => Path.le a.fname b.fname) (lexLe (fun a b => decide (a.added ≤ b.added)) (fun a b => decide (a.removed ≤ b.removed)))

/-- `print_stat_diff_result` and `print_line_stat`: what is printed; src/diff.rs:243-247,324-335. -/
def printedStat (lib : DiffLib) (db : Db) (n : Nat) (r : DiffResult) : Res (List FileStat) := do
  let l ← lineStat lib db n r
  pure (sortBy FileStat.le l)

/-! ### patches -/

/-- One line of a line diff, as `difference::Difference` with a single line; also `patch::Line`; src/diff.rs:511-543,590-598. -/
inductive DLine where
  | same (s : Bytes) | add (s : Bytes) | rem (s : Bytes)
  deriving DecidableEq, Repr

/-- `patch::Hunk`; src/diff.rs:600-604. -/
structure Hunk where
  oldStart : Nat
  oldCount : Nat
  newStart : Nat
  newCount : Nat
  lines : List DLine
  deriving DecidableEq, Repr

/-- `patch::Patch` with equal old and new names; src/diff.rs:412-417,609-620. -/
structure Patch where
  path : Bytes
  hunks : List Hunk
  deriving DecidableEq, Repr

/-- `str::split('\n')`; src/diff.rs:513. -/
def splitNl : Bytes → List Bytes
  | [] => [[]]
  | b :: bs =>
    if b = 10 then [] :: splitNl bs
    else
      match splitNl bs with
      | [] => [[b]]
      | s :: ss => (b :: s) :: ss

/-- `str::lines`: no empty last line, a carriage return before a newline is dropped (Rust before 1.66 also drops one at the end of an unterminated last line); src/diff.rs:371-476. -/
def strLines (s : Bytes) : List Bytes :=
  let ls := splitNl s
  (ls.dropLast.map fun l => if l.getLast? = some 13 then l.dropLast else l) ++
    (match ls.getLast? with | some [] => [] | some l => [l] | none => [])

/-- The lines of a change; src/diff.rs:511-543. -/
def Change.lines : Change → List DLine
  | .same s => (splitNl s).map .same
  | .add s => (splitNl s).map .add
  | .rem s => (splitNl s).map .rem

/-- A line belongs to the old file / to the new file; src/diff.rs:533-542. -/
def DLine.old : DLine → Bool
  | .add _ => false
  | _ => true
/-- src/diff.rs:512-521. -/
def DLine.new : DLine → Bool
  | .rem _ => false
  | _ => true

/-- Numbering the lines: `(before_lineno, after_lineno, line)`; src/diff.rs:503-547. -/
def number : Nat → Nat → List DLine → List (Nat × Nat × DLine)
  | _, _, [] => []
  | b, a, l :: ls => (b, a, l) :: number (if l.old then b + 1 else b) (if l.new then a + 1 else a) ls

/-- `&v[i..=j]`: panics unless `i ≤ j + 1` and `j < len`; src/diff.rs:551-554. -/
def sliceIncl {α} (l : List α) (i j : Nat) : Res (List α) :=
  if i ≤ j + 1 ∧ j < l.length then .ok ((l.drop i).take (j + 1 - i)) else .panic

/-- `BEFORE_CONTEXT_LINES`, `AFTER_CONTEXT_LINES`; src/diff.rs:354-355. -/
def beforeContext : Nat := 3
/-- src/diff.rs:355. -/
def afterContext : Nat := 5

/-- `!matches!(_, Same(_))`; src/diff.rs:561. -/
def DLine.changed : DLine → Bool
  | .same _ => false
  | _ => true

/-- The key of `group_by` for the line with index `i`: a changed line is in its window; src/diff.rs:549-562. -/
def near (l : List (Nat × Nat × DLine)) (i : Nat) : Res Bool := do
  let ctx ← sliceIncl l (i - beforeContext) (min (i + afterContext) (l.length - 1))
  pure (ctx.any fun y => y.2.2.changed)

/-- `Itertools::group_by`: maximal runs of consecutive elements with equal key; src/diff.rs:559-562. -/
def groupBy {α} (key : α → Bool) : List α → List (Bool × List α)
  | [] => []
  | a :: l =>
    match groupBy key l with
    | (k, g) :: gs => if k = key a then (k, a :: g) :: gs else (key a, [a]) :: (k, g) :: gs
    | [] => [(key a, [a])]

/-- `u64` subtraction with overflow check; src/diff.rs:580,585. -/
def subRes (a b : Nat) : Res Nat := if b ≤ a then .ok (a - b) else .panic

/-- One hunk; src/diff.rs:571-606. -/
def mkHunk (g : List (Nat × Nat × DLine)) : Res Hunk :=
  match g.head?, g.getLast? with
  | some s, some e => do
    let oc ← subRes e.1 s.1
    let nc ← subRes e.2.1 s.2.1
    pure ⟨s.1, oc, s.2.1, nc, g.map (·.2.2)⟩
  | _, _ => .panic

/-- The line with index `i` and its key; src/diff.rs:549-565. -/
def keyLine (l : List (Nat × Nat × DLine)) (i : Nat) : Res (Bool × Nat × Nat × DLine) := do
  let k ← near l i
  match l[i]? with
  | some x => pure (k, x)
  | none => .panic

/-- The hunks of a list of changes; src/diff.rs:503-607. -/
def hunksOf (cs : List Change) : Res (List Hunk) := do
  let l := number 1 1 (cs.flatMap Change.lines)
  let keyed ← mapRes (keyLine l) (List.range l.length)
  mapRes (fun g => mkHunk (g.2.map (·.2))) ((groupBy (·.1) keyed).filter (·.1))

/-- `patch_from_file_string`; src/diff.rs:500-623. -/
def patchFrom (lib : DiffLib) (before after : Bytes) (path : Path) : Res Patch := do
  let hs ← hunksOf (lib.changes before after)
  pure ⟨lib.lossy path, hs⟩

/-- The patch of an added file; src/diff.rs:371-423. -/
def addedPatch (lib : DiffLib) (db : Db) (n : Nat) (path : Path) (k : Key) : Res Patch := do
  let data ← (readAll db n k).unwrap
  if utf8 data then
    pure ⟨lib.lossy path, [⟨0, 0, 0, (strLines data).length, (strLines data).map .add⟩]⟩
  else .err .binaryPatch

/-- The patch of a removed file; src/diff.rs:425-476. -/
def removedPatch (lib : DiffLib) (db : Db) (n : Nat) (path : Path) (k : Key) : Res Patch := do
  let data ← (readAll db n k).unwrap
  if utf8 data then
    pure ⟨lib.lossy path, [⟨0, (strLines data).length, 0, 0, (strLines data).map .rem⟩]⟩
  else .err .binaryPatch

/-- The patch of a modified file; src/diff.rs:478-495. -/
def modifiedPatch (lib : DiffLib) (db : Db) (n : Nat) (m : Modified) : Res Patch := do
  let before ← (readAll db n m.originalKey).unwrap
  let after ← (readAll db n m.newKey).unwrap
  patchFrom lib (lib.lossy before) (lib.lossy after) m.path

/-- Patches of the entries that are files and have a key; src/diff.rs:371-373,425-427. -/
def filePatches {α} (isDir : α → Bool) (key : α → Option Key) (mk : α → Key → Res Patch) (l : List α) : Res (List Patch) := do
  let r ← mapRes (fun a => match key a with
    | some k => do
      let p ← mk a k
      pure (some p)
    | none => pure none) (l.filter fun a => !isDir a)
  pure (r.filterMap id)

/-- `create_diff_patch_result`, before formatting; src/diff.rs:363-498. -/
def createPatch (lib : DiffLib) (db : Db) (n : Nat) (r : DiffResult) : Res (List Patch) := do
  let a ← filePatches Added.isDir Added.newKey (fun x k => addedPatch lib db n x.path k) r.added
  let d ← filePatches Deleted.isDir Deleted.originalKey (fun x k => removedPatch lib db n x.path k) r.deleted
  let m ← mapRes (modifiedPatch lib db n) r.modified
  pure (a ++ d ++ m)

end Snap
