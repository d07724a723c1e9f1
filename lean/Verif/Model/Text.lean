import Verif.Model.Cli
/-!
What the records of `Out` look like on standard output: the `println!` and `writeln!` calls of src/main.rs, src/display.rs, src/diff.rs and src/object.rs.
Colours are off, as they are when standard output is not a terminal; log messages go to standard error and are left out.
-/
namespace Snap
variable [Serde]

/-- The formatting done by libraries, not modelled: `Path::display` (as `from_utf8_lossy`), `{:?}` of a `String`/`PathBuf`, `{:?}` of the decoded CBOR value (or of the error, src/object.rs:98-106),
`Display` of `patch::Patch`, `Display` of errors; src/diff.rs:220,329,352-354, src/main.rs:340,353,791. -/
structure Fmt where
  lossy : Bytes → Bytes
  debugStr : Bytes → Bytes
  value : Bytes → Bytes
  patch : Patch → Bytes
  error : Err → Bytes

namespace Text

/-- An ASCII literal; the format strings of src/main.rs:243-682. -/
def lit (s : String) : Bytes := s.toUTF8.toList

/-- `println!`; src/main.rs:250. -/
def line (b : Bytes) : Bytes := b ++ [10]

/-- `Display` of an unsigned integer, with a bound on the number of digits; src/diff.rs:328-333. -/
def decGo : Nat → Nat → Bytes
  | 0, _ => []
  | f + 1, n => if n < 10 then [UInt8.ofNat (48 + n)] else decGo f (n / 10) ++ [UInt8.ofNat (48 + n % 10)]

/-- `Display` of an unsigned integer; src/diff.rs:328-333. -/
def dec (n : Nat) : Bytes := decGo (n + 1) n

/-- A hexadecimal digit as written by `hex::encode`; src/object.rs:90. -/
def hexDigit (n : Nat) : UInt8 := UInt8.ofNat (if n < 10 then 48 + n else 87 + n)

/-- `hex::encode`; src/object.rs:90. -/
def hex (b : Bytes) : Bytes := b.flatMap fun x => [hexDigit (x.toNat / 16), hexDigit (x.toNat % 16)]

/-- `slice::chunks`, with a bound on their number; src/object.rs:89. -/
def chunksGo (size : Nat) : Nat → Bytes → List Bytes
  | 0, _ => []
  | _ + 1, [] => []
  | f + 1, b :: bs => (b :: bs).take size :: chunksGo size f ((b :: bs).drop size)

/-- `slice::chunks`; src/object.rs:89. -/
def chunks (size : Nat) (b : Bytes) : List Bytes := chunksGo size b.length b

/-- Writing `sep` between the items, as `{:?}` of an array does; src/key.rs:4. -/
def sepBy (sep : Bytes) : List Bytes → Bytes
  | [] => []
  | [a] => a
  | a :: b :: l => a ++ sep ++ sepBy sep (b :: l)

/-- Derived `Debug` of `Key`: `Blake3B([1, 2, …])`; src/key.rs:4-8,18-22. -/
def debugKey (k : Key) : Bytes := lit "Blake3B([" ++ sepBy (lit ", ") (k.hash.map fun b => dec b.toNat) ++ lit "])"

/-- `DISPLAY_CHUNK_SIZE`; src/object.rs:69. -/
def displayChunkSize : Nat := 20

/-- `pretty_print`; src/object.rs:74-110. The derived `Debug` of `ObjType` is its name. -/
def prettyPrint (F : Fmt) (o : Object) : Bytes :=
  line (lit "--type: " ++ o.objtype.name ++ lit "--") ++
  line (lit "--keys--") ++
  (o.keys.flatMap fun k => line k.asUserKey ++ line (debugKey k) ++ line []) ++
  line (lit "-/keys--") ++
  line (lit "--data--") ++
  ((chunks displayChunkSize o.data).flatMap fun c => line (hex c)) ++
  line (lit "-/data--") ++
  line (lit "--deserialised data--") ++
  line (F.value o.data) ++
  line (lit "--/deserialised data--")

/-- One path of `print_diff_result`: with a slash if there is no key; src/diff.rs:219-222,228-231. -/
def pathLine (F : Fmt) (p : Path) (key : Option Key) : Bytes :=
  match key with
  | some _ => line (lit "  " ++ F.lossy p)
  | none => line (lit "  " ++ F.lossy p ++ lit "/")

/-- One section of `print_diff_result`; src/diff.rs:216-218. -/
def section' (title : Bytes) (lines : List Bytes) : Bytes :=
  if lines.isEmpty then [] else line title ++ lines.flatten

/-- `print_diff_result` after `simplify`; src/diff.rs:211-241. -/
def report (F : Fmt) (r : DiffResult) : Bytes :=
  section' (lit "added:") (r.added.map fun a => pathLine F a.path a.newKey) ++
  section' (lit "deleted:") (r.deleted.map fun d => pathLine F d.path d.originalKey) ++
  section' (lit "modified:") (r.modified.map fun m => line (lit "  " ++ F.lossy m.path))

/-- One line of `print_line_stat`; src/diff.rs:327-334. -/
def statLine (F : Fmt) (x : FileStat) : Bytes :=
  line (F.lossy x.fname ++ lit "  +" ++ dec x.added ++ lit " -" ++ dec x.removed)

/-- `{}` of a `bool`; src/main.rs:363. -/
def bool (b : Bool) : Bytes := if b then lit "true" else lit "false"

/-- The text of a record. `key` is what `debug commit-tree` and `debug reflog-get` print; `insert` puts words before it. src/main.rs:278-682, src/display.rs:59-128, src/diff.rs:211-253,354. -/
def record (F : Fmt) : Out → Bytes
  | .data b => b
  | .commit k m => line (lit "commit: " ++ k.asUserKey) ++ line [] ++ line m ++ line []
  | .stats l => l.flatMap (statLine F)
  | .patches l => line (l.flatMap fun p => line (F.patch p))
  | .tree k => line (lit "tree: " ++ k.asUserKey)
  | .result r => report F r
  | .text b => line b
  | .key k => line k.asUserKey
  | .entry n k => line (dec n ++ lit ": " ++ k.asUserKey)
  | .head none => line (lit "head: None")
  | .head (some h) => line (lit "head: Some(" ++ F.debugStr h ++ lit ")")
  | .headAt n (some short) => line (lit "HEAD: " ++ n ++ lit " [" ++ short ++ lit "]")
  | .headAt n none => line (lit "HEAD: " ++ n ++ lit " (no commits on " ++ n ++ lit ")")
  | .item p k d => line (lit "(" ++ F.debugStr p ++ lit ", (" ++ debugKey k ++ lit ", " ++ bool d ++ lit "))")
  | .fsItem p d => line (F.debugStr p ++ lit ", " ++ bool d)
  | .object o => prettyPrint F o

/-- A record as printed by the given command. `insert`: src/main.rs:250. `log` prints two empty lines after each commit, src/display.rs:29-30,42-43 (also after a parent that is
not a commit, before it panics; those are left out). -/
def recordOf (F : Fmt) (cmd : Command) (o : Out) : Bytes :=
  match cmd, o with
  | .insert _, .key k => line (lit "inserted hash " ++ k.asUserKey)
  | .log _, .stats l => record F (.stats l) ++ line [] ++ line []
  | _, o => record F o

/-- What is printed before the records; src/main.rs:288-291. -/
def heading (cmd : Command) (r : Res Unit) : Bytes :=
  match cmd, r with
  | .refLog _ _, .ok _ => line (lit "log entries are printed with most recent at top")
  | _, _ => []

/-- What `main` prints after a failed command; src/main.rs:791. -/
def closing (F : Fmt) (r : Res Unit) : Bytes :=
  match r with
  | .err e => line (lit "fatal: " ++ F.error e)
  | _ => []

/-- Everything a command prints, given its result and its records; src/main.rs:771-795. -/
def ofRun (F : Fmt) (cmd : Command) (r : Res Unit) (outs : List Out) : Bytes :=
  heading cmd r ++ outs.flatMap (recordOf F cmd) ++ closing F r

end Text

/-- Standard output of a run of the program; src/main.rs:712-801. If the database folder or the database cannot be found or opened, nothing is printed to it. -/
def mainText (F : Fmt) (X : Ctx) (cmd : Command) (w : World) : Bytes :=
  match findDbFolder w.fs X.dbPath with
  | .ok none =>
    match cmd with
    | .init => Text.closing F (runInit X w).1
    | _ =>
      let s := cmd.body X none { db := {}, cache := w.cache, fs := w.fs }
      Text.ofRun F cmd s.1 s.2.out
  | .ok (some x) =>
    match Path.parent x, openDb w.fs x with
    | some root, .ok q =>
      match cmd with
      | .init => Text.closing F (runInit X w).1
      | _ =>
        let s := cmd.body X (some ⟨x, root⟩) { db := (Conn.mk (w.dbs q) none).begin.2.view, cache := w.cache, fs := w.fs }
        Text.ofRun F cmd s.1 s.2.out
    | _, _ => []
  | _ => []

end Snap
