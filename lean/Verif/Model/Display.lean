import Verif.Model.Diff
import Verif.Model.Commit
/-!
Model of src/display.rs. What is written to the terminal is a list of events; decoration, blank lines and number formatting are left out. Writing to the terminal does
not fail.
-/
namespace Snap
variable [Serde]

/-- What is printed; the `println!` calls of src/main.rs:243-682, src/diff.rs:211-253 and src/display.rs:22-128, as structured values. -/
inductive Out where
  | data (b : Bytes)
  | commit (k : Key) (message : Bytes)
  | stats (l : List FileStat)
  | patches (l : List Patch)
  | tree (k : Key)
  | result (r : DiffResult)
  | text (b : Bytes)
  | key (k : Key)
  /-- One line of `ref log`: number and key. -/
  | entry (n : Nat) (k : Key)
  /-- `debug get-head`. -/
  | head (h : Option Bytes)
  /-- The first line of `status`: the ref and the beginning of its key, or that it has no commits. -/
  | headAt (name : Bytes) (short : Option Bytes)
  /-- One line of `debug walk-tree`, of `debug walk-fs-tree`. -/
  | item (p : Path) (k : Key) (isDir : Bool)
  | fsItem (p : Path) (isDir : Bool)
  /-- `debug pretty-print`: type, keys and data of an object; the decoded data are left out. -/
  | object (o : Object)
  deriving Repr

/-- `enum Kind`; src/display.rs:16-20. -/
inductive Kind where
  | stat | patch
  deriving DecidableEq, Repr

/-- Database and terminal; src/display.rs:22-128. -/
abbrev P := SM (Db × List Out)

/-- `println!`; src/display.rs:73-84,120. -/
def say (o : Out) : P Unit := SM.modify fun s => (s.1, s.2 ++ [o])

/-- `diff::compare` without a cache (`None`); src/display.rs:102-108. Only the file system comparison would use it. -/
def compareDb (E : Env) (fs : Fs) (iter : Nat → List Path → List Path) (n : Nat) (source to : Option Key) : P DiffResult := fun s =>
  match source with
  | some k => let r := compare E fs iter n (.database k) to (s.1, {}); (r.1, (r.2.1, s.2))
  | none => (.panic, s)

/-- The comparison of a commit with its first parent; src/display.rs:86-117. -/
def displayChanges (E : Env) (lib : DiffLib) (fs : Fs) (iter : Nat → List Path → List Path) (n : Nat) (kind : Kind) (c : Commit) : P Unit := do
  let tree ← (match c.parents with
    | p :: _ => do
      let parent ← SM.read (fun s => Commit.fromKey s.1 p)
      pure (some parent.tree)
    | [] => pure none)
  let dr ← SM.unwrap (compareDb E fs iter n (some c.tree) tree)
  match kind with
  | .stat => do
    let l ← SM.read (fun s => printedStat lib s.1 n dr)
    say (.stats l)
  | .patch => do
    let l ← SM.read (fun s => createPatch lib s.1 n dr)
    say (.patches l)

/-- `display_obj`; src/display.rs:59-128. The line with the key and the message are one record, made after decoding the commit; if decoding panics, the program has printed the line
with the key already. -/
def displayObj (E : Env) (lib : DiffLib) (fs : Fs) (iter : Nat → List Path → List Path) (n : Nat) (kind : Kind) : Nat → Key → P Unit
  | 0, _ => SM.lift .fuel
  | f + 1, key => do
    let obj ← SM.read (fun s => (getObj s.1 key).unwrap)
    match obj.objtype with
    | .fileBlobTree => fun s => let r := readDataTo s.1 (fun d => SM.modify (· ++ [Out.data d])) n key s.2; (r.1, (s.1, r.2))
    | .fileBlob => fun s => let r := readDataTo s.1 (fun d => SM.modify (· ++ [Out.data d])) n key s.2; (r.1, (s.1, r.2))
    | .fsItemFile =>
      match obj.keys with
      | [k] => displayObj E lib fs iter n kind f k
      | _ => SM.panic
    | .commit => do
      let c ← SM.lift (Commit.ofObject obj).unwrap
      say (.commit key c.attrs.message)
      displayChanges E lib fs iter n kind c
    | .fsItemDir => say (.tree key)
    | .unknown => SM.panic

/-- The loop of `log_obj`; src/display.rs:39-51. -/
def logLoop (E : Env) (lib : DiffLib) (fs : Fs) (iter : Nat → List Path → List Path) (n : Nat) (kind : Kind) : Nat → Commit → P Unit
  | 0, _ => SM.lift .fuel
  | f + 1, c =>
    match c.parents with
    | [] => pure ()
    | p :: _ => do
      displayObj E lib fs iter n kind n p
      let c ← SM.read (fun s => Commit.fromKey s.1 p)
      logLoop E lib fs iter n kind f c

/-- `log_obj`; src/display.rs:22-57. -/
def logObj (E : Env) (lib : DiffLib) (fs : Fs) (iter : Nat → List Path → List Path) (n : Nat) (kind : Kind) (key : Key) : P Unit := do
  let obj ← SM.read (fun s => (getObj s.1 key).unwrap)
  match obj.objtype with
  | .commit => do
    displayObj E lib fs iter n kind n key
    let c ← SM.read (fun s => Commit.fromKey s.1 key)
    logLoop E lib fs iter n kind n c
  | _ => SM.panic

end Snap
