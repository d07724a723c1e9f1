import Verif.Example
import Verif.Props.Commands
import Verif.Props.Find
import Verif.Props.Closed
import Verif.Props.Acyclic
import Verif.Props.History
import Verif.Props.Stat
import Verif.Props.Clean
import Verif.Props.Restore
/-! Concrete runs of commands. -/
namespace Snap.Props
open Snap

def exLib : DiffLib := ⟨id, fun _ _ => [], fun _ _ => []⟩
def exX : Ctx := ⟨mixEnv, exLib, fun _ => false, [98], fun _ l => l, id, 9⟩
def exW (fs : Fs) : World := ⟨fs, fun _ => {}, {}⟩

/-- what the second world has, with other files -/
def withFs (w : World) (fs : Fs) : World := { w with fs := fs }

def exR : Repo := ⟨[47, 115, 47, 98], [47, 115]⟩
def exQ : List Bytes := [[115], [98], sDbFile]

def exW1 : World := (mainRun exX .init (exW exThen)).2.2
def exW2 : World := (mainRun exX (.commit none [104, 105] none) exW1).2.2
def exW3 : World := (mainRun exX (.commit none [104, 111] none) (withFs exW2 exNow)).2.2

/-- C44: init sets HEAD of the database `/s/b/snapcd.db`; a second one resets it -/
example : (mainRun exX .init (exW exThen)).1 = .success ∧ openDb exW1.fs exX.dbPath = .ok exQ ∧ getHead (exW1.dbs exQ) = .ok (some sMaster) := by decide +kernel
example : (match mainRun exX (.setHead [120]) exW2 with
    | (.success, _, w) => getHead (w.dbs exQ) == .ok (some [120]) && (match mainRun exX .init w with
      | (.success, _, w') => getHead (w'.dbs exQ) == .ok (some sMaster) && (w'.dbs exQ).reflog.length == 1
      | _ => false)
    | _ => false) = true := by decide +kernel

theorem exOpens1 : Opens exX exW1 exR exQ := ⟨by decide +kernel, by decide +kernel, by decide +kernel⟩
theorem exOpens2 : Opens exX (withFs exW2 exNow) exR exQ := ⟨by decide +kernel, by decide +kernel, by decide +kernel⟩

theorem exReach1 : World.Reachable mixH exW1 := ⟨exW exThen, fun _ => ⟨rfl, rfl, rfl⟩, (World.Steps.refl _).tail (.run exX rfl .init _)⟩
theorem exReach2 : World.Reachable mixH exW2 := World.Reachable.step exReach1 (.run exX rfl _ _)
theorem exReach2' : World.Reachable mixH (withFs exW2 exNow) := World.Reachable.step exReach2 (.edit _ _ fun _ => SameDb.refl _)
theorem exReach3 : World.Reachable mixH exW3 := World.Reachable.step exReach2' (.run exX rfl _ _)

/-- C38: the first commit on `master`, -/
example : Committed exX (.commit none [104, 105] none) exW1 exR exQ := by
  refine ⟨exOpens1, by decide +kernel, fun fs => ?_⟩
  have : ((Command.commit none [104, 105] none).inRepo exX exR (startOf exW1 exQ)).2.db.faults = [] := by decide +kernel
  rw [this]; simp
example : NoColl exX.E.H (exW2.dbs exQ) := noColl_of (by decide +kernel)
example : Inv exX.E.H (exW1.dbs exQ) := World.Reachable.inv exReach1 exQ
example : exW1.fs.metadata exR.root = .ok .dir := by decide +kernel
/-- and the second one, after the files have changed -/
example : Committed exX (.commit none [104, 111] none) (withFs exW2 exNow) exR exQ := by
  refine ⟨exOpens2, by decide +kernel, fun fs => ?_⟩
  have : ((Command.commit none [104, 111] none).inRepo exX exR (startOf (withFs exW2 exNow) exQ)).2.db.faults = [] := by decide +kernel
  rw [this]; simp
example : NoColl exX.E.H (exW3.dbs exQ) := noColl_of (by decide +kernel)
example : (match reflogWalk (exW3.dbs exQ) sMaster none with
    | .ok [k2, k1] => (match Commit.fromKey (exW3.dbs exQ) k2, Commit.fromKey (exW3.dbs exQ) k1 with
      | .ok c2, .ok c1 => c2.parents == [k1] && c1.parents == [] && c2.attrs.message == [104, 111] && c1.attrs.message == [104, 105]
      | _, _ => false)
    | _ => false) = true := by decide +kernel

/-- C47: with clean files HEAD is set, otherwise not -/
example : (match mainRun exX (.checkoutHead [120]) exW3 with | (.success, _, w) => rawGetState (w.dbs exQ) sHEAD == .ok (some [120]) | _ => false) = true := by decide +kernel
example : (match mainRun exX (.checkoutHead [120]) (withFs exW2 exNow) with | (.success, _, w) => rawGetState (w.dbs exQ) sHEAD == .ok (some sMaster) | _ => false) = true := by decide +kernel

/-- C41: a commit of a path that does not exist fails with status 0; status 1 if only the commit of the cache fails, and then the database has changed -/
example : (mainRun exX (.commit (some [120]) [104] none) exW1).1 = .fatal .enoent := by decide +kernel
/-- a write fails in the middle of a commit -/
example : (match mainRun exX (.commit none [104] none) { exW1 with dbs := fun q => { exW1.dbs q with faults := [false, true] } } with
    | (.fatal .sqlite, _, w) => (w.dbs exQ).data.length == 0 && (w.dbs exQ).reflog.length == 0
    | _ => false) = true := by decide +kernel

/-- the last write, `COMMIT`, fails: status 0, and nothing has been kept, but the cache has (C41_lost_commit) -/
def exFault (n : Nat) : World := { exW1 with dbs := fun q => { exW1.dbs q with faults := List.replicate n false ++ [true] } }
def exWrites : Nat := ((Command.commit none [104] none).inRepo exX exR (startOf (exFault 50) exQ)).2.db.faults.length
example : (match mainRun exX (.commit none [104] none) (exFault (51 - exWrites)) with
    | (.success, _, w) => (w.dbs exQ).data.length == 0 && (w.dbs exQ).reflog.length == 0
    | _ => false) = true := by decide +kernel
/-- the cache cannot be committed: status 1, and the database has changed -/
example : (match mainRun exX (.commit none [104] none) { exW1 with cache := { exW1.cache with faults := [true] } } with
    | (.failure .sqlite, _, w) => (w.dbs exQ).reflog.length == 1
    | _ => false) = true := by decide +kernel

/-- C42: the first commit, of several calls -/
example : Opens exX exW1 exR exQ ∧ ((Command.commit none [104, 105] none).inRepo exX exR (startOf exW1 exQ)).1.isOk = true ∧
    2 < ((Command.commit none [104, 105] none).inRepo exX exR (startOf exW1 exQ)).2.db.data.length := ⟨exOpens1, by decide +kernel, by decide +kernel⟩

/-- C40: after the second commit -/
example : Spec.NoDangling (exW3.dbs exQ) ∧ 2 ≤ (exW3.dbs exQ).reflog.length ∧ 4 ≤ (exW3.dbs exQ).data.length := ⟨C40_no_dangling exReach3 exQ, by decide +kernel, by decide +kernel⟩

/-- C45, C46: log and status on the first commit -/
example : (mainRun exX (.log none) exW2).1 = .success ∧ (mainRun exX .status (withFs exW2 exNow)).1 = .success := by decide +kernel

/-- C55: the line diff as a list with every line changed -/
def exLib2 : DiffLib := ⟨id, fun a b => List.replicate (a.count 10 + 1) .left ++ List.replicate (b.count 10 + 1) .right, fun _ _ => []⟩
def exLater : Fs := { ents := [([[115]], .dir), ([[115], [97]], .file [120, 10, 121, 10, 122] ⟨7, 8⟩), ([[115], [100]], .dir), ([[115], [101]], .file [10, 10] ⟨8, 8⟩), ([[115], [98]], .dir)], cwd := [[115]] }
/-- `a` modified, `e` added: statistics; `d` modified: panic -/
example : (match (putFsItem mixEnv exLater exFilter 9 sDot exDb1).1, (putFsItem mixEnv exThen exFilter 3 sDot {}).1 with
    | .ok k, .ok t =>
      let db := (putFsItem mixEnv exLater exFilter 9 sDot exDb1).2
      (match (compare mixEnv exLater (fun _ l => l) 9 (.database k) (some t) (db, {})).1 with
      | .ok r => r.modified.map (·.path) == [[97]] && r.added.map (·.path) == [[101]] && (match lineStat exLib2 db 9 r with | .ok l => l.map (·.fname) == [[101], [97]] && l.map (·.added) == [2, 3] && l.map (·.removed) == [0, 1] | _ => false)
      | _ => false)
    | _, _ => false) = true := by decide +kernel
example : (match exBoth {} with
    | (.ok (t, k), db) => (match compare mixEnv exNow (fun _ l => l) 9 (.database k) (some t) (db, {}) with
      | (.ok r, _) => (match lineStat exLib2 db 9 r with | .panic => true | _ => false)
      | _ => false)
    | _ => false) = true := by decide +kernel

/-- C39: the world after two commits is reached by plain steps from nothing; the ref has two entries and `log` of the first commit prints -/
theorem exPlain3 : World.PlainSteps mixH (exW exThen) exW3 :=
  ((((World.PlainSteps.refl _).tail (.run exX rfl .init rfl _)).tail (.run exX rfl (.commit none [104, 105] none) rfl _)).tail (.edit _ (withFs exW2 exNow) fun _ => SameDb.refl _)).tail
    (.run exX rfl (.commit none [104, 111] none) rfl _)
example : ∃ ks, reflogWalk (exW3.dbs exQ) sMaster none = .ok ks ∧ Spec.Linked (exW3.dbs exQ) ks := C39_history (fun _ => ⟨rfl, rfl, rfl⟩) exPlain3 exQ (noColl_of (by decide +kernel)) sMaster
/-- a repository with one directory and no deletions: the log of two commits succeeds (C39_log, C58_log) -/
def exF1 : Fs := { ents := [([[115]], .dir), ([[115], [97]], .file [1] ⟨7, 6⟩), ([[115], [98]], .dir)], cwd := [[115]] }
def exF2 : Fs := { ents := [([[115]], .dir), ([[115], [97]], .file [1, 2] ⟨7, 8⟩), ([[115], [98]], .dir)], cwd := [[115]] }
def exV1 : World := (mainRun exX (.commit none [104, 105] none) (mainRun exX .init (exW exF1)).2.2).2.2
def exV2 : World := (mainRun exX (.commit none [104, 111] none) (withFs exV1 exF2)).2.2
theorem exVPlain : World.PlainSteps mixH (exW exF1) exV2 :=
  ((((World.PlainSteps.refl _).tail (.run exX rfl .init rfl _)).tail (.run exX rfl (.commit none [104, 105] none) rfl _)).tail (.edit _ (withFs exV1 exF2) fun _ => SameDb.refl _)).tail
    (.run exX rfl (.commit none [104, 111] none) rfl _)
example : NoColl mixH (exV2.dbs exQ) := noColl_of (by decide +kernel)
example : (match reflogGet (exV2.dbs exQ) sMaster none with
    | .ok k => (match logObj mixEnv exLib2 exF2 (fun _ l => l) 9 .stat k (exV2.dbs exQ, []) with
      | (.ok (), _, l) => (Spec.printedCommits l).length == 2 && (Spec.printedCommits l).head? == some k
      | _ => false)
    | _ => false) = true := by decide +kernel

/-- The user's first parent is not the one `log` follows. -/
theorem C58_order_counterexample : ∃ (H : Bytes → Key) (tree p q k : Key) (db : Db) (c : Commit),
    p ≠ q ∧ commitTree H tree [p, q] ⟨[], []⟩ {} = (.ok k, db) ∧ Commit.fromKey db k = .ok c ∧ c.parents.head? = some q := by
  have h : (match commitTree mixH (mixH []) [⟨List.replicate 32 1, by decide⟩, ⟨List.replicate 32 0, by decide⟩] ⟨[], []⟩ {} with
    | (.ok k, db) => (match Commit.fromKey db k with | .ok c => c.parents.head? == some ⟨List.replicate 32 0, by decide⟩ | _ => false)
    | _ => false) = true := by decide +kernel
  generalize e : commitTree mixH _ _ _ _ = r at h
  obtain ⟨r, db⟩ := r
  cases r with
  | ok k =>
    dsimp only at h
    cases e' : Commit.fromKey db k with
    | ok c => rw [e'] at h; exact ⟨_, _, _, _, k, db, c, by decide, e, e', by simpa using h⟩
    | _ => rw [e'] at h; simp at h
  | _ => simp at h

/-- C59, C60: the second world has objects of four types, the commit leading to blobs -/
example : (match reflogGet (exW3.dbs exQ) sMaster none with
    | .ok k => (match getObj (exW3.dbs exQ) k with | .ok o => o.objtype == .commit && o.keys.length == 2 | _ => false)
    | _ => false) = true ∧ (exW3.dbs exQ).data.length < 20 := by decide +kernel

/-! C61 -/

theorem at_mem {fs : Fs} {q : List Bytes} {c : Bytes} {md : FileMeta} (h : fs.at q = some (.file c md)) : ∃ e ∈ fs.ents, e.2 = .file c md := by
  unfold Fs.at at h
  split at h
  · simp at h
  · obtain ⟨e, h1, h2⟩ := Option.map_eq_some_iff.mp h
    exact ⟨e, List.mem_of_find?_eq_some h1, h2⟩

theorem faithfulFs_of {l : List Fs} (h : (l.all fun f => l.all fun g => f.ents.all fun a => g.ents.all fun b => match a.2, b.2 with
    | .file c md, .file c' md' => (tripleOf c md != tripleOf c' md' || c == c') && decide (c.length ≤ 32)
    | _, _ => true) = true) : FaithfulFs mixEnv l := by
  intro f hf g hg p p' c md c' md' h1 h2 h3
  obtain ⟨a, ha, ea⟩ := at_mem (metadata_ok h1).2.1
  obtain ⟨b, hb, eb⟩ := at_mem (metadata_ok h2).2.1
  have := List.all_eq_true.mp (List.all_eq_true.mp (List.all_eq_true.mp (List.all_eq_true.mp h f hf) g hg) a ha) b hb
  rw [ea, eb] at this
  simp [h3] at this
  obtain ⟨rfl, hlen⟩ := this
  refine ⟨rfl, ?_, ?_, rfl, rfl⟩ <;> simp [mixEnv, Spec.smallReads] <;> omega

deriving instance DecidableEq for Fs
theorem exSameFs : exW2.fs = exW1.fs := by decide +kernel
/-- the first commit was made on `exThen`: the status is clean, -/
theorem exUses2 : World.Uses mixEnv [exW1.fs, exThen] exW2 := .run exX rfl _ (.run (w := exW exThen) exX rfl .init (.start _ rfl))
example : ∃ head ck, getHead (exW1.dbs exQ) = .ok (some head) ∧ reflogGet (exW2.dbs exQ) head none = .ok ck ∧
    ((mainRun exX .status exW2).1 = .success ∧ (mainRun exX .status exW2).2.1 = [.headAt head (some (ck.asUserKey.take 8)), .result ⟨[], [], []⟩]) ∧
    ∀ n, (mainRun exX (.checkoutHead n) exW2).1 = .success ∧ rawGetState ((mainRun exX (.checkoutHead n) exW2).2.2.dbs exQ) sHEAD = .ok (some n) :=
  C61_commit exX exX rfl rfl rfl (Nat.le_refl _) (fun _ l => List.Perm.refl l) [104, 105] exW1 (wf_of_list (by decide +kernel) (by decide +kernel) (by decide +kernel) (by decide +kernel)) exR exQ
    (World.Reachable.inv exReach1 exQ) (by decide +kernel) ⟨exOpens1, by decide +kernel, fun fs => by
      have : ((Command.commit none [104, 105] none).inRepo exX exR (startOf exW1 exQ)).2.db.faults = [] := by decide +kernel
      rw [this]; simp⟩ (noColl_of (by decide +kernel)) exW2 exSameFs (SameDb.refl _) _ exUses2 (faithfulFs_of (by decide +kernel)) (by decide +kernel) (by decide +kernel)
/-- a file replaced by a directory is overlooked: `a` has become a directory, HEAD is set -/
def exOver : Fs := { ents := [([[115]], .dir), ([[115], [97]], .dir), ([[115], [100]], .dir), ([[115], [98]], .dir)], cwd := [[115]] }
theorem C61_overlooked_counterexample : (match mainRun exX (.checkoutHead [120]) (withFs exW2 exOver) with
    | (.success, _, w) => rawGetState (w.dbs exQ) sHEAD == .ok (some [120])
    | _ => false) = true := by decide +kernel

/-! C62: a repository in the hard-coded directory is committed, the files change (`a` other contents, `x` gone, `y/z` gone, `z` new), then `checkout` and `fetch` -/
def exG : Ctx := { exX with dbPath := [100], depth := 5 }
def exG' : Ctx := { exX with dbPath := [100], depth := 20 }
def exG1 : World := (mainRun exG .init (exW exRepo)).2.2
def exG2 : World := (mainRun exG (.commit none [104] none) exG1).2.2
def exRepo2 : Fs := { exRepo with ents := [([[104, 111, 109, 101]], .dir), (exGuardDirs.take 2, .dir), (exGuardDirs.take 3, .dir), (exGuardDirs.take 4, .dir), (exGuardDirs, .dir),
  (exGuardDirs ++ [[97]], .file [9, 9, 9] ⟨1, 2⟩), (exGuardDirs ++ [[101]], .dir), (exGuardDirs ++ [[121]], .dir), (exGuardDirs ++ [[122]], .file [] ⟨9, 2⟩), (exGuardDirs ++ [[100]], .dir),
  (exGuardDirs ++ [[100], [98]], .file [5] ⟨4, 1⟩)], cwd := exGuardDirs }
theorem exRepo2_wf : exRepo2.Wf := wf_of_list (by decide) (by decide) (by decide) (by decide)
def exGQ : List Bytes := exGuardDirs ++ [[100], sDbFile]
def exGR : Repo := ⟨Path.join (Path.ofComps (sSlash :: exGuardDirs)) [100], Path.ofComps (sSlash :: exGuardDirs)⟩
theorem exGOpens1 : Opens exG exG1 exGR exGQ := ⟨by decide +kernel, by decide +kernel, by decide +kernel⟩
theorem exGOpens2 : Opens exG' (withFs exG2 exRepo2) exGR exGQ := ⟨by decide +kernel, by decide +kernel, by decide +kernel⟩
example : Committed exG (.commit none [104] none) exG1 exGR exGQ := by
  refine ⟨exGOpens1, by decide +kernel, fun fs => ?_⟩
  have : ((Command.commit none [104] none).inRepo exG exGR (startOf exG1 exGQ)).2.db.faults = [] := by decide +kernel
  rw [this]; simp
example : NoColl exG.E.H (exG2.dbs exGQ) := noColl_of (by decide +kernel)
example : World.Steps mixH exG2 (withFs exG2 exRepo2) := (World.Steps.refl _).tail (.edit _ _ fun _ => SameDb.refl _)
example : 0 ∉ exGR.root ∧ sDotDot ∉ exGR.root.comps := by decide +kernel
example : exG.depth + 6 ≤ exG'.depth ∧ getHeadKey ((withFs exG2 exRepo2).dbs exGQ) = getHeadKey (exG2.dbs exGQ) := by decide +kernel
example : (match mainRun exG' .checkout (withFs exG2 exRepo2) with
    | (.success, _, w) => ([[[97]], [[120]], [[121], [122]], [[122]], [[100], [98]]].map fun p => w.fs.content (exGuardDirs ++ p)) == [some [9], some [9], some [], none, some [5]] &&
        w.fs.at (exGuardDirs ++ [[101]]) == some .dir
    | _ => false) = true := by decide +kernel
/-- `fetch` of the tree, by the first 20 letters of its key, into the new directory `n` -/
def exTreeKey : Keyish := match getHeadKey (exG2.dbs exGQ) with
  | .ok k => (match Commit.fromKey (exG2.dbs exGQ) k with
    | .ok c => (match Keyish.fromStr (c.tree.asUserKey.take 20) with
      | .ok t => t
      | _ => .key [] [])
    | _ => .key [] [])
  | _ => .key [] []
example : (match getHeadKey (exG2.dbs exGQ) with
    | .ok k => (match Commit.fromKey (exG2.dbs exGQ) k with
      | .ok c => canonicalize (exG2.dbs exGQ) exTreeKey == .ok c.tree
      | _ => false)
    | _ => false) = true := by decide +kernel
example : (match mainRun exG' (.fetch exTreeKey [110]) (withFs exG2 exRepo2) with
    | (.success, _, w) => ([[[97]], [[120]], [[121], [122]], [[122]], [[100], [98]]].map fun p => w.fs.content (exGuardDirs ++ [110] :: p)) == [some [9], some [9], some [], none, none]
    | _ => false) = true := by decide +kernel
/-- `checkout` fails where a stored directory is missing, and where a file stands in its place: the directory is listed before it is made -/
theorem C62_missing_counterexample : (match mainRun exG' .checkout (withFs exG2 { exRepo2 with ents := exRepo2.ents.filter fun e => !(e.1 == exGuardDirs ++ [[121]]) }) with
    | (.fatal .enoent, _, w) => w.fs.content (exGuardDirs ++ [[121], [122]]) == none
    | _ => false) = true := by decide +kernel
end Snap.Props
