import Verif.Props.DiffFs
/-! Concrete cases meeting the hypotheses of C49, C50 and C51. -/
namespace Snap.Props
open Snap

/-- An example hash that depends on every byte. -/
def natBytes : Nat → Nat → Bytes
  | 0, _ => []
  | w + 1, n => UInt8.ofNat (n % 256) :: natBytes w (n / 256)
theorem natBytes_length (w n : Nat) : (natBytes w n).length = w := by
  induction w generalizing n with
  | zero => rfl
  | succ w ih => simp [natBytes, ih]
def mixH (x : Bytes) : Key := ⟨natBytes 32 (x.foldl (fun h b => (h * 1000003 + b.toNat + 1) % 2 ^ 256) 7), natBytes_length _ _⟩
def mixEnv : Env := ⟨mixH, fun _ => 0, fun _ c => [.data c]⟩

theorem noColl_of {H : Bytes → Key} {db : Db} (h : (db.hashed.all fun x => db.hashed.all fun y => H x != H y || x == y) = true) : NoColl H db := by
  intro x hx y hy he
  have := List.all_eq_true.mp (List.all_eq_true.mp h x hx) y hy
  simp [he] at this
  exact this

/-- `/s` with `a`, `d/x`, and the database `/s/b` -/
def exNow : Fs := { ents := [([[115]], .dir), ([[115], [97]], .file [1, 2] ⟨7, 8⟩), ([[115], [100]], .dir), ([[115], [100], [120]], .file [3] ⟨8, 8⟩), ([[115], [98]], .dir)], cwd := [[115]] }
/-- before: `a` had other contents, `d` was empty -/
def exThen : Fs := { ents := [([[115]], .dir), ([[115], [97]], .file [1] ⟨7, 6⟩), ([[115], [100]], .dir), ([[115], [98]], .dir)], cwd := [[115]] }
theorem exNow_wf : exNow.Wf := wf_of_list (by decide) (by decide) (by decide) (by decide)
theorem exThen_wf : exThen.Wf := wf_of_list (by decide) (by decide) (by decide) (by decide)

def exFilter : Filter := makeFilter (fun _ => false) [98]

def exDb1 : Db := (putFsItem mixEnv exThen exFilter 3 sDot {}).2
def exDb2 : Db := (putFsItem mixEnv exNow exFilter 3 sDot exDb1).2

theorem key_of {α} {r : Res α × Db} (h : r.1.isOk = true) : ∃ k, r = (.ok k, r.2) := by
  obtain ⟨r, d⟩ := r
  cases r <;> simp [Res.isOk] at h
  exact ⟨_, rfl⟩

theorem exSnap1 : ∃ t, Snapshot mixEnv exDb1 t exThen exFilter 3 sDot ∧ putFsItem mixEnv exThen exFilter 3 sDot {} = (.ok t, exDb1) := by
  obtain ⟨t, ht⟩ := key_of (r := putFsItem mixEnv exThen exFilter 3 sDot {}) (by decide +kernel)
  exact ⟨t, ⟨exThen_wf, by decide +kernel, {}, _, inv_empty _ [], ht, noColl_of (by decide +kernel), List.prefix_refl _⟩, ht⟩

theorem exInv1 : Inv mixEnv.H exDb1 := (((isPuts_putFsItem mixEnv exThen exFilter 3 sDot).grow {}).inv (inv_empty _ []))

theorem exSnap2 : ∃ k, Snapshot mixEnv exDb2 k exNow exFilter 3 sDot ∧ putFsItem mixEnv exNow exFilter 3 sDot exDb1 = (.ok k, exDb2) := by
  obtain ⟨t, ht⟩ := key_of (r := putFsItem mixEnv exNow exFilter 3 sDot exDb1) (by decide +kernel)
  exact ⟨t, ⟨exNow_wf, by decide +kernel, exDb1, _, exInv1, ht, noColl_of (by decide +kernel), List.prefix_refl _⟩, ht⟩

/-- C49: both snapshots are in `exDb2` -/
example : ∃ t, Snapshot mixEnv exDb2 t exThen exFilter 3 sDot := by
  obtain ⟨t, ⟨h1, h2, d, d', h3, h4, h5, h6⟩, _⟩ := exSnap1
  exact ⟨t, h1, h2, d, d', h3, h4, h5, h6.trans ((isPuts_putFsItem mixEnv exNow exFilter 3 sDot).grow exDb1).data⟩
example : FullyRead mixEnv [97] [1, 2] := by
  refine ⟨rfl, rfl, by simp [mixEnv, Spec.smallReads], ?_⟩
  unfold Spec.Spilled
  decide +kernel

/-- and comparing them gives: `d/x` added, `a` and `d` modified; comparing in the other direction panics -/
def exBoth : M (Key × Key) := do
  let t ← putFsItem mixEnv exThen exFilter 3 sDot
  let k ← putFsItem mixEnv exNow exFilter 3 sDot
  pure (t, k)
example : (match exBoth {} with
    | (.ok (t, k), db) => (match compare mixEnv exNow (fun _ l => l.reverse) 3 (.database k) (some t) (db, {}) with
      | (.ok r, _) => r.added.map (fun e => (e.path, e.isDir)) == [([100, 47, 120], false)] && r.modified.map (·.path) == [[97], [100]] && r.deleted == []
      | _ => false) &&
      (match compare mixEnv exNow (fun _ l => l) 3 (.database t) (some k) (db, {}) with | (.panic, _) => true | _ => false)
    | _ => false) = true := by decide +kernel

/-- C50: the directory now against the stored snapshot: `d/x` added, `a` modified; what is stored is what putting the file would store -/
example : (match putFsItem mixEnv exThen exFilter 3 sDot {} with
    | (.ok t, db) => (match compare mixEnv exNow (fun _ l => l.reverse) 3 (.fileSystem sDot (fun _ => false) [98]) (some t) (db, {}) with
      | (.ok r, s) => r.added.map (fun e => (e.path, e.isDir)) == [([100, 47, 120], false)] && r.modified.map (·.path) == [[97]] && r.deleted == [] &&
          (s.1.data.length == db.data.length + 4) && s.2.rows.length == 2
      | _ => false)
    | _ => false) = true := by decide +kernel
example : Hist mixEnv [] (exDb1, {}) := Hist.start _ _
example : loc exNow.cwd sDot = exNow.cwd := by decide
example : walkReal exNow exFilter 3 sDot = .ok [([97], false), ([100], true), ([100, 47, 120], false)] := by decide +kernel
/-- run from `/`, the new file `d/x` is not found -/
example : (match putFsItem mixEnv exThen exFilter 3 sDot {} with
    | (.ok t, db) => (match (compare mixEnv { exNow with cwd := [] } (fun _ l => l.reverse) 3 (.fileSystem [115] (fun _ => false) [115, 47, 98]) (some t) (db, {})).1 with
      | .panic => true
      | _ => false)
    | _ => false) = true := by decide +kernel

/-- C51: two files on different file systems, with the same inode number, mtime and size but different contents: what is reported depends on the iteration order -/
theorem C51_order_counterexample : ∃ fs : Fs, (compare mixEnv fs (fun _ l => l) 3 (.fileSystem sDot (fun _ => false) [98]) none ({}, {})).1 ≠
    (compare mixEnv fs (fun _ l => l.reverse) 3 (.fileSystem sDot (fun _ => false) [98]) none ({}, {})).1 := by
  refine ⟨{ ents := [([[97]], .file [1] ⟨7, 8⟩), ([[99]], .file [2] ⟨7, 8⟩), ([[98]], .dir)] }, ?_⟩
  decide +kernel

end Snap.Props
