import Verif.Props.LiveHash
import Verif.ExampleStatus
import Verif.ExampleLive
/-! Concrete cases of C95. -/
namespace Snap.Props
open Snap

/-- `a` grows after its length was asked for by `status`, and before it is opened. -/
def exTearing : Nat → Fs := fun t => if t < 9 then exW2.fs else exNow
def exTear : Sights := Spec.moving mixEnv exTearing (makeFilter (fun _ => false) exR.folder)
def exRipped : Exit × List Out × World := runRacing exX exTear exR exQ .status exNow exW2
theorem exRipped_ok : exRipped.1 = .success := by decide +kernel

/-- what it was seen to be: neither of the two versions. -/
def exMixture : Key := match Spec.keyOf mixEnv [.data [1, 2]] 1 with
  | .ok k => k
  | _ => ⟨List.replicate 32 0, by decide⟩
example : Spec.keyOf mixEnv [.data [1, 2]] 1 = .ok exMixture ∧ Spec.keyOf mixEnv [.data [1, 2]] 2 ≠ .ok exMixture ∧ Spec.keyOf mixEnv [.data [1]] 1 ≠ .ok exMixture := by decide +kernel
theorem exRipped_cached : exRipped.2.2.cache.get ⟨7, 8, 2⟩ = .ok (some exMixture) := by decide +kernel

/-- C95: the report, -/
example : ∃ ck c m B lo hi r, HeadCommit (exW2.dbs exQ) sMaster ck c ∧ toItems (exW2.dbs exQ) exX.depth (some c.tree) = .ok B ∧ lo ≤ hi ∧ (∀ e ∈ m, Spec.Listed exTear exR.root 0 lo e.1 e.2) ∧
    Spec.Reported exX.E exTear exW2.cache lo hi exR.root m B r ∧ exRipped.2.1 = [.headAt sMaster (some (ck.asUserKey.take 8)), .result (simplify r)] := by
  obtain ⟨ck, c, hh, _⟩ := exHead2
  obtain ⟨m, B, lo, hi, r, h1, _, h2, h3, h4, h5⟩ := C95_status exX (fun _ l => List.Perm.refl l) exTear exW2 exR exQ exNow sMaster ck c hh exRipped_ok
  exact ⟨ck, c, m, B, lo, hi, r, hh, h1, h2, h3, h4, h5⟩
example : (match exRipped.2.1 with
    | [.headAt _ (some _), .result r] => r.modified.map (fun m => (m.path, m.newKey)) == [([97], exMixture)] && r.added.isEmpty && r.deleted.isEmpty
    | _ => false) = true := by decide +kernel

/-- the database, -/
example : exRipped.2.2.Sound mixH := C95_sound exX exTear exW2 exSound2 exR exQ ⟨by decide +kernel, by decide +kernel, by decide +kernel⟩ (by decide) .status rfl exNow exNow_wf.sane
/-- and the cache. -/
example : exRipped.2.2.cache.get ⟨7, 8, 2⟩ = exW2.cache.get ⟨7, 8, 2⟩ ∨ exW2.cache.get ⟨7, 8, 2⟩ = .ok none ∧
    ∃ k, exRipped.2.2.cache.get ⟨7, 8, 2⟩ = .ok (some k) ∧ ∃ hi, Spec.Entered exX.E exTear 0 hi ⟨7, 8, 2⟩ k := C95_cache exX exTear exR exQ .status rfl exNow exW2 _
example : exW2.cache.get ⟨7, 8, 2⟩ = .ok none := by decide +kernel

/-- Then what is there is committed, and `status` run at once: `a` is modified, and it stays so, also if the same files are committed again. -/
def exStale : World := (mainRun exX (.commit none [104, 111] none) exRipped.2.2).2.2
def exStale' : World := (mainRun exX (.commit none [104, 112] none) exStale).2.2
theorem C95_counterexample : (mainRun exX (.commit none [104, 111] none) exRipped.2.2).1 = .success ∧ exStale.fs = exNow ∧ (mainRun exX .status exStale).1 = .success ∧
    (∃ h k r, (mainRun exX .status exStale).2.1 = [.headAt h (some k), .result r] ∧ r.modified.map (·.path) = [[97]]) ∧
    ∃ h k r, (mainRun exX .status exStale').2.1 = [.headAt h (some k), .result r] ∧ r.modified.map (·.path) = [[97]] := by
  have out : ∀ l : List Out, (match l with
      | [.headAt _ (some _), .result r] => r.modified.map (·.path) == [[97]]
      | _ => false) = true → ∃ h k r, l = [.headAt h (some k), .result r] ∧ r.modified.map (·.path) = [[97]] := by
    intro l h
    split at h
    · rename_i a b r
      exact ⟨a, b, r, rfl, by simpa using h⟩
    · simp at h
  exact ⟨by decide +kernel, by decide +kernel, by decide +kernel, out _ (by decide +kernel), out _ (by decide +kernel)⟩

theorem exAges : World.Ages exRipped.2.2 exStale := .run (.refl _) exX _
example : exStale.cache.get ⟨7, 8, 2⟩ = .ok (some exMixture) := C95_kept _ _ exAges _ _ exRipped_cached

/-- The commit has the right contents: -/
theorem exStale_head : ∃ hk c B m old, HeadCommit (exStale.dbs exQ) sMaster hk c ∧ walkItems (exStale.dbs exQ) exX.depth c.tree = .ok B ∧
    walkReal exStale.fs (makeFilter exX.glob exR.folder) exX.depth exR.root = .ok m ∧ ([97], false) ∈ m ∧ ([97], old, false) ∈ B ∧ Spec.keyOf mixEnv [.data [1, 2]] 2 = .ok old := by
  have h : (match reflogGet (exStale.dbs exQ) sMaster none with
    | .ok hk => (match Commit.fromKey (exStale.dbs exQ) hk with
      | .ok c => (match walkItems (exStale.dbs exQ) exX.depth c.tree, walkReal exStale.fs (makeFilter exX.glob exR.folder) exX.depth exR.root, Spec.keyOf mixEnv [.data [1, 2]] 2 with
        | .ok B, .ok m, .ok old => m.contains ([97], false) && B.contains ([97], old, false)
        | _, _, _ => false)
      | _ => false)
    | _ => false) = true := by decide +kernel
  have hg : getHead (exStale.dbs exQ) = .ok (some sMaster) := by decide +kernel
  split at h
  · rename_i hk e1
    split at h
    · rename_i c e2
      split at h
      · rename_i B m old e3 e4 e5
        simp only [Bool.and_eq_true, List.contains_iff_mem] at h
        exact ⟨hk, c, B, m, old, ⟨hg, e1, e2⟩, e3, e4, h.1, h.2, e5⟩
      · simp at h
    · simp at h
  · simp at h

example : ∃ (hk : Key) (r : DiffResult) (old : Key), (mainRun exX .status exStale).2.1 = [.headAt sMaster (some (hk.asUserKey.take 8)), .result r] ∧ ⟨[97], old, exMixture⟩ ∈ r.modified ∧
    Spec.keyOf mixEnv [.data [1, 2]] 2 = .ok old := by
  obtain ⟨hk, c, B, m, old, h1, h2, h3, h4, h5, h6⟩ := exStale_head
  have hne : exMixture ≠ old := by
    rintro rfl
    exact (by decide +kernel : Spec.keyOf mixEnv [.data [1, 2]] 2 ≠ .ok exMixture) h6
  obtain ⟨r, h7, h8⟩ := C95_forever exX (fun _ l => List.Perm.refl l) exRipped.2.2 exStale exAges ⟨7, 8, 2⟩ exMixture exRipped_cached exR exQ ⟨by decide +kernel, by decide +kernel, by decide +kernel⟩
    sMaster hk c h1 B h2 m h3 [97] old false h4 h5 hne [1, 2] ⟨7, 8⟩ (by decide +kernel) rfl (by decide +kernel)
  exact ⟨hk, r, old, h7, h8, h6⟩

/-- `a` is touched instead: HEAD moves. -/
def exTouched : Fs := { exThen with ents := [([[115]], .dir), ([[115], [97]], .file [1] ⟨7, 9⟩), ([[115], [100]], .dir), ([[115], [98]], .dir)] }
def exTouching : Nat → Fs := fun t => if t < 9 then exW2.fs else exTouched
def exTouch : Sights := Spec.moving mixEnv exTouching (makeFilter (fun _ => false) exR.folder)
theorem exTouch_whole : Spec.Untorn mixEnv [exW2.fs, exTouched] exTouch := by
  refine C95_untorn mixEnv exTouching _ _ (fun t => ?_) fun t p c md c' md' h1 h2 => ?_
  · unfold exTouching; split <;> simp
  · have key : ∀ fs ∈ [exW2.fs, exTouched], ∀ c md, fs.metadata p = .ok (.file c md) → c.length = 1 := by
      intro fs hfs c md h
      obtain ⟨e, he, h⟩ := at_mem (metadata_ok h).2.1
      have hall : ([exW2.fs, exTouched].all fun fs => fs.ents.all fun e => match e.2 with
        | .file c _ => c.length == 1
        | _ => true) = true := by decide +kernel
      have := List.all_eq_true.mp (List.all_eq_true.mp hall fs hfs) e he
      rw [h] at this
      simpa using this
    have mem : ∀ t, exTouching t ∈ [exW2.fs, exTouched] := fun t => by unfold exTouching; split <;> simp
    rw [key _ (mem t) c md h1, key _ (mem (t + 1)) c' md' h2]

def exMoved : Exit × List Out × World := runRacing exX exTouch exR exQ (.checkoutHead [100]) exTouched exW2
theorem exMoved_head : rawGetState (exMoved.2.2.dbs exQ) sHEAD ≠ rawGetState (exW2.dbs exQ) sHEAD := by decide +kernel
example : ∃ (ck : Key) (c : Commit) (m : PMap Bool) (B : PMap (Key × Bool)), HeadCommit (exW2.dbs exQ) sMaster ck c ∧ toItems (exW2.dbs exQ) exX.depth (some c.tree) = .ok B ∧ (∀ x d, (x, d) ∈ m → ∃ v, (x, v) ∈ B) ∧
    ∀ x k d, (x, k, d) ∈ B → (x, true) ∈ m ∨ ∃ fs ∈ [exW2.fs, exTouched], ∃ c md, fs.metadata (Path.join exR.root x) = .ok (.file c md) ∧ fileKey exX.E (Path.join exR.root x) c = .ok k := by
  obtain ⟨ck, c, hh, _⟩ := exHead2
  obtain ⟨m, B, lo, hi, h1, _, _, h3, _, h4⟩ := C95_head exX (fun _ l => List.Perm.refl l) exTouch exW2 exR exQ exTouched [100] (some c.tree) ⟨sMaster, hh.1, .inl ⟨ck, c, hh.2.1, hh.2.2, rfl⟩⟩ exMoved_head
  exact ⟨ck, c, m, B, hh, h1, h3, h4 _ _ exTouch_whole exUses2 (faithfulFs_of (by decide +kernel))⟩
/-- and the cache stays good for all that is proved about it. -/
example : World.Uses mixEnv ([exW2.fs, exTouched] ++ [exW1.fs, exThen]) exMoved.2.2 := .race exX rfl exTouch _ exTouch_whole exR exQ _ rfl _ exUses2

/-- Nothing changes. -/
example : runRacing exX (Spec.resting exX.E exW2.fs (makeFilter exX.glob exR.folder)) exR exQ .status exW2.fs exW2 = mainRun exX .status exW2 :=
  C95_still exX exW2 exR exQ ⟨by decide +kernel, by decide +kernel, by decide +kernel⟩ .status rfl

/-- `a` disappears after it was listed: the command fails, and the databases are as before. -/
def exFading : Sights := Spec.moving mixEnv (fun t => if t < 8 then exW2.fs else { exThen with ents := exThen.ents.filter (·.1 != [[115], [97]]) }) (makeFilter (fun _ => false) exR.folder)
example : (runRacing exX exFading exR exQ .status exNow exW2).1 = .fatal .enoent := by decide +kernel
example : ∀ q, SameDb ((runRacing exX exFading exR exQ .status exNow exW2).2.2.dbs q) (exW2.dbs q) :=
  C95_lost exX exFading exW2 exR exQ .status rfl exNow (.inl ⟨.enoent, by decide +kernel⟩)
/-- Of a file that is not stored, it panics. -/
def exFading' : Sights := Spec.moving mixEnv (fun t => if t < 9 then exNow else { exNow with ents := exNow.ents.filter (·.1 != [[115], [100], [120]]) }) (makeFilter (fun _ => false) exR.folder)
example : (runRacing exX exFading' exR exQ .status exNow (withFs exW2 exNow)).1 = .panicked := by decide +kernel

end Snap.Props
