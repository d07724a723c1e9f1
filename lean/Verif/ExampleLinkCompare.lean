import Verif.Props.LinkCompare
import Verif.ExampleLinkWrite
import Verif.ExampleLinks
/-! Concrete cases of C97. -/
namespace Snap.Props
open Snap

theorem exAlias_honest : Spec.Honest mixEnv exAlias := by
  have hf : ∀ p c md, exAlias.metadata p = .ok (.file c md) → (c = [1] ∧ md = ⟨1, 1⟩) ∨ (c = [7, 7] ∧ md = ⟨2, 2⟩) := by
    intro p c md h
    obtain ⟨q, _, h2⟩ := lmeta_iff.mp h
    have hq : q ≠ [] := by
      rintro rfl
      simp [LinkFs.at] at h2
    have := lat_mem_ents hq h2
    simp [exAlias] at this
    rcases this with ⟨_, rfl, rfl⟩ | ⟨_, rfl, rfl⟩ <;> simp
  intro p p' c md c' md' h1 h2 h3
  have hs : Snap.Spec.smallReads [.data c] := by
    rcases hf p c md h1 with ⟨rfl, _⟩ | ⟨rfl, _⟩ <;> simp [Snap.Spec.smallReads]
  refine ⟨?_, hs, hs, rfl, rfl⟩
  rcases hf p c md h1 with ⟨rfl, rfl⟩ | ⟨rfl, rfl⟩ <;> rcases hf p' c' md' h2 with ⟨rfl, rfl⟩ | ⟨rfl, rfl⟩ <;> first | rfl | (exact absurd h3 (by decide))

theorem exVouched (fs : LinkFs) {ca : Cache} (h : ca.rows = []) : Spec.Vouched mixEnv fs ca := fun _ _ _ _ => Or.inl (by simp [Cache.get, h, assoc])

/-- After the commit of the directory with links -/
def exAliasW : World := (runLive exX exAliasA exR exQ (.commit none [104, 105] none) exNow exW1).2.2

/-- C97: `status` finds no differences, and HEAD may be set. -/
example : ∃ head ck, getHead (exW1.dbs exQ) = .ok (some head) ∧ reflogGet (exAliasW.dbs exQ) head none = .ok ck ∧
    let A := exAlias.sights mixEnv (fun _ => false) exR.folder
    ((runRacing exX A exR exQ .status exNow exAliasW).1 = .success ∧ (runRacing exX A exR exQ .status exNow exAliasW).2.1 = [.headAt head (some (ck.asUserKey.take 8)), .result ⟨[], [], []⟩]) ∧
    ∀ n, (runRacing exX A exR exQ (.checkoutHead n) exNow exAliasW).1 = .success ∧ (runRacing exX A exR exQ (.checkoutHead n) exNow exAliasW).2.1 = [.text sNewHead] ∧
      rawGetState ((runRacing exX A exR exQ (.checkoutHead n) exNow exAliasW).2.2.dbs exQ) sHEAD = .ok (some n) :=
  C97_commit exX (fun _ _ => List.Perm.refl _) exAlias exAlias_sane exAlias_honest [104, 105] exW1 exR exQ ⟨by decide +kernel, by decide +kernel⟩ (by decide +kernel) exNow (by decide +kernel)
    (fun fs h => absurd h (by
      have : ((Command.commit none [104, 105] none).live exX (exAlias.answers exX.E exX.glob exR.folder) exR (startOf exW1 exQ)).2.db.faults = [] := by decide +kernel
      rw [this]; simp)) (noColl_of (by decide +kernel)) exAliasW ⟨⟨rfl, rfl, rfl⟩, fun _ h => h⟩
    (exVouched _ (by decide +kernel)) (by decide +kernel) (by decide +kernel)

/-- where the directories and what is reached through the links are all that is listed, -/
def exAliasList : PMap Bool := [([97], false), ([100], true), ([100, 47, 120], false), ([101], true), ([101, 47, 120], false)]
theorem exAliasList_ok : walkLive (σ := Unit) (exAlias.sights mixEnv (fun _ => false) exR.folder) exR.root 9 [] ((), 0) = (.ok exAliasList, ((), 17)) := by decide +kernel
example (p : Path) (dir : Bool) : (p, dir) ∈ exAliasList ↔
    ∃ x : Spec.Seen, Spec.Reached exAlias mixEnv (fun _ => false) exR.folder exR.root x ∧ x.rel ≠ [] ∧ p = relPath x.rel ∧ dir = x.what.isNone :=
  C97_listed mixEnv exAlias exAlias_sane _ _ _ 9 _ _ _ exAliasList_ok p dir

/-- and what was stored: `exAliasK` is the tree of that commit. -/
def exAliasK : Key := match (putLive mixEnv exAliasA 9 exR.root (exW1.dbs exQ, 0)).1 with | .ok k => k | _ => mixH []
theorem exAlias_empty : ∃ s', compareLive mixEnv (exAlias.sights mixEnv (fun _ => false) exR.folder) exX.iter 9 exR.root (some exAliasK) ((exAliasW.dbs exQ, exAliasW.cache), 0) =
    (.ok ⟨[], [], []⟩, s') := ⟨_, Prod.ext (by decide +kernel) rfl⟩
example : ∃ B, walkItems (exAliasW.dbs exQ) 9 exAliasK = .ok B ∧
    (∀ p, (∃ v, (p, v) ∈ B) ↔ ∃ x : Spec.Seen, Spec.Reached exAlias mixEnv (fun _ => false) exR.folder exR.root x ∧ x.rel ≠ [] ∧ p = relPath x.rel) ∧
    ∀ rel len evs, Spec.Reached exAlias mixEnv (fun _ => false) exR.folder exR.root ⟨rel, some (len, evs)⟩ → ∀ kf d, (relPath rel, kf, d) ∈ B → rel ≠ [] →
      ∃ c md, exAlias.metadata (joins exR.root rel) = .ok (.file c md) ∧ fileKey mixEnv (joins exR.root rel) c = .ok kf := by
  obtain ⟨s', h⟩ := exAlias_empty
  exact C97_noticed mixEnv exAlias exAlias_sane exAlias_honest _ _ _ _ (fun _ _ => List.Perm.refl _) 9 _ _ _ (exVouched _ (by decide +kernel)) 0 s' h

/-- The file outside is changed: both paths that lead to it are reported. -/
def exAlias' : LinkFs := { exAlias with ents := exAlias.ents.map fun e => if e.1 == [[111], [102]] then (e.1, .file [8, 8] ⟨2, 3⟩) else e }
example : ((compareLive mixEnv (exAlias'.sights mixEnv (fun _ => false) exR.folder) exX.iter 9 exR.root (some exAliasK) ((exAliasW.dbs exQ, exAliasW.cache), 0)).1.bind
    fun r => .ok (r.deleted.length, r.added.length, r.modified.map (·.path))) = .ok (0, 0, [[100, 47, 120], [101, 47, 120]]) := by decide +kernel

/-- C97: recursion of depth 17 is always enough for it. -/
example : Halts (walkLive (σ := Db × Cache) (exAlias.sights mixEnv (fun _ => false) exR.folder) exR.root 17 []) :=
  C97_ends _ mixEnv exAlias exAlias_sane _ _ _ (by decide) 3 (by decide) 17 (by decide)

/-- C97: a directory that contains itself has no differences from anything. -/
example (n : Nat) (to : Option Key) (s s' : (Db × Cache) × Nat) (res : DiffResult) :
    compareLive mixEnv (exLooped.sights mixEnv (fun _ => false) exR.folder) exX.iter n exR.root to s ≠ (.ok res, s') := by
  refine C97_cycle mixEnv exLooped exLooped_sane exR.folder exR.root [] [[100], [108]] (by simp) [[115]] (by decide +kernel) ?_ (by decide +kernel) _ n to s s' res
  refine ⟨fun r m h => ?_, [[115]], by decide +kernel⟩
  have h2 : r ++ [m] = [[100]] ∨ r ++ [m] = [[100], [108]] := by
    match r, h with
    | [], h => simp_all
    | [a], h => simp_all
    | a :: b :: c, h => simpa using h.length_le
  rcases h2 with h2 | h2
  · obtain ⟨rfl, rfl⟩ : r = [] ∧ m = [100] := by
      match r, h2 with
      | [], h2 => simp_all
      | a :: c, h2 => simp_all
    exact ⟨[[115]], [[115], [100]], [[115], [98]], by decide +kernel⟩
  · obtain ⟨rfl, rfl⟩ : r = [[100]] ∧ m = [108] := by
      match r, h2 with
      | [], h2 => simp_all
      | [a], h2 => simp_all
      | a :: b :: c, h2 => simp_all
    exact ⟨[[115], [100]], [[115]], [[115], [98]], by decide +kernel⟩

/-- C97: the file systems of the other examples. -/
example : (exNow.asLinks 40).sights mixEnv (fun _ => false) exR.folder = Spec.resting mixEnv exNow (makeFilter (fun _ => false) exR.folder) :=
  C97_plain exNow exNow_wf.sane (by decide +kernel) 40 mixEnv _ _

end Snap.Props
