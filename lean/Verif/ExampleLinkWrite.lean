import Verif.Props.LinkPlain
import Verif.ExamplePanicCheckout
import Verif.ExampleLinks
/-! Concrete cases of C96. -/
namespace Snap.Props
open Snap Spec

/-- the tree of `exNow`: `a`, with contents 1 2, and `d/x`, with contents 3 -/
def exTreeOf : Key := match putFsItem mixEnv exNow exFilter 3 sDot {} with
  | (.ok k, _) => k
  | _ => ⟨List.replicate 32 0, by decide⟩
def exTreeDb : Db := (putFsItem mixEnv exNow exFilter 3 sDot {}).2

theorem exTree_put : putFsItem mixEnv exNow exFilter 3 sDot {} = (.ok exTreeOf, exTreeDb) := by
  obtain ⟨k, hk⟩ := key_of (r := putFsItem mixEnv exNow exFilter 3 sDot {}) (by decide +kernel)
  rw [exTreeOf, exTreeDb, hk]

/-- the places of the tree, and that its files are among them -/
theorem exTree_stored : ∃ ns : List KNode, Snap.Stored exTreeDb 3 exTreeOf ns ∧ (∀ x ∈ ns, ∀ m ∈ x.node.rel, okName m) ∧ (ns.map fun x => x.node.rel).Nodup ∧
    (∀ x ∈ ns, x.node.rel ∈ ([[], [[97]], [[100]], [[100], [120]]] : List (List Bytes))) ∧ ([[97]], [1, 2]) ∈ filesOf ns ∧ ([[100], [120]], [3]) ∈ filesOf ns := by
  obtain ⟨ns, h1, h2, h3, h4, h5, h6⟩ := put_nodes exNow_wf (inv_empty _ []) exTree_put (noColl_of (by decide +kernel))
  have hb : exFilter exNow (joins sDot [[98]]) ≠ .ok true := by decide +kernel
  have hrel : ∀ x ∈ ns, x.node.rel ∈ ([[], [[97]], [[100]], [[100], [120]]] : List (List Bytes)) := by
    intro x hx
    obtain ⟨hv, hn⟩ := (h4 x.node.rel).mp ⟨x, hx, rfl⟩
    have hl : loc exNow.cwd sDot = [[115]] := by decide +kernel
    rw [hl] at hn
    cases he : exNow.at ([[115]] ++ x.node.rel) with
    | none => exact absurd he hn
    | some e =>
      have hm := Snap.at_mem (by simp) he
      simp only [exNow, List.mem_cons, Prod.mk.injEq, List.not_mem_nil, or_false] at hm
      rcases hm with ⟨h, -⟩ | ⟨h, -⟩ | ⟨h, -⟩ | ⟨h, -⟩ | ⟨h, -⟩ <;> simp at h
      · simp [h]
      · simp [h]
      · simp [h]
      · simp [h]
      · exact absurd (hv _ (by rw [h]; simp) (List.prefix_refl _)) (by rw [h]; exact hb)
  have hfile : ∀ rel c, Visible exNow exFilter sDot rel → exNow.content (loc exNow.cwd sDot ++ rel) = some c → Spec.delivered (mixEnv.rd (joins sDot rel) c) = c →
      ¬ Spec.Spilled ((chunks mixEnv.table (mixEnv.rd (joins sDot rel) c)).1.map Prod.snd) → (rel, c) ∈ filesOf ns := by
    intro rel c hv hc hd hsp
    obtain ⟨x, hx, rfl, c', hc', lost, e1, -, e3⟩ := h6 rel c ⟨hv, hc⟩
    rw [e3 hsp, hd, List.nil_append] at e1
    exact mem_filesOf.mpr ⟨x, hx, rfl, by rw [hc', e1]⟩
  refine ⟨ns, h1, h2, h3, hrel, hfile _ _ ?_ (by decide +kernel) (by decide +kernel) (by unfold Spec.Spilled; decide +kernel),
    hfile _ _ ?_ (by decide +kernel) (by decide +kernel) (by unfold Spec.Spilled; decide +kernel)⟩
  · have : ∀ i : Fin 3, ([[97]] : List Bytes).take i ≠ [] → exFilter exNow (joins sDot (([[97]] : List Bytes).take i)) = .ok true := by decide +kernel
    intro r hr hp
    have h := this ⟨r.length, by have := hp.length_le; simp at this; omega⟩
    rw [← List.prefix_iff_eq_take.mp hp] at h
    exact h hr
  · have : ∀ i : Fin 3, ([[100], [120]] : List Bytes).take i ≠ [] → exFilter exNow (joins sDot (([[100], [120]] : List Bytes).take i)) = .ok true := by decide +kernel
    intro r hr hp
    have h := this ⟨r.length, by have := hp.length_le; simp at this; omega⟩
    rw [← List.prefix_iff_eq_take.mp hp] at h
    exact h hr

theorem lat_mem_ents {fs : LinkFs} {q : List Bytes} {e : LinkEnt} (hq : q ≠ []) (h : fs.at q = some e) : (q, e) ∈ fs.ents := by
  unfold LinkFs.at at h
  rw [if_neg hq] at h
  obtain ⟨x, h1, rfl⟩ := Option.map_eq_some_iff.mp h
  have := List.find?_some h1
  simp only [beq_iff_eq] at this
  subst this
  exact List.mem_of_find?_eq_some h1

/-- under the built-in directory: `a` and `d` as in the tree, the database folder `b`, and `z`, a link to the directory `/o` -/
def exShelf : Disk := {
  ents := [([[104, 111, 109, 101]], .dir), (exGuardDirs.take 2, .dir), (exGuardDirs.take 3, .dir), (exGuardDirs.take 4, .dir), (exGuardDirs, .dir),
    (exGuardDirs ++ [[97]], .file [9, 9, 9] ⟨1, 2⟩), (exGuardDirs ++ [[100]], .dir), (exGuardDirs ++ [[122]], .link [47, 111]), (exGuardDirs ++ [[98]], .dir),
    (exGuardDirs ++ [[98], [102]], .file [5] ⟨3, 3⟩), ([[111]], .dir), ([[111], [102]], .file [7, 7] ⟨2, 2⟩)],
  cwd := exGuardDirs, limit := 3 }

def exShelfPath : Path := Path.ofComps (sSlash :: exGuardDirs)

/-- fetching to `z/n`, which leads to `/o/n` -/
def exPulled : Res Unit × Disk := getLinked exTreeDb 12 exTreeOf (Path.join exShelfPath [122, 47, 110]) exShelf
example : exPulled.1 = .ok () ∧ exPulled.2.at [[111], [110], [97]] = some (.file [1, 2] ⟨0, 0⟩) ∧ exPulled.2.at [[111], [110], [100], [120]] = some (.file [3] ⟨0, 0⟩) := by decide +kernel
/-- C96: nothing else has changed; -/
example : Adds exShelf exPulled.2 := C96_kept _ _ _ _ _
/-- `/o/n/d` is on the way to a file of the tree; -/
example : ∃ rel p j, Comes exTreeDb exTreeOf rel false ∧ OnWay (joins (Path.join exShelfPath [122, 47, 110]) rel) p ∧ exPulled.2.locate p = .ok (j, [[111], [110], [100]]) :=
  C96_places _ _ _ _ _ _ (by decide +kernel) (by decide +kernel)
/-- the file can be read at its path; -/
example : ∃ q md, exPulled.2.metadata (joins (Path.join exShelfPath [122, 47, 110]) [[100], [120]]) = .ok (.file [3] md) ∧
    exPulled.2.canonicalize (joins (Path.join exShelfPath [122, 47, 110]) [[100], [120]]) = .ok q ∧ exPulled.2.at q = some (.file [3] md) ∧ exShelf.at q = none := by
  obtain ⟨ns, h1, -, -, -, -, h6⟩ := exTree_stored
  exact C96_restored h1 (by decide) _ (d' := exPulled.2) (Prod.ext (by decide +kernel) rfl) _ _ h6
/-- and is below the place that the path led to. -/
example : ∃ md, exPulled.2.at ([[111], [110]] ++ [[100], [120]]) = some (.file [3] md) := by
  obtain ⟨ns, h1, h2, -, -, -, h6⟩ := exTree_stored
  refine C96_vacant h1 h2 (fuel := 12) (by decide) (Path.join exShelfPath [122, 47, 110]) (d := exShelf) (by decide +kernel) ?_ (d' := exPulled.2) (Prod.ext (by decide +kernel) rfl) _ _ h6
  intro q hq
  cases he : exShelf.at q with
  | none => rfl
  | some e =>
    exfalso
    have hne : q ≠ [] := by rintro rfl; simp at hq
    have hm : (exShelf.ents.any fun x => [[111], [110]].isPrefixOf x.1) = true := List.any_eq_true.mpr ⟨(q, e), lat_mem_ents hne he, by simpa using hq⟩
    exact absurd hm (by decide +kernel)

/-- C96: checking out with a link in the directory where the tree has nothing: the link is removed, what it leads to stays, and the database folder stays. -/
def exRestored : Res Unit × Disk := checkoutLinked exTreeDb (fun _ => false) [98] id 12 exTreeOf exShelfPath exShelf
example : exRestored.1 = .ok () ∧ exRestored.2.at (exGuardDirs ++ [[97]]) = some (.file [1, 2] ⟨1, 0⟩) ∧ exRestored.2.at (exGuardDirs ++ [[100], [120]]) = some (.file [3] ⟨0, 0⟩) ∧
    exRestored.2.at (exGuardDirs ++ [[122]]) = none := by decide +kernel
example : (∀ q, ¬ exGuardDirs <+: q → exRestored.2.at q = exShelf.at q) ∧ ∀ q, exGuardDirs ++ [[98]] <+: q → exRestored.2.at q = exShelf.at q := by
  obtain ⟨ns, h1, h2, h3, h4, -, -⟩ := exTree_stored
  have hl : loc exShelf.cwd exShelfPath = exGuardDirs := by decide +kernel
  have hb : loc exShelf.cwd [98] = exGuardDirs ++ [[98]] := by decide +kernel
  have h := C96_checkout h1 h2 h3 12 (fun _ => false) [98] id (fun _ _ h => h) exShelfPath (by decide +kernel) exShelf (by unfold okName; decide +kernel) (by unfold okName; decide +kernel)
    (by
      rw [hl]
      intro q hq hn
      have : ∀ i : Fin 5, exShelf.at (exGuardDirs.take i) = some .dir := by decide +kernel
      have hlt : q.length < 5 := by
        have h1 := hq.length_le
        have h2 : exGuardDirs.length = 5 := by decide
        rcases Nat.lt_or_ge q.length 5 with h | h
        · exact h
        · exact absurd (hq.eq_of_length (by omega)) hn
      rw [List.prefix_iff_eq_take.mp hq]
      exact this ⟨_, hlt⟩)
    (by
      rw [hl]
      intro x hx t
      have hm := h4 x hx
      simp only [List.mem_cons, List.not_mem_nil, or_false] at hm
      rcases hm with h | h | h | h <;> rw [h] <;> revert t
      · rw [show exShelf.at (exGuardDirs ++ []) = some .dir by decide +kernel]; simp
      · rw [show exShelf.at (exGuardDirs ++ [[97]]) = some (.file [9, 9, 9] ⟨1, 2⟩) by decide +kernel]; simp
      · rw [show exShelf.at (exGuardDirs ++ [[100]]) = some .dir by decide +kernel]; simp
      · rw [show exShelf.at (exGuardDirs ++ [[100], [120]]) = none by decide +kernel]; simp)
  rw [hl, hb] at h
  obtain ⟨x0, hx0, hr0⟩ := stored_root h1
  refine ⟨h.1, h.2.2 x0 hx0 [98] (by unfold okName; decide) ?_ (by decide) (by rw [hr0]; simp) (by rw [show exShelf.at (exGuardDirs ++ [[98]]) = some .dir by decide +kernel]; simp)⟩
  intro y hy he
  have := h4 y hy
  rw [he, hr0] at this
  exact absurd this (by decide)

/-- without links -/
example : checkoutLinked exTreeDb (fun _ => false) [98] id 12 exTreeOf exShelfPath (exRepo2.asDisk 3) =
    ((checkoutFsItem exTreeDb (makeFilter (fun _ => false) [98]) id 12 exTreeOf exShelfPath exRepo2).1,
      (checkoutFsItem exTreeDb (makeFilter (fun _ => false) [98]) id 12 exTreeOf exShelfPath exRepo2).2.asDisk 3) := C96_plain_checkout _ (by decide) _ _ _ _ _ _ _ _
example : getLinked exTreeDb 12 exTreeOf [110] (exRepo2.asDisk 3) =
    ((getFsItem exTreeDb 12 exTreeOf [110] exRepo2).1, (getFsItem exTreeDb 12 exTreeOf [110] exRepo2).2.asDisk 3) ∧ (getFsItem exTreeDb 12 exTreeOf [110] exRepo2).1 = .ok () :=
  ⟨C96_plain_fetch _ (by decide) _ _ _ _ _, by decide +kernel⟩

/-- `d` is a link to `/o`, which has the file `f` -/
def exTrapDir : Disk := { exShelf with ents := exShelf.ents.map fun e => if e.1 == exGuardDirs ++ [[100]] then (e.1, .link [47, 111]) else e }
/-- `a` is a link to the file `/o/f` -/
def exTrapFile : Disk := { exShelf with ents := exShelf.ents.map fun e => if e.1 == exGuardDirs ++ [[97]] then (e.1, .link [47, 111, 47, 102]) else e }

/-- **C96**: with a link where the tree has a file or directory, checking out succeeds and removes files outside the directory, makes new ones there, and writes over them. -/
theorem C96_outside_counterexample :
    (∃ d', checkoutLinked exTreeDb (fun _ => false) [98] id 12 exTreeOf exShelfPath exTrapDir = (.ok (), d') ∧
      exTrapDir.at [[111], [102]] = some (.file [7, 7] ⟨2, 2⟩) ∧ d'.at [[111], [102]] = none ∧ exTrapDir.at [[111], [120]] = none ∧ d'.at [[111], [120]] = some (.file [3] ⟨0, 0⟩)) ∧
    ∃ d', checkoutLinked exTreeDb (fun _ => false) [98] id 12 exTreeOf exShelfPath exTrapFile = (.ok (), d') ∧
      exTrapFile.at [[111], [102]] = some (.file [7, 7] ⟨2, 2⟩) ∧ d'.at [[111], [102]] = some (.file [1, 2] ⟨2, 0⟩) :=
  ⟨⟨_, Prod.ext (by decide +kernel) rfl, by decide +kernel, by decide +kernel, by decide +kernel, by decide +kernel⟩,
    _, Prod.ext (by decide +kernel) rfl, by decide +kernel, by decide +kernel⟩

/-- a dangling link in a directory of the tree makes checking out panic before anything is changed -/
example : (checkoutLinked exTreeDb (fun _ => false) [98] id 12 exTreeOf exShelfPath { exShelf with ents := exShelf.ents ++ [(exGuardDirs ++ [[121]], .link [47, 113])] }).1 = .panic := by decide +kernel

end Snap.Props
