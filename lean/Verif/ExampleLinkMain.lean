import Verif.ExampleCli
import Verif.Props.LinkMain
/-! Cases for C101. -/
namespace Snap.Props
open Snap

/-- `/s`; the directories `/a` and `/c`, in which the folder, `b`, is a link to it; `/a/i`, in which `b` leads nowhere; and `/d`, in which it does not either. -/
def exLd (cwd : List Bytes) : Disk where
  ents := [([[115]], .dir), ([[97]], .dir), ([[97], [98]], .link [47, 115]), ([[97], [105]], .dir), ([[97], [105], [98]], .link [110, 111]), ([[97], [102]], .file [1, 2] ⟨3, 4⟩),
    ([[99]], .dir), ([[99], [98]], .link [46, 46, 47, 115]), ([[100]], .dir), ([[100], [98]], .link [110, 111])]
  cwd := cwd

theorem exLd_sane (cwd : List Bytes) : (exLd cwd).toLinkFs.Sane := ⟨by simp only [exLd]; decide, by simp only [exLd]; unfold okName; decide⟩

theorem exLd_free (cwd : List Bytes) (t : Path) : (exLd cwd).at ([[115]] ++ [sDbFile]) ≠ some (.link t) := by
  rw [show (exLd cwd).at ([[115]] ++ [sDbFile]) = none from by rfl]
  simp

/-- The program is started in this directory. -/
def exLw (cwd : List Bytes) (dbs : List Bytes → Db) : LinkWorld := ⟨exLd cwd, dbs, {}⟩

/-- `/s/snapcd.db` -/
def exLq : List Bytes := [[115], sDbFile]
/-- The databases after `init` in `/a`, and then after a commit in `/a/i`. -/
def exLdbs1 : List Bytes → Db := (mainLinked exX .init (exLw [[97]] fun _ => {})).2.2.dbs
def exLdbs2 : List Bytes → Db := (mainLinked exX (.commit (some [46, 46, 47, 102]) [104, 105] none) (exLw [[97], [105]] exLdbs1)).2.2.dbs

/-- `/a/b` -/
def exLa : Repo := ⟨[47, 97, 47, 98], [47, 97]⟩
/-- `/c/b` -/
def exLc : Repo := ⟨[47, 99, 47, 98], [47, 99]⟩

theorem exLa_opens (dbs : List Bytes → Db) : OpensLinked exX (exLw [[97], [105]] dbs) exLa exLq := ⟨by rfl, by rfl, by rfl⟩
theorem exLc_opens (dbs : List Bytes → Db) : OpensLinked exX (exLw [[99]] dbs) exLc exLq := ⟨by rfl, by rfl, by rfl⟩

/-- `init` where the folder is a link to a directory that exists -/
example : ∃ q, openLinked (mainLinked exX .init (exLw [[97]] fun _ => {})).2.2.disk.toLinkFs exX.dbPath = .ok q ∧ getHead (exLdbs1 q) = .ok (some sMaster) :=
  let ⟨q, h1, h2, _⟩ := C101_init exX (exLw [[97]] fun _ => {}) (by decide +kernel)
  ⟨q, h1, h2⟩

/-- `init` where it is a link to nowhere -/
example : (mainLinked exX .init (exLw [[100]] fun _ => {})).1 ≠ .success := (C101_dangling exX (exLw [[100]] fun _ => {}) (by unfold okName; decide) [110, 111] (by decide) (by decide) (by decide)).1

/-- from `/a/i`, whose `b` leads nowhere, the folder in `/a` is found -/
example : findLinked (exLd [[97], [105]]).toLinkFs [98] = .ok (some [47, 97, 47, 98]) :=
  ((C101_nearest (exLd [[97], [105]]).toLinkFs (by unfold okComp; decide) [98]).1 _).mpr ⟨[[97]], [[105]], rfl, by decide, by decide, by
    intro up' down' h hl
    have h2 : up' = [[97], [105]] := by
      have he : up'.length + down'.length = 2 := by
        have := congrArg List.length h
        rw [List.length_append] at this
        exact this.symm
      have hl' : 1 < up'.length := hl
      have hd : down' = [] := List.length_eq_zero_iff.mp (by omega)
      subst hd
      have h' : [[97], [105]] = up' ++ [] := h
      simpa using h'.symm
    subst h2
    decide⟩

/-- both of the ways of `C101_places`, and neither -/
example : (exLd []).toLinkFs.exists (Path.join (joins sSlash [[99]]) [98]) = true ∧ (exLd []).toLinkFs.exists (Path.join (joins sSlash [[97]]) [102]) = true :=
  ⟨(C101_places (exLd []).toLinkFs [[99]] [98] (by unfold okName; decide) (by unfold okName; decide) (by
      intro r hr
      rcases List.prefix_cons_iff.mp hr with rfl | ⟨r', rfl, h'⟩
      · decide
      · obtain rfl := List.prefix_nil.mp h'
        decide)).mpr (.inr ⟨[46, 46, 47, 115], 39, [[115]], .dir, by decide, by rfl, by decide, by decide⟩),
   (C101_places (exLd []).toLinkFs [[97]] [102] (by unfold okName; decide) (by unfold okName; decide) (by
      intro r hr
      rcases List.prefix_cons_iff.mp hr with rfl | ⟨r', rfl, h'⟩
      · decide
      · obtain rfl := List.prefix_nil.mp h'
        decide)).mpr (.inl ⟨.file [1, 2] ⟨3, 4⟩, by decide, by simp⟩)⟩

/-- the database of `/a` -/
example : openLinked (exLd [[97]]).toLinkFs [47, 97, 47, 98] = .ok exLq := C101_where (exLd [[97]]).toLinkFs [47, 97, 47, 98] (by decide) [[115]] (by rfl) (by decide) (exLd_free _)

/-- after the commit in `/a/i`, `debug get-head` says the same in `/c` -/
example : (mainLinked { exX with dbPath := [98] } .getHead (exLw [[99]] exLdbs2)).2.1 = (mainLinked exX .getHead (exLw [[97], [105]] exLdbs2)).2.1 ∧
    (mainLinked exX .getHead (exLw [[97], [105]] exLdbs2)).1 = .success :=
  ⟨(C101_shared exX [98] .getHead (by decide) (by simp) (exLw [[97], [105]] exLdbs2) (exLw [[99]] exLdbs2) rfl rfl exLa exLc exLq exLq [[115]] (exLa_opens _) (exLc_opens _) (by decide) (by decide)
    (by rfl) (by rfl) (by decide) (by decide) (exLd_free _) (exLd_free _)).2.1, by decide +kernel⟩

/-- the commit is in that database and in no other -/
example : (exLdbs2 exLq).reflog ≠ [] ∧ exLdbs2 exQ = exLdbs1 exQ :=
  ⟨by decide +kernel, (C101_only exX (.commit (some [46, 46, 47, 102]) [104, 105] none) (by simp) (exLw [[97], [105]] exLdbs1)).1 exLa exLq (exLa_opens _) exQ (by decide)⟩

/-- that database is like one made without links -/
example : ∃ (v : World) (q' : List Bytes), v.Sound mixH ∧ v.dbs q' = exLdbs2 exLq :=
  C101_sound (.run (.run (.fresh (fun _ => {}) fun _ => ⟨rfl, rfl, rfl⟩) exX rfl .init (exLd [[97]]) (exLd_sane _) {}) exX rfl (.commit (some [46, 46, 47, 102]) [104, 105] none) (exLd [[97], [105]]) (exLd_sane _) {}) exLq

/-- without links -/
example : (mainLinked exX (.commit none [104, 105] none) (exW1.asLinked 40)).1 = .success :=
  (congrArg Prod.fst (C101_plain exX (.commit none [104, 105] none) exW1 (by decide +kernel) 40).2).trans (by decide +kernel)

end Snap.Props
