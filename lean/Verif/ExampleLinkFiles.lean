import Verif.ExampleLinkStore
import Verif.ExampleLinkWrite
import Verif.Props.LinkFiles
/-! Cases for C96 on the whole program. -/
namespace Snap.Props
open Snap

/-- what is stored by `insert` in ExampleLinkStore, fetched to `l/n`, where `l` is a link to `/s`: it comes to be in `/s/n` -/
def exKw2 : LinkWorld := (mainLinked exX (.commit none [104, 105] none) exKw).2.2
def exKfetch : Exit × List Out × LinkWorld := match reflogGet (exKw2.dbs exLq) sMaster none with
  | .ok ck => (match Commit.fromKey (exKw2.dbs exLq) ck with
    | .ok c => (match Keyish.fromStr (c.tree.asUserKey.take 12) with | .ok k => mainLinked exX (.fetch k [108, 47, 110]) exKw2 | _ => (.panicked, [], exKw2))
    | _ => (.panicked, [], exKw2))
  | _ => (.panicked, [], exKw2)
example : exKfetch.1 = .success ∧ exKfetch.2.2.disk.at [[115], [110], [102]] = some (.file [1, 2] ⟨0, 0⟩) ∧ exKfetch.2.2.disk.at [[115], [110], [109]] = some (.file [1, 2] ⟨0, 0⟩) ∧
    exKfetch.2.2.disk.at [[99], [108]] = some (.link [47, 115]) := by decide +kernel
/-- for any key: the file in `/s` and the links in `/c` stay -/
example (k : Keyish) : (mainLinked exX (.fetch k [108, 47, 110]) exKw2).2.2.disk.at [[115], [120]] = some (.file [9] ⟨7, 7⟩) :=
  (C96_fetch exX k [108, 47, 110] exKw2).kept _ _ (by decide +kernel)
/-- the commit before has left the disk alone -/
example : exKw2.disk = exKd := C96_others exX (.commit none [104, 105] none) (by simp) (by simp) (by simp) exKw

/-- the tree of ExampleLinkWrite, committed, below the built-in directory of ExampleLinkWrite -/
def exMCommit : Res Key × Db := commitTree mixH exTreeOf [] { message := [104] } exTreeDb
def exMKey : Key := match exMCommit.1 with | .ok k => k | _ => exTreeOf
def exMDb : Db := (putHead sMaster (reflogPush sMaster none exMKey exMCommit.2).2).2
def exM : LinkWorld := ⟨exShelf, fun _ => exMDb, {}⟩
def exMX : Ctx := exX.deep 12
def exMR : Repo := ⟨Path.join exShelfPath [98], exShelfPath⟩
def exMQ : List Bytes := exGuardDirs ++ [[98], sDbFile]
theorem exM_opens : OpensLinked exMX exM exMR exMQ := ⟨by decide +kernel, by decide +kernel, by decide +kernel⟩
theorem exM_same : exMCommit.2.data = (exM.dbs exMQ).data := by decide +kernel
theorem exM_data : exTreeDb.data <+: (exM.dbs exMQ).data := by
  have h := (isPuts_commitTree mixH exTreeOf [] { message := [104] }).grow exTreeDb
  rw [← exM_same]
  exact h.data
theorem exM_head : HeadCommit (exM.dbs exMQ) sMaster exMKey ⟨exTreeOf, [], { message := [104] }⟩ := by
  refine ⟨by decide +kernel, by decide +kernel, ?_⟩
  have hi : Inv mixH exTreeDb := ((isPuts_putFsItem mixEnv exNow exFilter 3 sDot).grow {}).inv (inv_empty _ [])
  obtain ⟨k, hk⟩ := key_of (r := exMCommit) (by decide +kernel)
  have hk' : exMKey = k := by rw [exMKey, hk]
  obtain ⟨x, h1, h2⟩ := commitTree_fromKey hi hk (noColl_of (by decide +kernel)) (by simp [CommitAttrs.Readable])
  have hx : x = [] := h2.eq_nil
  subst hx
  rw [hk']
  exact fromKey_mono (b := exM.dbs exMQ) ⟨[], by rw [List.append_nil]; exact exM_same⟩ h1

/-- `checkout`: `/o` and what it has stay, although `z` was a link to it -/
example : ∀ p, ¬ exGuardDirs <+: p → (mainLinked exMX .checkout exM).2.2.disk.at p = exShelf.at p := by
  obtain ⟨ns, h1, h2, h3, h4, -, -⟩ := exTree_stored
  have hl : loc exShelf.cwd exShelfPath = exGuardDirs := by decide +kernel
  have h := C96_checked_out exMX (fun _ _ h => h) exM exMR exMQ exM_opens _ _ _ exM_head _ ns (Snap.Stored.mono exM_data h1) h2 h3 (by decide +kernel) (by show ∀ e ∈ exShelf.ents, _; unfold okName; decide +kernel)
    (by show ∀ m ∈ loc exShelf.cwd exShelfPath, _; unfold okName; decide +kernel)
    (by
      show ∀ q, q <+: loc exShelf.cwd exShelfPath → q ≠ loc exShelf.cwd exShelfPath → exShelf.at q = some .dir
      rw [hl]
      intro q hq hn
      have : ∀ i : Fin 5, exShelf.at (exGuardDirs.take i) = some .dir := by decide +kernel
      have hlt : q.length < 5 := by
        have h1 := hq.length_le
        have h2 : exGuardDirs.length = 5 := by decide
        rcases Nat.lt_or_ge q.length 5 with h | h
        · exact h
        · exact absurd (hq.eq_of_length (by omega)) hn
      rw [List.prefix_iff_eq_take.mp hq]
      exact this ⟨_, hlt⟩)
    (by
      show ∀ x ∈ ns, ∀ t, exShelf.at (loc exShelf.cwd exShelfPath ++ x.node.rel) ≠ some (.link t)
      rw [hl]
      intro x hx t
      have hm := h4 x hx
      simp only [List.mem_cons, List.not_mem_nil, or_false] at hm
      rcases hm with h | h | h | h <;> rw [h] <;> revert t
      · rw [show exShelf.at (exGuardDirs ++ []) = some .dir by decide +kernel]; simp
      · rw [show exShelf.at (exGuardDirs ++ [[97]]) = some (.file [9, 9, 9] ⟨1, 2⟩) by decide +kernel]; simp
      · rw [show exShelf.at (exGuardDirs ++ [[100]]) = some .dir by decide +kernel]; simp
      · rw [show exShelf.at (exGuardDirs ++ [[100], [120]]) = none by decide +kernel]; simp)
  have hl' : loc exM.disk.cwd exMR.root = exGuardDirs := hl
  rw [hl'] at h
  exact h.1
example : (mainLinked exMX .checkout exM).1 = .success ∧ (mainLinked exMX .checkout exM).2.2.disk.at (exGuardDirs ++ [[97]]) = some (.file [1, 2] ⟨1, 0⟩) ∧
    (mainLinked exMX .checkout exM).2.2.disk.at (exGuardDirs ++ [[122]]) = none := by decide +kernel

/-- `fetch` to `z/n`: the file is in `/o/n`, and can be read through the link -/
def exMText : Keyish := match Keyish.fromStr (exTreeOf.asUserKey.take 12) with | .ok k => k | _ => .key [] []
example : ∃ p md, (mainLinked exMX (.fetch exMText [122, 47, 110]) exM).2.2.disk.metadata (joins [122, 47, 110] [[100], [120]]) = .ok (.file [3] md) ∧
    (mainLinked exMX (.fetch exMText [122, 47, 110]) exM).2.2.disk.at p = some (.file [3] md) ∧ exShelf.at p = none := by
  obtain ⟨ns, h1, -, -, -, -, h6⟩ := exTree_stored
  obtain ⟨k, hk, h⟩ := C96_fetched exMX exMText [122, 47, 110] exM exMR exMQ exM_opens (by decide +kernel)
  have e : canonicalize (exM.dbs exMQ) exMText = .ok exTreeOf := by decide +kernel
  rw [e] at hk
  simp only [Res.ok.injEq] at hk
  subst hk
  obtain ⟨p, md, g1, _, g3, g4⟩ := h _ ns (Snap.Stored.mono exM_data h1) (by decide) _ _ h6
  exact ⟨p, md, g1, g3, g4⟩

end Snap.Props
