import Verif.ExampleShow
import Verif.ExampleLinkMain
import Verif.Props.LinkStore
/-! Cases for C94 on the whole program. -/
namespace Snap.Props
open Snap

/-- `/s` with a file; `/c`, in which the folder `b` and `l` are links to `/s`, `f` is a file and `m` a link to it. -/
def exKd : Disk where
  ents := [([[115]], .dir), ([[115], [120]], .file [9] ⟨7, 7⟩), ([[99]], .dir), ([[99], [98]], .link [46, 46, 47, 115]), ([[99], [102]], .file [1, 2] ⟨3, 4⟩), ([[99], [108]], .link [47, 115]),
    ([[99], [109]], .link [102])]
  cwd := [[99]]
def exKw : LinkWorld := ⟨exKd, (mainLinked exX .init ⟨exKd, fun _ => {}, {}⟩).2.2.dbs, {}⟩

theorem exK_commit : CommittedLinked exX (.commit none [104, 105] none) exKw exLc exLq := by
  refine ⟨⟨by rfl, by rfl, by rfl⟩, by decide +kernel, fun fs => ?_⟩
  have : ((Command.commit none [104, 105] none).linked exX exLc (startLinked exKw exLq)).2.1.db.faults = [] := by decide +kernel
  rw [this]; simp
theorem exK_insert : CommittedLinked exX (.insert sDot) exKw exLc exLq := by
  refine ⟨⟨by rfl, by rfl, by rfl⟩, by decide +kernel, fun fs => ?_⟩
  have : ((Command.insert sDot).linked exX exLc (startLinked exKw exLq)).2.1.db.faults = [] := by decide +kernel
  rw [this]; simp
theorem exK_inv : Inv mixH (exKw.dbs exLq) := by
  have e : (exKw.dbs exLq).data = [] := by decide +kernel
  exact ⟨by rw [e]; simp, by rw [e]; simp⟩

/-- the commit has `m`, but neither `l` nor `b` -/
example : ∃ n ck tree ps, reflogGet ((mainLinked exX (.commit none [104, 105] none) exKw).2.2.dbs exLq) n none = .ok ck ∧
    Commit.fromKey ((mainLinked exX (.commit none [104, 105] none) exKw).2.2.dbs exLq) ck = .ok ⟨tree, ps, { message := [104, 105] }⟩ ∧
    Spec.HoldsReached ((mainLinked exX (.commit none [104, 105] none) exKw).2.2.dbs exLq) tree exX exKd.toLinkFs exLc.folder exLc.root :=
  let ⟨n, ck, tree, ps, _, h2, h3, _, h5⟩ := C94_commit exX none [104, 105] none exKw exLc exLq exK_inv exK_commit (noColl_of (by decide +kernel))
  ⟨n, ck, tree, ps, h2, h3, h5⟩
example : (match (mainLinked exX (.insert sDot) exKw).2.1 with
    | [.key k] => (match getItem ((mainLinked exX (.insert sDot) exKw).2.2.dbs exLq) k with | .ok i => i.names | _ => [])
    | _ => []) = [[102], [109]] := by decide +kernel
example : ∃ k, (mainLinked exX (.insert sDot) exKw).2.1 = [.key k] ∧ Spec.HoldsReached ((mainLinked exX (.insert sDot) exKw).2.2.dbs exLq) k exX exKd.toLinkFs exLc.folder sDot :=
  C94_insert exX sDot exKw exLc exLq exK_inv exK_insert (noColl_of (by decide +kernel))

end Snap.Props
