import Verif.Props.LinkStatus
/-!
C94 and C97 for the whole program, where a directory contains itself by way of links.
-/
namespace Snap.Props
open Snap
set_option linter.unusedSectionVars false
variable [Serde] [LawfulSerde]

namespace Spec

/-- From `path`, following entries of directories and links, one comes to a directory (by `rel`) and from it to the same directory again (by `r`), not through the database folder. -/
def Loops (fs : LinkFs) (E : Env) (folder path : Path) : Prop :=
  ∃ rel r q, r ≠ [] ∧ fs.canonicalize (joins path rel) = .ok q ∧ Reached fs E (fun _ => false) folder path ⟨rel ++ r, none⟩ ∧ fs.canonicalize (joins path (rel ++ r)) = .ok q

end Spec

/-- A command that does not end well leaves all databases as they are. -/
theorem linked_failed {X : Ctx} {cmd : Command} (hi : cmd ≠ .init) {w : LinkWorld} {R : Repo} {q : List Bytes} (ho : OpensLinked X w R q) (h : ∀ u, (cmd.linked X R (startLinked w q)).1 ≠ .ok u) :
    (mainLinked X cmd w).1 ≠ .success ∧ ∀ q', SameTables ((mainLinked X cmd w).2.2.dbs q') (w.dbs q') := by
  rw [mainLinked_open hi ho]
  have e : ∀ q', (runInLinked X R q cmd w).2.2.dbs q' =
      if q' = q then (Conn.finish (cmd.linked X R (startLinked w q)).1 (Conn.mk (w.dbs q) (some (cmd.linked X R (startLinked w q)).2.1.db))).durable else w.dbs q' := by
    intro q'
    simp only [runInLinked, LinkWorld.setDb, Conn.begin, Conn.exec, Conn.view, Option.getD_some, startLinked]
  have e1 : (runInLinked X R q cmd w).1 = exitOf (cmd.linked X R (startLinked w q)).1 (Cache.finish (cmd.linked X R (startLinked w q)).1 w.cache (cmd.linked X R (startLinked w q)).2.1.cache).1 := rfl
  rw [e1]
  cases hr : (cmd.linked X R (startLinked w q)).1 with
  | ok u => exact (h u hr).elim
  | _ =>
    refine ⟨by simp [exitOf], fun q' => ?_⟩
    rw [e, hr]
    split
    · rename_i hq; subst hq; exact ⟨rfl, rfl, rfl⟩
    · exact SameTables.refl _

/-- **C94** (directories that contain themselves, the whole program): neither `insert` nor `commit` of one ends well, and no database is changed. -/
theorem C94_looped (X : Ctx) (hg : X.glob = fun _ => false) (w : LinkWorld) (hs : w.disk.toLinkFs.Sane) (R : Repo) (q : List Bytes) (ho : OpensLinked X w R q) (cmd : Command) (path : Path)
    (hc : cmd = .insert path ∨ ∃ p m r, cmd = .commit p m r ∧ path = p.getD R.root) (h : Spec.Loops w.disk.toLinkFs X.E R.folder path) :
    (mainLinked X cmd w).1 ≠ .success ∧ ∀ q', SameTables ((mainLinked X cmd w).2.2.dbs q') (w.dbs q') := by
  obtain ⟨rel, r, d, h1, h2, h3, h4⟩ := h
  have hput : ∀ db k, (storeLive X (w.disk.toLinkFs.answers X.E X.glob R.folder) path db).1 ≠ .ok k := fun db k hk => by
    rw [hg] at hk
    exact C94_cycle X.E w.disk.toLinkFs hs R.folder path rel r h1 d h2 h3 h4 X.depth (db, 0) _ k (Prod.ext hk rfl)
  rcases hc with rfl | ⟨p, m, n, rfl, rfl⟩
  · refine linked_failed (by simp) ho fun u hu => ?_
    have : (insertLive X (w.disk.toLinkFs.answers X.E X.glob R.folder) path (startLinked w q).1).1 = .ok u := hu
    obtain ⟨k, s1, g1, _⟩ := bind_ok (Prod.ext this rfl : insertLive X _ path _ = (.ok u, _))
    exact hput _ k (congrArg Prod.fst g1)
  · refine linked_failed (by simp) ho fun u hu => ?_
    have : (commitLive X (w.disk.toLinkFs.answers X.E X.glob R.folder) R p m n (startLinked w q).1).1 = .ok u := hu
    obtain ⟨_, s1, _, g1⟩ := bind_ok (Prod.ext this rfl : commitLive X _ R p m n _ = (.ok u, _))
    obtain ⟨_, s2, _, g2⟩ := bind_ok g1
    obtain ⟨k, s3, g3, _⟩ := bind_ok g2
    exact hput _ k (congrArg Prod.fst g3)

/-- **C97** (directories that contain themselves, the whole program): if the directory of the repository is one, `checkout-head` never ends well, nor does `status` once there is a commit; no database is changed. -/
theorem C97_looped (X : Ctx) (hg : X.glob = fun _ => false) (w : LinkWorld) (hs : w.disk.toLinkFs.Sane) (R : Repo) (q : List Bytes) (ho : OpensLinked X w R q) (cmd : Command)
    (hc : (∃ n, cmd = .checkoutHead n) ∨ cmd = .status ∧ ∀ head, getHead (w.dbs q) = .ok (some head) → ∃ k, reflogGet (w.dbs q) head none = .ok k) (h : Spec.Loops w.disk.toLinkFs X.E R.folder R.root) :
    (mainLinked X cmd w).1 ≠ .success ∧ ∀ q', SameTables ((mainLinked X cmd w).2.2.dbs q') (w.dbs q') := by
  obtain ⟨rel, r, d, h1, h2, h3, h4⟩ := h
  have hcmp : ∀ to s x s', compareWorkLive X (w.disk.toLinkFs.sights X.E X.glob R.folder) R.root to s ≠ (.ok x, s') := fun to s x s' hk => by
    obtain ⟨t, g1, _⟩ := compareWorkLive_ok hk
    rw [hg] at g1
    exact C97_cycle X.E w.disk.toLinkFs hs R.folder R.root rel r h1 d h2 h3 h4 X.iter X.depth to _ _ x g1
  rcases hc with ⟨n, rfl⟩ | ⟨rfl, hk⟩
  · refine linked_failed (by simp) ho fun u hu => ?_
    have : (checkoutHeadLive X (w.disk.toLinkFs.sights X.E X.glob R.folder) R n (startLinked w q).1).1 = .ok u := hu
    obtain ⟨_, s1, _, g1⟩ := bind_ok (Prod.ext this rfl : checkoutHeadLive X _ R n _ = (.ok u, _))
    obtain ⟨_, s2, _, g2⟩ := bind_ok g1
    obtain ⟨_, s3, _, g3⟩ := bind_ok g2
    obtain ⟨x, s4, g4, _⟩ := bind_ok g3
    exact hcmp _ _ x s4 g4
  · refine linked_failed (by simp) ho fun u hu => ?_
    have : (statusLive X (w.disk.toLinkFs.sights X.E X.glob R.folder) R (startLinked w q).1).1 = .ok u := hu
    obtain ⟨head, s1, g0, g1⟩ := bind_ok (Prod.ext this rfl : statusLive X _ R _ = (.ok u, _))
    rw [readDb_apply] at g0
    simp only [Prod.mk.injEq] at g0
    obtain ⟨g0, rfl⟩ := g0
    obtain ⟨k, hk⟩ := hk head (headName_ok g0)
    obtain ⟨o, s2, g2, g3⟩ := bind_ok g1
    simp only [SM.read_apply, Prod.mk.injEq, Res.ok.injEq] at g2
    obtain ⟨g2, rfl⟩ := g2
    rw [show (startLinked w q).1.db = w.dbs q from rfl, hk] at g2
    simp only [Res.toOption] at g2
    subst g2
    obtain ⟨_, s3, _, g4⟩ := bind_ok g3
    obtain ⟨_, s4, _, g5⟩ := bind_ok g4
    obtain ⟨x, s5, g6, _⟩ := bind_ok g5
    exact hcmp _ _ x s5 g6

end Snap.Props
