import Verif.Props.LinkStore
import Verif.Props.LinkCompare
/-!
C97 for the whole program: what `status` and `checkout-head` find on a disk with links.
-/
namespace Snap.Props
open Snap
set_option linter.unusedSectionVars false
variable [Serde] [LawfulSerde]

/-- The databases and the cache, without the disk. -/
def LinkWorld.bare (w : LinkWorld) : World := ⟨{}, w.dbs, w.cache⟩

theorem racing_main {X : Ctx} {cmd : Command} (hc : cmd = .status ∨ (∃ n, cmd = .checkoutHead n) ∨ ∃ p k s, cmd = .compare p k s) {w : LinkWorld} {R : Repo} {q : List Bytes} (ho : OpensLinked X w R q) :
    (mainLinked X cmd w).1 = (runRacing X (w.disk.toLinkFs.sights X.E X.glob R.folder) R q cmd {} (LinkWorld.bare w)).1 ∧
    (mainLinked X cmd w).2.1 = (runRacing X (w.disk.toLinkFs.sights X.E X.glob R.folder) R q cmd {} (LinkWorld.bare w)).2.1 ∧
    (mainLinked X cmd w).2.2.dbs = (runRacing X (w.disk.toLinkFs.sights X.E X.glob R.folder) R q cmd {} (LinkWorld.bare w)).2.2.dbs := by
  rcases hc with rfl | ⟨n, rfl⟩ | ⟨p, k, s, rfl⟩ <;> rw [mainLinked_open (by simp) ho] <;> exact ⟨rfl, rfl, rfl⟩

theorem live_main {X : Ctx} {p : Option Path} {m : Bytes} {r : Option Bytes} {w : LinkWorld} {R : Repo} {q : List Bytes} (ho : OpensLinked X w R q) :
    (mainLinked X (.commit p m r) w).2.2.dbs = (runLive X (w.disk.toLinkFs.answers X.E X.glob R.folder) R q (.commit p m r) {} (LinkWorld.bare w)).2.2.dbs := by
  rw [mainLinked_open (by simp) ho]; rfl

/-- **C97** (after a commit, the whole program): on the same disk, with the database `commit` left and a cache that is right about the disk, `status` reports no differences and `checkout-head` sets HEAD. -/
theorem C97_committed (X : Ctx) (hit : IterOk X.iter) (message : Bytes) (w : LinkWorld) (hs : w.disk.toLinkFs.Sane) (hh : Spec.Honest X.E w.disk.toLinkFs) (R : Repo) (q : List Bytes)
    (hi : Inv X.E.H (w.dbs q)) (hdir : w.disk.toLinkFs.metadata R.root = .ok .dir) (h : CommittedLinked X (.commit none message none) w R q)
    (hcoll : NoColl X.E.H ((mainLinked X (.commit none message none) w).2.2.dbs q))
    (w' : LinkWorld) (hdisk : w'.disk = w.disk) (hdb : SameDb (w'.dbs q) ((mainLinked X (.commit none message none) w).2.2.dbs q))
    (hv : Spec.Vouched X.E w.disk.toLinkFs w'.cache) (hf1 : (w'.dbs q).faults = []) (hf2 : w'.cache.faults = []) :
    ∃ head ck, getHead (w.dbs q) = .ok (some head) ∧ reflogGet (w'.dbs q) head none = .ok ck ∧
      ((mainLinked X .status w').1 = .success ∧ (mainLinked X .status w').2.1 = [.headAt head (some (ck.asUserKey.take 8)), .result ⟨[], [], []⟩]) ∧
      ∀ n, (mainLinked X (.checkoutHead n) w').1 = .success ∧ (mainLinked X (.checkoutHead n) w').2.1 = [.text sNewHead] ∧
        rawGetState ((mainLinked X (.checkoutHead n) w').2.2.dbs q) sHEAD = .ok (some n) := by
  obtain ⟨ho, h1, h2⟩ := h
  have ho' : OpensLinked X w' R q := by
    unfold OpensLinked at ho ⊢
    rw [hdisk]; exact ho
  rw [live_main ho] at hcoll hdb
  obtain ⟨head, ck, g1, g2, g3, g4⟩ := C97_commit X hit w.disk.toLinkFs hs hh message (LinkWorld.bare w) R q hi hdir {} h1 h2 hcoll (LinkWorld.bare w') hdb hv hf1 hf2
  refine ⟨head, ck, g1, g2, ?_, fun n => ?_⟩
  · obtain ⟨e1, e2, _⟩ := racing_main (X := X) (cmd := .status) (.inl rfl) ho'
    rw [hdisk] at e1 e2
    rw [e1, e2]; exact g3
  · obtain ⟨e1, e2, e3⟩ := racing_main (X := X) (cmd := .checkoutHead n) (.inr (.inl ⟨n, rfl⟩)) ho'
    rw [hdisk] at e1 e2 e3
    rw [e1, e2, e3]; exact g4 n

theorem racing_compared {X : Ctx} {A : Sights} {R : Repo} {w : World} {q : List Bytes} {t : Option Key} (ht : HeadTree (w.dbs q) t) {refname : Bytes} {u : Unit} {s' : Sys}
    (h : (Command.checkoutHead refname).racing X A R (startOf w q) = (.ok u, s')) :
    ∃ r s, compareLive X.E A X.iter X.depth R.root t ((w.dbs q, w.cache), 0) = (.ok r, s) ∧ (r.isEmpty = false → s'.out ≠ [.text sNewHead]) := by
  have h : checkoutHeadLive X A R refname (startOf w q) = (.ok u, s') := h
  unfold checkoutHeadLive at h
  obtain ⟨head, a1, a2⟩ := ht
  have hn : headName (w.dbs q) = .ok head := by unfold headName; rw [a1]; rfl
  rw [bind_of (a := head) (s' := startOf w q) (show readDb headName (startOf w q) = _ by rw [readDb_apply]; exact congrArg (·, _) hn)] at h
  obtain ⟨k, s1, h1, h⟩ := bind_ok h
  simp only [SM.read_apply, Prod.mk.injEq, Res.ok.injEq] at h1
  obtain ⟨hk, rfl⟩ := h1
  obtain ⟨t', s2, h2, h⟩ := bind_ok h
  rw [readDb_apply] at h2
  simp only [Prod.mk.injEq] at h2
  obtain ⟨h2, rfl⟩ := h2
  obtain rfl : t' = t := by
    rcases a2 with ⟨k', c, b1, b2, rfl⟩ | ⟨b1, rfl⟩
    · simp only [startOf, b1, Res.toOption] at hk
      subst hk
      simp only [startOf, b2, Res.ok_bind] at h2
      simpa using h2.symm
    · cases hg : reflogGet (w.dbs q) head none with
      | ok k' => exact (b1 k' hg).elim
      | _ =>
        simp only [startOf, hg, Res.toOption] at hk
        subst hk
        simpa using h2.symm
  obtain ⟨r, s3, h3, h⟩ := bind_ok h
  obtain ⟨t, g1, g2⟩ := compareWorkLive_ok h3
  refine ⟨r, _, g1, fun he => ?_⟩
  simp only [he, Bool.false_eq_true, if_false] at h
  obtain ⟨_, s4, h4, h5⟩ := bind_ok h
  simp only [emit, SM.modify_apply, Prod.mk.injEq, true_and] at h4 h5
  rw [← h5, ← h4]
  intro e
  have := congrArg List.length e
  simp at this

/-- **C97** (only if nothing differs, the whole program): if `checkout-head` changes HEAD, the tree of the commit HEAD was at has just the paths reached through directories and links, and each file among them has the contents stored. -/
theorem C97_switched (X : Ctx) (hit : IterOk X.iter) (refname : Bytes) (w : LinkWorld) (hs : w.disk.toLinkFs.Sane) (hh : Spec.Honest X.E w.disk.toLinkFs) (R : Repo) (q : List Bytes)
    (ho : OpensLinked X w R q) (hv : Spec.Vouched X.E w.disk.toLinkFs w.cache) (head : Bytes) (ck : Key) (c : Commit) (h1 : getHead (w.dbs q) = .ok (some head)) (h2 : reflogGet (w.dbs q) head none = .ok ck)
    (h3 : Commit.fromKey (w.dbs q) ck = .ok c)
    (h : rawGetState ((mainLinked X (.checkoutHead refname) w).2.2.dbs q) sHEAD ≠ rawGetState (w.dbs q) sHEAD) :
    ∃ B, walkItems (w.dbs q) X.depth c.tree = .ok B ∧
      (∀ p, (∃ v, (p, v) ∈ B) ↔ ∃ x : Spec.Seen, Spec.Reached w.disk.toLinkFs X.E X.glob R.folder R.root x ∧ x.rel ≠ [] ∧ p = relPath x.rel) ∧
      ∀ rel len evs, Spec.Reached w.disk.toLinkFs X.E X.glob R.folder R.root ⟨rel, some (len, evs)⟩ → ∀ kf d, (relPath rel, kf, d) ∈ B → rel ≠ [] →
        ∃ c md, w.disk.toLinkFs.metadata (joins R.root rel) = .ok (.file c md) ∧ fileKey X.E (joins R.root rel) c = .ok kf := by
  have ht : HeadTree ((LinkWorld.bare w).dbs q) (some c.tree) := ⟨head, h1, .inl ⟨ck, c, h2, h3, rfl⟩⟩
  have hst : ∀ {a b : Db}, a.state = b.state → rawGetState a sHEAD = rawGetState b sHEAD := fun e => by unfold rawGetState; rw [e]
  rw [(racing_main (X := X) (cmd := .checkoutHead refname) (.inr (.inl ⟨_, rfl⟩)) ho).2.2] at h
  rcases runRacing_db X (w.disk.toLinkFs.sights X.E X.glob R.folder) R q (.checkoutHead refname) rfl {} (LinkWorld.bare w) with g | ⟨u, g1, g2⟩
  · exact (h (hst g.1.2.1)).elim
  · obtain ⟨r, s, e1, e2⟩ := racing_compared ht (s' := ((Command.checkoutHead refname).racing X _ R (startOf (LinkWorld.bare w) q)).2) (Prod.ext g1 rfl)
    obtain ⟨_, _, _, _, r', _, _, _, _, _, b6⟩ := racing_head hit ht (s' := ((Command.checkoutHead refname).racing X _ R (startOf (LinkWorld.bare w) q)).2) (Prod.ext g1 rfl)
    cases he : r.isEmpty with
    | false =>
      rcases b6 with ⟨_, b6⟩ | ⟨_, _, b6⟩
      · exact (e2 he b6).elim
      · exact (h (hst (g2.1.2.1.trans b6))).elim
    | true =>
      obtain ⟨d, a, m⟩ := r
      simp only [DiffResult.isEmpty, Bool.and_eq_true, List.isEmpty_iff] at he
      obtain ⟨⟨rfl, rfl⟩, rfl⟩ := he
      exact C97_noticed X.E _ hs hh X.glob R.folder R.root X.iter hit X.depth c.tree _ _ hv 0 s e1

end Snap.Props
