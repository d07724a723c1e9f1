import Verif.Props.LinkMain
import Verif.Props.Named
/-!
C94 for the whole program: what `insert` and `commit` leave in the database on a disk with links.
-/
namespace Snap.Props
open Snap
set_option linter.unusedSectionVars false
variable [Serde] [LawfulSerde]

namespace Spec

/-- Under `k` there is a node for just the places reached from `path` by following entries of directories and links, with what is found there; none of them is in the database folder. -/
def HoldsReached (db : Db) (k : Key) (X : Ctx) (fs : LinkFs) (folder path : Path) : Prop :=
  ∃ ps : List (KNode × Seen), Snap.Stored db X.depth k (ps.map (·.1)) ∧ (∀ x ∈ ps, x.1.node.rel = x.2.rel ∧ KeptOf X.E.table x.1.node.content x.2.what) ∧
    (∀ s, s ∈ ps.map (·.2) ↔ Reached fs X.E X.glob folder path s) ∧
    ∀ d, fs.canonicalize folder = .ok d → ∀ x ∈ ps, x.2.rel ≠ [] → ∃ q, fs.canonicalize (joins path x.2.rel) = .ok q ∧ ¬ d <+: q

end Spec

theorem holds_live {X : Ctx} {fs : LinkFs} {folder path : Path} {db db' : Db} {t t' : Nat} {k : Key} (hi : Inv X.E.H db)
    (h : putLive X.E (fs.answers X.E X.glob folder) X.depth path (db, t) = (.ok k, (db', t'))) (hc : NoColl X.E.H db') : Spec.HoldsReached db' k X fs folder path := by
  obtain ⟨ps, h1, h2, h3⟩ := C94_stored X.E fs X.glob folder X.depth path db db' t t' k hi h hc
  refine ⟨ps, h1, h2, h3, fun d hd y hy hne => ?_⟩
  have hr := (h3 y.2).mp (List.mem_map.mpr ⟨y, hy, rfl⟩)
  have e : y.2.rel.dropLast ++ [y.2.rel.getLast hne] = y.2.rel := List.dropLast_concat_getLast hne
  obtain ⟨q, q', d', g1, g2, g3, g4, g5, g6, g7⟩ := hr.way y.2.rel.dropLast (y.2.rel.getLast hne) (by rw [e]; exact List.prefix_refl _)
  rw [e] at g4
  rw [hd] at g5
  simp only [Res.ok.injEq] at g5
  exact ⟨q', g4, by rw [g5]; exact g6⟩

theorem Spec.HoldsReached.mono {a b : Db} (h : a.data <+: b.data) {k : Key} {X : Ctx} {fs : LinkFs} {folder path : Path} (g : Spec.HoldsReached a k X fs folder path) : Spec.HoldsReached b k X fs folder path := by
  obtain ⟨ps, h1, h2⟩ := g
  exact ⟨ps, Snap.Stored.mono h h1, h2⟩

/-- What the program works on at the start. -/
def startLinked (w : LinkWorld) (q : List Bytes) : Sys × Disk := ({ db := w.dbs q, cache := w.cache }, w.disk)

/-- The command ended well and its transaction was committed. -/
def CommittedLinked (X : Ctx) (cmd : Command) (w : LinkWorld) (R : Repo) (q : List Bytes) : Prop :=
  OpensLinked X w R q ∧ (cmd.linked X R (startLinked w q)).1 = .ok () ∧ commitOk (cmd.linked X R (startLinked w q)).2.1.db

theorem linked_committed {X : Ctx} {cmd : Command} (hc : cmd ≠ .init) {w : LinkWorld} {R : Repo} {q : List Bytes} (h : CommittedLinked X cmd w R q) :
    SameDb ((mainLinked X cmd w).2.2.dbs q) (cmd.linked X R (startLinked w q)).2.1.db ∧ (mainLinked X cmd w).2.1 = (cmd.linked X R (startLinked w q)).2.1.out := by
  obtain ⟨ho, h1, h2⟩ := h
  rw [mainLinked_open hc ho]
  refine ⟨?_, rfl⟩
  have e : (runInLinked X R q cmd w).2.2.dbs q = (Conn.finish (cmd.linked X R (startLinked w q)).1 (Conn.mk (w.dbs q) (some (cmd.linked X R (startLinked w q)).2.1.db))).durable := by
    simp only [runInLinked, LinkWorld.setDb, if_true, Conn.begin, Conn.exec, Conn.view, Option.getD_some, startLinked]
  have hk : ∀ x ∈ (cmd.linked X R (startLinked w q)).2.1.db.hashed, x ∈ (cmd.linked X R (startLinked w q)).2.1.db.hashed := fun _ h => h
  rw [e, h1]
  simp only [Conn.finish, Conn.commit]
  split
  · rename_i fs hf
    exact (h2 fs hf).elim
  · exact ⟨⟨rfl, rfl, rfl⟩, hk⟩

/-- **C94** (`insert`, the whole program): the key printed is that of a tree of just the places reached through directories and links, none of them in the database folder. -/
theorem C94_insert (X : Ctx) (path : Path) (w : LinkWorld) (R : Repo) (q : List Bytes) (hi : Inv X.E.H (w.dbs q)) (h : CommittedLinked X (.insert path) w R q)
    (hcoll : NoColl X.E.H ((mainLinked X (.insert path) w).2.2.dbs q)) :
    ∃ k, (mainLinked X (.insert path) w).2.1 = [.key k] ∧ Spec.HoldsReached ((mainLinked X (.insert path) w).2.2.dbs q) k X w.disk.toLinkFs R.folder path := by
  obtain ⟨hsame, hout⟩ := linked_committed (by simp) h
  obtain ⟨ho, h1, h2⟩ := h
  have hl : insertLive X (w.disk.toLinkFs.answers X.E X.glob R.folder) path (startLinked w q).1 = (.ok (), ((Command.insert path).linked X R (startLinked w q)).2.1) := Prod.ext h1 rfl
  unfold insertLive at hl
  obtain ⟨k, s1, g1, g2⟩ := bind_ok hl
  obtain ⟨g1, e1⟩ := onDb_ok g1
  obtain ⟨t', g1⟩ := storeLive_ok g1
  have e2 : { s1 with out := s1.out ++ [.key k] } = ((Command.insert path).linked X R (startLinked w q)).2.1 := (Prod.mk.inj g2).2
  refine ⟨k, ?_, ?_⟩
  · rw [hout, ← e2]
    show s1.out ++ _ = _
    rw [e1.2.2]
    rfl
  · have hc := hsame.noColl hcoll
    rw [← e2] at hc
    refine (holds_live hi g1 hc).mono ?_
    rw [hsame.1.1, ← e2]
    exact List.prefix_refl _

/-- **C94** (`commit`, the whole program): so is the tree of the commit that is the newest entry of the ref afterwards. -/
theorem C94_commit (X : Ctx) (path : Option Path) (message : Bytes) (refname : Option Bytes) (w : LinkWorld) (R : Repo) (q : List Bytes) (hi : Inv X.E.H (w.dbs q))
    (h : CommittedLinked X (.commit path message refname) w R q) (hcoll : NoColl X.E.H ((mainLinked X (.commit path message refname) w).2.2.dbs q)) :
    ∃ n ck tree ps, Spec.WorksOn (w.dbs q) refname n ∧ reflogGet ((mainLinked X (.commit path message refname) w).2.2.dbs q) n none = .ok ck ∧
      Commit.fromKey ((mainLinked X (.commit path message refname) w).2.2.dbs q) ck = .ok ⟨tree, ps, { message := message }⟩ ∧
      ((∃ k, reflogGet (w.dbs q) n none = .ok k ∧ ps = [k]) ∨ (reflogGet (w.dbs q) n none = .err .notFound ∧ ps = [])) ∧
      Spec.HoldsReached ((mainLinked X (.commit path message refname) w).2.2.dbs q) tree X w.disk.toLinkFs R.folder (path.getD R.root) := by
  obtain ⟨hsame, hout⟩ := linked_committed (by simp) h
  obtain ⟨ho, h1, h2⟩ := h
  have hl : commitLive X (w.disk.toLinkFs.answers X.E X.glob R.folder) R path message refname (startLinked w q).1 =
      (.ok (), ((Command.commit path message refname).linked X R (startLinked w q)).2.1) := Prod.ext h1 rfl
  unfold commitLive at hl
  obtain ⟨n, s1, h3, g1⟩ := bind_ok hl
  obtain ⟨h3, e1⟩ := readDb_ok h3
  rw [e1] at g1
  obtain ⟨ps, s2, h4, g2⟩ := bind_ok g1
  obtain ⟨h4, e2⟩ := readDb_ok h4
  rw [e2] at g2
  obtain ⟨tree, s3, h5, g3⟩ := bind_ok g2
  obtain ⟨h5, _⟩ := onDb_ok h5
  obtain ⟨ck, s4, h6, g4⟩ := bind_ok g3
  obtain ⟨h6, _⟩ := onDb_ok h6
  obtain ⟨h7, _⟩ := onDb_ok g4
  obtain ⟨p1, p2, p3, p4⟩ := reflogPush_ok h7
  obtain ⟨t', h5⟩ := storeLive_ok h5
  have hd1 : Grow X.E.H (w.dbs q) s3.db := by
    have := growing_live X.E (w.disk.toLinkFs.answers X.E X.glob R.folder) X.depth (path.getD R.root) ((startLinked w q).1.db, 0)
    rw [h5] at this
    exact this
  have hgrow2 := (isPuts_commitTree X.E.H tree ps { message := message }).grow s3.db
  rw [h6] at hgrow2
  have hcd2 : NoColl X.E.H s4.db := by
    have := hsame.noColl hcoll
    unfold NoColl at this ⊢
    rw [p4] at this
    exact this
  have hcd1 : NoColl X.E.H s3.db := fun x hx y hy => hcd2 x (hgrow2.hashed.subset hx) y (hgrow2.hashed.subset hy)
  obtain ⟨ps', x, r1, _, rx, r2⟩ := C22_roundtrip X.E.H tree ps { message := message } s3.db s4.db ck (hd1.inv hi) h6 hcd2 (by simp [CommitAttrs.Readable])
  obtain rfl := rx.eq_nil
  have hps := parentsOf_ok h4
  have hps' : ps' = ps := by
    rcases hps with ⟨k, _, rfl⟩ | ⟨_, rfl⟩
    · exact List.perm_singleton.mp r1
    · exact r1.eq_nil
  have hdata := hsame.1.1.trans p1
  have hlog : ((mainLinked X (.commit path message refname) w).2.2.dbs q).reflog = (w.dbs q).reflog ++ [⟨n, none, ck.asDbKey⟩] := by
    rw [hsame.1.2.2, p3, hgrow2.reflog, hd1.reflog]
  refine ⟨n, ck, tree, ps, (C38_which _ _ _).mp h3, reflogGet_pushed hlog, ?_, hps, (holds_live hi h5 hcd1).mono ?_⟩
  · rw [← hps']; exact r2 _ (by rw [hdata]; exact List.prefix_refl _)
  · rw [hdata]; exact hgrow2.data

end Snap.Props
