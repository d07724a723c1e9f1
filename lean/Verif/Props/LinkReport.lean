import Verif.Props.LinkStatus
/-!
C97 for the whole program: what `status` reports on a disk with links.
-/
namespace Snap.Props
open Snap
set_option linter.unusedSectionVars false
variable [Serde] [LawfulSerde]

/-- What a look at a file is told, by the cache or by reading, is the key of what is there. -/
theorem saw_links {E : Env} {fs : LinkFs} (hh : Spec.Honest E fs) {glob : Path → Bool} {dbPath p : Path} {ca : Cache} (hv : Spec.Vouched E fs ca) {lo hi : Nat} {k : Key}
    (h : Spec.Saw E (fs.sights E glob dbPath) ca lo hi p k) : ∃ c md, fs.metadata p = .ok (.file c md) ∧ fileKey E p c = .ok k := by
  obtain ⟨t0, len0, ck, evs0, _, _, a1, a2, a3⟩ := h
  obtain ⟨c, md, b1, rfl⟩ := lfile a1
  rw [lopened b1] at a2
  simp only [Res.ok.injEq, Prod.mk.injEq] at a2
  obtain ⟨rfl, rfl⟩ := a2
  refine ⟨c, md, b1, ?_⟩
  rcases a3 with a3 | ⟨_, t2, p2, len2, evs2, _, _, c1, c2, c3⟩
  · rcases hv _ _ _ b1 with e | ⟨k2, e, e'⟩
    · rw [a3] at e; simp at e
    · rw [a3] at e
      simp only [Res.ok.injEq, Option.some.injEq] at e
      rw [e]
      exact e'
  · rw [← keyOf_file, ← c3]
    exact unmixed_links (glob := glob) (dbPath := dbPath) hh p p2 _ _ _ _ _ a1 c1 (lopened b1) c2

/-- **C97** (the report, the whole program): a successful `status` prints a report in which just those places reached through directories and links are added that the tree of the commit does not have,
no path is deleted, and of the files the tree has just those are modified whose contents now have another key. -/
theorem C97_reported (X : Ctx) (hit : IterOk X.iter) (w : LinkWorld) (hs : w.disk.toLinkFs.Sane) (hh : Spec.Honest X.E w.disk.toLinkFs) (R : Repo) (q : List Bytes) (ho : OpensLinked X w R q)
    (hv : Spec.Vouched X.E w.disk.toLinkFs w.cache) (head : Bytes) (ck : Key) (c : Commit) (hc : HeadCommit (w.dbs q) head ck c) (h : (mainLinked X .status w).1 = .success) :
    ∃ B r, walkItems (w.dbs q) X.depth c.tree = .ok B ∧ (mainLinked X .status w).2.1 = [.headAt head (some (ck.asUserKey.take 8)), .result (simplify r)] ∧
      r.deleted = [] ∧ (∀ e ∈ B, ∃ x : Spec.Seen, Spec.Reached w.disk.toLinkFs X.E X.glob R.folder R.root x ∧ x.rel ≠ [] ∧ e.1 = relPath x.rel) ∧
      (∀ p, (∃ e ∈ r.added, e.path = p) ↔ (∃ x : Spec.Seen, Spec.Reached w.disk.toLinkFs X.E X.glob R.folder R.root x ∧ x.rel ≠ [] ∧ p = relPath x.rel) ∧ ∀ v, (p, v) ∉ B) ∧
      ∀ rel what, Spec.Reached w.disk.toLinkFs X.E X.glob R.folder R.root ⟨rel, some what⟩ → rel ≠ [] → ∀ k d, (relPath rel, k, d) ∈ B →
        ((∃ e ∈ r.modified, e.path = relPath rel) ↔ ¬ ∃ c md, w.disk.toLinkFs.metadata (joins R.root rel) = .ok (.file c md) ∧ fileKey X.E (joins R.root rel) c = .ok k) := by
  obtain ⟨e1, e2, _⟩ := racing_main (X := X) (cmd := .status) (.inl rfl) ho
  rw [e1] at h
  rw [e2]
  obtain ⟨m, B, lo, hi, r, h1, ⟨d, h2⟩, _, _, hr, hout⟩ := C95_status X hit _ (LinkWorld.bare w) R q {} head ck c hc h
  have hm := C97_listed X.E w.disk.toLinkFs hs X.glob R.folder R.root X.depth _ _ m h2
  have okB := walkItemsFrom_okMap (show walkItems (w.dbs q) X.depth c.tree = .ok B from h1)
  refine ⟨B, r, h1, hout, hr.deleted.1, fun e he => ?_, fun p => ⟨?_, ?_⟩, fun rel what hx hne k dk hB => ?_⟩
  · obtain ⟨d, hd⟩ := hr.deleted.2 e he
    obtain ⟨x, g1, g2, g3, _⟩ := (hm _ _).mp hd
    exact ⟨x, g1, g2, g3⟩
  · rintro ⟨e, he, rfl⟩
    obtain ⟨g1, g2, _⟩ := hr.added e he
    obtain ⟨x, k1, k2, k3, _⟩ := (hm _ _).mp g1
    exact ⟨⟨x, k1, k2, k3⟩, g2⟩
  · rintro ⟨⟨x, g1, g2, g3⟩, hno⟩
    exact hr.allAdded p _ ((hm p x.what.isNone).mpr ⟨x, g1, g2, g3, rfl⟩) hno
  · have hd := (hm (relPath rel) false).mpr ⟨_, hx, hne, rfl, rfl⟩
    have hok : ∀ m ∈ rel, okComp m := fun m hm => (goes_names hs (reached_iff.mpr hx).1 m hm).comp
    constructor
    · rintro ⟨e, he, hp⟩ ⟨c, md, a1, a2⟩
      obtain ⟨_, ⟨d', b1⟩, b2, b3⟩ := hr.modified e he
      rw [hp] at b1 b3
      rw [join_relPath hok hne] at b3
      obtain ⟨c', md', a3, a4⟩ := saw_links hh hv b3
      rw [a1] at a3
      simp only [Res.ok.injEq] at a3
      injection a3 with a3 a3'
      subst a3
      rw [a2] at a4
      simp only [Res.ok.injEq] at a4
      have g1 := (PMap.get_iff okB (okB.2 _ b1)).mpr b1
      have g2 := (PMap.get_iff okB (okB.2 _ hB)).mpr hB
      rw [g1] at g2
      simp only [Option.some.injEq, Prod.mk.injEq] at g2
      exact b2 (a4.symm.trans g2.1.symm)
    · intro hno
      obtain ⟨k', b1, b2⟩ := hr.allModified _ k dk hd hB
      rcases b2 with rfl | b2
      · rw [join_relPath hok hne] at b1
        exact (hno (saw_links hh hv b1)).elim
      · exact ⟨_, b2, rfl⟩

end Snap.Props
