import Verif.Model.Commit
import Verif.Lemmas.Serde
import Verif.Lemmas.Sort
import Verif.Lemmas.Puts
/-! Lemmas about commits. -/
namespace Snap

theorem Commit.toObject_ok {c : Commit} {o : Object} (h : c.toObject = .ok o) :
    c.attrs.Storable ∧ o = ⟨c.attrs.toCbor.enc, c.tree :: c.parents, .commit⟩ := by
  unfold Commit.toObject at h
  split at h
  · rename_i hw
    simp at h
    exact ⟨(CommitAttrs.toCbor_wf _).mp hw, h.symm⟩
  · simp at h

set_option linter.unusedSectionVars false
variable [Serde] [LawfulSerde]

theorem Commit.ofObject_perm {c : Commit} {o : Object} (h : c.toObject = .ok o) (hd : c.attrs.Readable) :
    ∃ x, Commit.ofObject o = .ok ⟨c.tree, c.parents, ⟨c.attrs.message, x⟩⟩ ∧ x.Perm c.attrs.extra := by
  obtain ⟨hs, rfl⟩ := Commit.toObject_ok h
  obtain ⟨x, hx, hp⟩ := LawfulSerde.attrs_enc c.attrs ((CommitAttrs.toCbor_wf _).mpr hs) hd
  refine ⟨x, ?_, hp⟩
  unfold Commit.ofObject
  rw [hx]
  rfl

theorem Commit.ofObject_toObject {c : Commit} {o : Object} (h : c.toObject = .ok o) (he : c.attrs.extra = []) : Commit.ofObject o = .ok c := by
  obtain ⟨x, hx, hp⟩ := Commit.ofObject_perm h (by simp [CommitAttrs.Readable, he])
  rw [he] at hp
  have := hp.eq_nil
  subst this
  rw [hx]
  obtain ⟨t, ps, m, e⟩ := c
  simp at he
  subst he
  rfl

theorem Commit.ofObject_deep {c : Commit} {o : Object} (h : c.toObject = .ok o) (hd : ¬ ∀ e ∈ c.attrs.extra, e.2.depth ≤ 126) :
    ∃ e, Commit.ofObject o = .err e := by
  obtain ⟨hs, rfl⟩ := Commit.toObject_ok h
  have he := LawfulSerde.attrs_deep c.attrs ((CommitAttrs.toCbor_wf _).mpr hs) hd
  exact ⟨_, by unfold Commit.ofObject; rw [he]; rfl⟩

/-- What is read as a commit has the keys of its object. -/
theorem Commit.ofObject_keys {o : Object} {c : Commit} (h : Commit.ofObject o = .ok c) : o.keys = c.tree :: c.parents := by
  unfold Commit.ofObject at h
  obtain ⟨_, _, h⟩ := Res.bind_eq_ok h
  split at h
  · simp at h
  · rename_i t ps e
    simp only [Res.ok.injEq] at h
    rw [e, ← h]

theorem fromKey_eq_ok {db : Db} {k : Key} {c : Commit} : Commit.fromKey db k = .ok c ↔ ∃ o, getObj db k = .ok o ∧ Commit.ofObject o = .ok c := by
  unfold Commit.fromKey
  constructor
  · intro h
    obtain ⟨o, ho, hc⟩ := Res.bind_eq_ok h
    refine ⟨o, ?_, ?_⟩
    · cases hg : getObj db k <;> rw [hg] at ho <;> simp_all [Res.unwrap]
    · cases hg : Commit.ofObject o <;> rw [hg] at hc <;> simp_all [Res.unwrap]
  · rintro ⟨o, h1, h2⟩
    rw [h1]; simp [h2]

theorem fromKey_mono {a b : Db} (h : a.data <+: b.data) {k : Key} {c : Commit} (hg : Commit.fromKey a k = .ok c) : Commit.fromKey b k = .ok c := by
  rw [fromKey_eq_ok] at hg ⊢
  obtain ⟨o, h1, h2⟩ := hg
  exact ⟨o, getObj_mono h h1, h2⟩

theorem isPuts_commitTree (H : Bytes → Key) (tree : Key) (ps : List Key) (a : CommitAttrs) : IsPuts H (commitTree H tree ps a) :=
  isPuts_bind (isPuts_lift H _) (fun _ => isPuts_putObj H _)

theorem commitTree_ok {H : Bytes → Key} {tree : Key} {ps : List Key} {a : CommitAttrs} {db db' : Db} {k : Key}
    (h : commitTree H tree ps a db = (.ok k, db')) :
    ∃ o, Commit.toObject ⟨tree, sortBy Key.le ps, a⟩ = .ok o ∧ putObj H o db = (.ok k, db') := by
  obtain ⟨o, s, h1, h2⟩ := bind_ok h
  simp at h1
  obtain ⟨h1, rfl⟩ := h1
  exact ⟨o, h1, h2⟩

theorem commitTree_fromKey {H : Bytes → Key} {tree : Key} {ps : List Key} {a : CommitAttrs} {db db' : Db} {k : Key} (hi : Inv H db)
    (h : commitTree H tree ps a db = (.ok k, db')) (hc : NoColl H db') (hd : a.Readable) :
    ∃ x, Commit.fromKey db' k = .ok ⟨tree, sortBy Key.le ps, ⟨a.message, x⟩⟩ ∧ x.Perm a.extra := by
  obtain ⟨o, h1, h2⟩ := commitTree_ok h
  obtain ⟨x, hx, hp⟩ := Commit.ofObject_perm h1 hd
  exact ⟨x, fromKey_eq_ok.mpr ⟨o, putObj_getObj hi h2 hc, hx⟩, hp⟩

end Snap
