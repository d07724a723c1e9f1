import Verif.Props.Acyclic
/-! What `log` prints, and the history of a ref: C39, C58. -/
namespace Snap.Props
open Snap
set_option linter.unusedSectionVars false
variable [Serde] [LawfulSerde]

/-- What is printed about the changes of a commit, against the given tree. -/
inductive Spec.Shows (E : Env) (lib : DiffLib) (fs : Fs) (iter : Nat → List Path → List Path) (n : Nat) (db : Db) (tree : Key) (before : Option Key) : Kind → Out → Prop where
  | stat {r l} (h : (compare E fs iter n (.database tree) before (db, {})).1 = .ok r) (h' : printedStat lib db n r = .ok l) : Spec.Shows E lib fs iter n db tree before .stat (.stats l)
  | patch {r l} (h : (compare E fs iter n (.database tree) before (db, {})).1 = .ok r) (h' : createPatch lib db n r = .ok l) : Spec.Shows E lib fs iter n db tree before .patch (.patches l)

/-- The output of `log` for the commit `k`: key, message and changes of `k`, of its first parent, of that one's first parent and so on, until a commit without parents. -/
inductive Spec.Log (E : Env) (lib : DiffLib) (fs : Fs) (iter : Nat → List Path → List Path) (n : Nat) (kind : Kind) (db : Db) : List Key → List Out → Prop where
  | root {k c o} (hc : Commit.fromKey db k = .ok c) (hp : c.parents = []) (ho : Spec.Shows E lib fs iter n db c.tree none kind o) :
      Spec.Log E lib fs iter n kind db [k] [.commit k c.attrs.message, o]
  | step {k c p ps c' o ks l} (hc : Commit.fromKey db k = .ok c) (hp : c.parents = p :: ps) (hc' : Commit.fromKey db p = .ok c')
      (ho : Spec.Shows E lib fs iter n db c.tree (some c'.tree) kind o) (t : Spec.Log E lib fs iter n kind db (p :: ks) l) :
      Spec.Log E lib fs iter n kind db (k :: p :: ks) (.commit k c.attrs.message :: o :: l)

section
variable {E : Env} {lib : DiffLib} {fs : Fs} {iter : Nat → List Path → List Path} {n : Nat} {kind : Kind} {db : Db}

theorem displayChanges_ok {c : Commit} {out : List Out} {s : Db × List Out} (h : displayChanges E lib fs iter n kind c (db, out) = (.ok (), s)) :
    ∃ before o, s = (db, out ++ [o]) ∧ Spec.Shows E lib fs iter n db c.tree before kind o ∧
      ((c.parents = [] ∧ before = none) ∨ ∃ p ps c', c.parents = p :: ps ∧ Commit.fromKey db p = .ok c' ∧ before = some c'.tree) := by
  unfold displayChanges at h
  obtain ⟨t, s1, h1, g1⟩ := bind_ok h
  have hb : s1 = (db, out) ∧ ((c.parents = [] ∧ t = none) ∨ ∃ p ps c', c.parents = p :: ps ∧ Commit.fromKey db p = .ok c' ∧ t = some c'.tree) := by
    cases hp : c.parents with
    | nil =>
      rw [hp] at h1
      simp only [SM.pure_apply, Prod.mk.injEq, Res.ok.injEq] at h1
      exact ⟨h1.2.symm, Or.inl ⟨rfl, h1.1.symm⟩⟩
    | cons p ps =>
      rw [hp] at h1
      simp only at h1
      obtain ⟨c', s2, h2, g2⟩ := bind_ok h1
      simp only [SM.read, Prod.mk.injEq] at h2
      simp only [SM.pure_apply, Prod.mk.injEq, Res.ok.injEq] at g2
      exact ⟨by rw [← g2.2, h2.2], Or.inr ⟨p, ps, c', rfl, h2.1, g2.1.symm⟩⟩
  obtain ⟨rfl, hb⟩ := hb
  obtain ⟨r, s2, h2, g2⟩ := bind_ok g1
  have h2' : (compare E fs iter n (.database c.tree) t (db, {})).1 = .ok r ∧ s2 = (db, out) := by
    simp only [SM.unwrap, compareDb, compare_database_state, Prod.mk.injEq] at h2
    refine ⟨?_, h2.2.symm⟩
    have h3 := h2.1
    cases hr : (compare E fs iter n (.database c.tree) t (db, {})).1 <;> rw [hr] at h3 <;> simp [Res.unwrap] at h3
    rw [h3]
  obtain ⟨hr, rfl⟩ := h2'
  cases kind with
  | stat =>
    obtain ⟨l, s3, h3, g3⟩ := bind_ok g2
    simp only [SM.read, Prod.mk.injEq] at h3
    simp only [say, SM.modify, Prod.mk.injEq] at g3
    exact ⟨t, .stats l, by rw [← g3.2, ← h3.2], .stat hr h3.1, hb⟩
  | patch =>
    obtain ⟨l, s3, h3, g3⟩ := bind_ok g2
    simp only [SM.read, Prod.mk.injEq] at h3
    simp only [say, SM.modify, Prod.mk.injEq] at g3
    exact ⟨t, .patches l, by rw [← g3.2, ← h3.2], .patch hr h3.1, hb⟩

theorem displayChanges_of {c : Commit} {o : Out} {before : Option Key} (out : List Out) (ho : Spec.Shows E lib fs iter n db c.tree before kind o)
    (hb : (c.parents = [] ∧ before = none) ∨ ∃ p ps c', c.parents = p :: ps ∧ Commit.fromKey db p = .ok c' ∧ before = some c'.tree) :
    displayChanges E lib fs iter n kind c (db, out) = (.ok (), (db, out ++ [o])) := by
  have h2 : ∀ r, (compare E fs iter n (.database c.tree) before (db, {})).1 = .ok r → SM.unwrap (compareDb E fs iter n (some c.tree) before) (db, out) = (.ok r, (db, out)) := by
    intro r hr
    simp only [SM.unwrap, compareDb, compare_database_state, hr, Res.unwrap]
  unfold displayChanges
  rcases hb with ⟨hp, rfl⟩ | ⟨p, ps, c', hp, hc', rfl⟩
  · rw [hp]
    simp only [SM.bind_apply, SM.pure_apply]
    cases ho with
    | stat h h' => rw [h2 _ h]; simp [SM.bind_apply, SM.read, h', say, SM.modify]
    | patch h h' => rw [h2 _ h]; simp [SM.bind_apply, SM.read, h', say, SM.modify]
  · rw [hp]
    simp only [SM.bind_apply, SM.read, hc', SM.pure_apply]
    cases ho with
    | stat h h' => rw [h2 _ h]; simp [SM.bind_apply, SM.read, h', say, SM.modify]
    | patch h h' => rw [h2 _ h]; simp [SM.bind_apply, SM.read, h', say, SM.modify]

/-- `display_obj` on a commit. -/
theorem displayObj_ok {f : Nat} {k : Key} {c : Commit} {out : List Out} {s : Db × List Out} (hty : ∀ o, getObj db k = .ok o → o.objtype = .commit) (hk : Commit.fromKey db k = .ok c)
    (h : displayObj E lib fs iter n kind f k (db, out) = (.ok (), s)) :
    ∃ before o, s = (db, out ++ [.commit k c.attrs.message, o]) ∧ Spec.Shows E lib fs iter n db c.tree before kind o ∧
      ((c.parents = [] ∧ before = none) ∨ ∃ p ps c', c.parents = p :: ps ∧ Commit.fromKey db p = .ok c' ∧ before = some c'.tree) := by
  obtain ⟨o, ho, hoc⟩ := fromKey_eq_ok.mp hk
  cases f with
  | zero => simp [displayObj, SM.lift] at h
  | succ f =>
    unfold displayObj at h
    simp only [SM.bind_apply, SM.read, ho, Res.unwrap, hty o ho, SM.lift, hoc, say, SM.modify] at h
    obtain ⟨before, o', h1, h2, h3⟩ := displayChanges_ok h
    exact ⟨before, o', by rw [h1]; simp, h2, h3⟩

theorem displayObj_of {f : Nat} {k : Key} {c : Commit} (out : List Out) {o : Out} {before : Option Key} (hty : ∀ o, getObj db k = .ok o → o.objtype = .commit)
    (hk : Commit.fromKey db k = .ok c) (ho : Spec.Shows E lib fs iter n db c.tree before kind o)
    (hb : (c.parents = [] ∧ before = none) ∨ ∃ p ps c', c.parents = p :: ps ∧ Commit.fromKey db p = .ok c' ∧ before = some c'.tree) :
    displayObj E lib fs iter n kind (f + 1) k (db, out) = (.ok (), (db, out ++ [.commit k c.attrs.message, o])) := by
  obtain ⟨ob, hg, hoc⟩ := fromKey_eq_ok.mp hk
  unfold displayObj
  simp only [SM.bind_apply, SM.read, hg, Res.unwrap, hty ob hg, SM.lift, hoc, say, SM.modify]
  rw [displayChanges_of _ ho hb]
  simp

variable (hT : ∀ k o c, getObj db k = .ok o → Commit.ofObject o = .ok c → o.objtype = .commit)
include hT

theorem type_of_fromKey {k : Key} {c : Commit} (h : Commit.fromKey db k = .ok c) : ∀ o, getObj db k = .ok o → o.objtype = .commit := by
  intro o ho
  obtain ⟨o', h1, h2⟩ := fromKey_eq_ok.mp h
  rw [ho] at h1
  rw [Res.ok.inj h1] at ho ⊢
  exact hT k o' c ho h2

theorem logLoop_ok {f : Nat} {k : Key} {c : Commit} {o : Out} {before : Option Key} {out : List Out} {s : Db × List Out}
    (hk : Commit.fromKey db k = .ok c) (ho : Spec.Shows E lib fs iter n db c.tree before kind o)
    (hb : (c.parents = [] ∧ before = none) ∨ ∃ p ps c', c.parents = p :: ps ∧ Commit.fromKey db p = .ok c' ∧ before = some c'.tree)
    (h : logLoop E lib fs iter n kind f c (db, out) = (.ok (), s)) :
    ∃ ks l, Spec.Log E lib fs iter n kind db (k :: ks) (.commit k c.attrs.message :: o :: l) ∧ s = (db, out ++ l) := by
  induction f generalizing k c o before out with
  | zero => simp [logLoop, SM.lift] at h
  | succ f ih =>
    unfold logLoop at h
    rcases hb with ⟨hp, rfl⟩ | ⟨p, ps, c', hp, hc', rfl⟩
    · rw [hp] at h
      simp only [SM.pure_apply, Prod.mk.injEq, true_and] at h
      exact ⟨[], [], .root hk hp ho, by rw [← h]; simp⟩
    · rw [hp] at h
      simp only at h
      obtain ⟨_, s1, h1, g1⟩ := bind_ok h
      obtain ⟨before', o', e1, ho', hb'⟩ := displayObj_ok (type_of_fromKey hT hc') hc' h1
      subst e1
      obtain ⟨c2, s2, h2, g2⟩ := bind_ok g1
      simp only [SM.read, Prod.mk.injEq] at h2
      obtain ⟨h2, e2⟩ := h2
      rw [← e2] at g2
      rw [hc'] at h2
      have := Res.ok.inj h2
      subst this
      obtain ⟨ks, l, hl, hs⟩ := ih hc' ho' hb' g2
      exact ⟨p :: ks, _, .step hk hp hc' ho hl, by rw [hs]; simp⟩

theorem logLoop_of {f : Nat} {k : Key} {c : Commit} {ks : List Key} {l : List Out} {o : Out} {m : Out} (hk : Commit.fromKey db k = .ok c)
    (h : Spec.Log E lib fs iter n kind db (k :: ks) (m :: o :: l)) (hf : ks.length < f) (hn : 0 < n) (out : List Out) :
    logLoop E lib fs iter n kind f c (db, out) = (.ok (), (db, out ++ l)) := by
  induction f generalizing k c ks l o m out with
  | zero => omega
  | succ f ih =>
    unfold logLoop
    cases h with
    | root hc hp ho =>
      rw [hk] at hc
      have := Res.ok.inj hc
      subst this
      rw [hp]
      simp
    | @step _ c2 p ps c' _ ks' _ hc hp hc' ho t =>
      rw [hk] at hc
      have := Res.ok.inj hc
      subst this
      rw [hp]
      simp only
      obtain ⟨j, rfl⟩ : ∃ j, n = j + 1 := ⟨n - 1, by omega⟩
      rw [SM.bind_apply]
      have hlen : ks'.length < f := by simp at hf; omega
      cases t with
      | root hc2 hp2 ho2 =>
        have e : _ = c' := Res.ok.inj (hc2.symm.trans hc')
        subst e
        rw [displayObj_of out (type_of_fromKey hT hc') hc' ho2 (Or.inl ⟨hp2, rfl⟩)]
        simp only [SM.bind_apply, SM.read, hc']
        rw [ih hc' (.root hc2 hp2 ho2) hlen]
        simp
      | step hc2 hp2 hc3 ho2 t2 =>
        have e : _ = c' := Res.ok.inj (hc2.symm.trans hc')
        subst e
        rw [displayObj_of out (type_of_fromKey hT hc') hc' ho2 (Or.inr ⟨_, _, _, hp2, hc3, rfl⟩)]
        simp only [SM.bind_apply, SM.read, hc']
        rw [ih hc' (.step hc2 hp2 hc3 ho2 t2) hlen]
        simp
end

/-- In reachable worlds only commits can be read as commits. -/
theorem reach_types {H : Bytes → Key} {w : World} (h : w.Reachable H) (q : List Bytes) :
    ∀ k o c, getObj (w.dbs q) k = .ok o → Commit.ofObject o = .ok c → o.objtype = .commit :=
  fun k o c ho hc => (C59_sound h q k o ho).2.mp ⟨c, fromKey_eq_ok.mpr ⟨o, ho, hc⟩⟩

/-- **C58**: in a reachable world, if `log` succeeds its output is that of the chain of first parents; and if there is such an output (and the recursion bound is above
the number of rows) `log` succeeds and prints it. -/
theorem C58_log {H : Bytes → Key} {w : World} (h : w.Reachable H) (q : List Bytes) (E : Env) (lib : DiffLib) (fs : Fs) (iter : Nat → List Path → List Path) (n : Nat) (kind : Kind)
    (k : Key) (out : List Out) :
    (∀ s, logObj E lib fs iter n kind k (w.dbs q, out) = (.ok (), s) → ∃ ks l, Spec.Log E lib fs iter n kind (w.dbs q) (k :: ks) l ∧ s = (w.dbs q, out ++ l)) ∧
    (∀ ks l, Spec.Log E lib fs iter n kind (w.dbs q) (k :: ks) l → (w.dbs q).data.length < n → logObj E lib fs iter n kind k (w.dbs q, out) = (.ok (), (w.dbs q, out ++ l))) := by
  have hT := reach_types h q
  have hc := World.Reachable.closed h q
  generalize w.dbs q = db at *
  constructor
  · intro s hs
    unfold logObj at hs
    obtain ⟨o, s1, h1, g1⟩ := bind_ok hs
    simp only [SM.read, Prod.mk.injEq] at h1
    obtain ⟨h1, rfl⟩ := h1
    cases hty : o.objtype with
    | commit =>
      rw [hty] at g1
      simp only at g1
      obtain ⟨_, s2, h2, g2⟩ := bind_ok g1
      obtain ⟨c, s3, h3, g3⟩ := bind_ok g2
      simp only [SM.read, Prod.mk.injEq] at h3
      obtain ⟨h3, rfl⟩ := h3
      have hd : s2.1 = db := by
        have ht : Traced Prod.fst E.H (fun _ => False) (displayObj E lib fs iter n kind n k) := traced_displayObj _ _ _ _ _ _ _ _
        have := traced_eq ht (db, out)
        rw [h2] at this
        exact this
      rw [hd] at h3
      obtain ⟨before, o', e, ho, hb⟩ := displayObj_ok (type_of_fromKey hT h3) h3 h2
      subst e
      obtain ⟨ks, l, hl, e⟩ := logLoop_ok hT h3 ho hb g3
      exact ⟨ks, _, hl, by rw [e]; simp⟩
    | _ => rw [hty] at g1; simp [SM.panic] at g1
  · intro ks l hl hn
    obtain ⟨c, hk⟩ : ∃ c, Commit.fromKey db k = .ok c := by cases hl with
      | root hc => exact ⟨_, hc⟩
      | step hc => exact ⟨_, hc⟩
    obtain ⟨o, ho, hoc⟩ := fromKey_eq_ok.mp hk
    have hlen : ks.length < n := by
      have : ∀ ks l k, Spec.Log E lib fs iter n kind db (k :: ks) l → ks.length ≤ rank db k := by
        intro ks
        induction ks with
        | nil => simp
        | cons p ks ih =>
          intro l k hl
          cases hl with
          | step hc' hp _ _ t =>
            have := ih _ _ t
            have := (rank_parent hc hc').2 p (by rw [hp]; simp)
            simp
            omega
      have h1 := this ks l k hl
      have h2 := rank_le db k
      omega
    unfold logObj
    obtain ⟨j, rfl⟩ : ∃ j, n = j + 1 := ⟨n - 1, by omega⟩
    simp only [SM.bind_apply, SM.read, ho, Res.unwrap, hT k o c ho hoc]
    cases hl with
    | root hc2 hp2 ho2 =>
      have e : _ = c := Res.ok.inj (hc2.symm.trans hk)
      subst e
      rw [displayObj_of out (type_of_fromKey hT hk) hk ho2 (Or.inl ⟨hp2, rfl⟩)]
      simp only [hk]
      rw [logLoop_of hT hk (.root hc2 hp2 ho2) hlen (by omega)]
      simp
    | step hc2 hp2 hc3 ho2 t2 =>
      have e : _ = c := Res.ok.inj (hc2.symm.trans hk)
      subst e
      rw [displayObj_of out (type_of_fromKey hT hk) hk ho2 (Or.inr ⟨_, _, _, hp2, hc3, rfl⟩)]
      simp only [hk]
      rw [logLoop_of hT hk (.step hc2 hp2 hc3 ho2 t2) hlen (by omega)]
      simp

end Snap.Props
