import Verif.Lemmas.Sort
import Verif.Lemmas.Path
import Verif.Model.Diff
/-! The orders of src/diff.rs. -/
namespace Snap

theorem TotalPre.refl {α} {le : α → α → Bool} (h : TotalPre le) (a : α) : le a a = true := (h.total a a).elim id id

theorem lexLe_iff {α} {f g : α → α → Bool} {a b : α} : lexLe f g a b = true ↔ f a b = true ∧ (f b a = true → g a b = true) := by
  unfold lexLe
  cases f a b <;> cases f b a <;> simp

theorem lexLe_pre {α} {f g : α → α → Bool} (hf : TotalPre f) (hg : TotalPre g) : TotalPre (lexLe f g) where
  total a b := by
    simp only [lexLe_iff]
    rcases hf.total a b with h | h <;> rcases hg.total a b with h' | h' <;> cases h1 : f a b <;> cases h2 : f b a <;> simp_all
  trans a b c h1 h2 := by
    rw [lexLe_iff] at h1 h2 ⊢
    refine ⟨hf.trans _ _ _ h1.1 h2.1, fun h => ?_⟩
    exact hg.trans _ _ _ (h1.2 (hf.trans _ _ _ h2.1 h)) (h2.2 (hf.trans _ _ _ h h1.1))

theorem lexLe_order {α} {f g : α → α → Bool} (hf : TotalPre f) (hg : TotalOrder g) : TotalOrder (lexLe f g) where
  toTotalPre := lexLe_pre hf hg.toTotalPre
  antisymm a b h1 h2 := by
    rw [lexLe_iff] at h1 h2
    exact hg.antisymm _ _ (h1.2 h2.1) (h2.2 h1.1)

theorem pre_of {α β} {le : β → β → Bool} (h : TotalPre le) (f : α → β) : TotalPre fun a b => le (f a) (f b) where
  total a b := h.total _ _
  trans a b c := h.trans _ _ _

theorem nat_total : TotalOrder fun a b : Nat => decide (a ≤ b) where
  total a b := by simp; omega
  trans a b c := by simp; omega
  antisymm a b := by simp; omega

theorem bool_total : TotalOrder boolLe where
  total a b := by cases a <;> cases b <;> simp [boolLe]
  trans a b c := by cases a <;> cases b <;> cases c <;> simp [boolLe]
  antisymm a b := by cases a <;> cases b <;> simp [boolLe]

theorem opt_total : TotalOrder optLe where
  total a b := by
    cases a <;> cases b <;> simp [optLe]
    exact key_total.total _ _
  trans a b c := by
    cases a <;> cases b <;> cases c <;> simp [optLe]
    exact key_total.trans _ _ _
  antisymm a b := by
    cases a <;> cases b <;> simp [optLe]
    exact key_total.antisymm _ _

theorem comp_total : TotalOrder compLe := lexLe_order (pre_of nat_total.toTotalPre compRank) bytes_total

theorem listLe_total {α} {le : α → α → Bool} (h : TotalOrder le) : TotalOrder (listLe le) where
  total a b := by
    induction a generalizing b with
    | nil => simp [listLe]
    | cons x a ih =>
      cases b with
      | nil => simp [listLe]
      | cons y b =>
        simp only [listLe]
        have := ih b
        rcases h.total x y with h1 | h1 <;> cases h2 : le x y <;> cases h3 : le y x <;> simp_all
  trans a b c h1 h2 := by
    induction a generalizing b c with
    | nil => simp [listLe]
    | cons x a ih =>
      cases b with
      | nil => simp [listLe] at h1
      | cons y b =>
        cases c with
        | nil => simp [listLe] at h2
        | cons z c =>
          simp only [listLe, Bool.and_eq_true, Bool.or_eq_true, Bool.not_eq_true'] at h1 h2 ⊢
          refine ⟨h.trans _ _ _ h1.1 h2.1, ?_⟩
          cases hzx : le z x with
          | false => exact Or.inl rfl
          | true =>
            right
            have e1 : le y x = true := h.trans _ _ _ h2.1 hzx
            have e2 : le z y = true := h.trans _ _ _ hzx h1.1
            rw [e1] at h1; rw [e2] at h2
            exact ih _ _ (h1.2.resolve_left (by simp)) (h2.2.resolve_left (by simp))
  antisymm a b h1 h2 := by
    induction a generalizing b with
    | nil => cases b with
      | nil => rfl
      | cons y b => simp [listLe] at h2
    | cons x a ih =>
      cases b with
      | nil => simp [listLe] at h1
      | cons y b =>
        simp only [listLe, Bool.and_eq_true, Bool.or_eq_true, Bool.not_eq_true'] at h1 h2
        rw [h2.1] at h1; rw [h1.1] at h2
        rw [h.antisymm _ _ h1.1 h2.1, ih _ (h1.2.resolve_left (by simp)) (h2.2.resolve_left (by simp))]

theorem path_pre : TotalPre Path.le := pre_of (listLe_total comp_total).toTotalPre Path.comps

theorem path_antisymm {p q : Path} (h1 : Path.le p q = true) (h2 : Path.le q p = true) : p.comps = q.comps :=
  (listLe_total comp_total).antisymm _ _ h1 h2

theorem path_antisymm_norm {p q : Path} (hp : p.norm = p) (hq : q.norm = q) (h1 : Path.le p q = true) (h2 : Path.le q p = true) : p = q := by
  rw [← hp, ← hq]; exact norm_eq_iff.mpr (path_antisymm h1 h2)

theorem added_pre : TotalPre Added.le :=
  lexLe_pre (pre_of path_pre _) (lexLe_pre (pre_of bool_total.toTotalPre _) (pre_of opt_total.toTotalPre _))
theorem deleted_pre : TotalPre Deleted.le :=
  lexLe_pre (pre_of path_pre _) (lexLe_pre (pre_of bool_total.toTotalPre _) (pre_of opt_total.toTotalPre _))
theorem modified_pre : TotalPre Modified.le :=
  lexLe_pre (pre_of path_pre _) (lexLe_pre (pre_of key_total.toTotalPre _) (pre_of key_total.toTotalPre _))
theorem stat_pre : TotalPre FileStat.le :=
  lexLe_pre (pre_of path_pre _) (lexLe_pre (pre_of nat_total.toTotalPre _) (pre_of nat_total.toTotalPre _))

/-- Strictly before. -/
def Path.lt (p q : Path) : Prop := Path.le p q = true ∧ Path.le q p = false

theorem Path.lt_irrefl (p : Path) : ¬ Path.lt p p := by
  intro h
  have h1 := h.1
  have h2 := h.2
  rw [h1] at h2
  simp at h2

/-- Sorting by path first, with pairwise different normalised paths: paths strictly ascend. -/
theorem sorted_paths {α} (path : α → Path) {g : α → α → Bool} (hg : TotalPre g) {l : List α} (hn : ∀ a ∈ l, (path a).norm = path a)
    (hd : (l.map path).Nodup) : ((sortBy (lexLe (fun a b => Path.le (path a) (path b)) g) l).map path).Pairwise Path.lt := by
  have hs := sortBy_sorted (lexLe_pre (pre_of path_pre path) hg) l
  have hp := sortBy_perm (lexLe (fun a b => Path.le (path a) (path b)) g) l
  have hd' := (hp.map path).nodup_iff.mpr hd
  unfold List.Nodup at hd'
  rw [List.pairwise_map] at hd' ⊢
  refine (hs.and hd').imp_of_mem ?_
  intro a b ha hb ⟨h1, h2⟩
  have h1 := (lexLe_iff.mp h1).1
  refine ⟨h1, ?_⟩
  cases h : Path.le (path b) (path a) with
  | false => rfl
  | true => exact absurd (path_antisymm_norm (hn a (hp.subset ha)) (hn b (hp.subset hb)) h1 h) h2

/-- Two lists of the same elements, with paths strictly ascending, are equal. -/
theorem ascending_unique {α} (path : α → Path) {l m : List α} (hl : (l.map path).Pairwise Path.lt) (hm : (m.map path).Pairwise Path.lt)
    (h : ∀ a, a ∈ l ↔ a ∈ m) : l = m := by
  rw [List.pairwise_map] at hl hm
  have nod : ∀ {l : List α}, l.Pairwise (fun a b => Path.lt (path a) (path b)) → l.Nodup := by
    intro l hl
    refine hl.imp ?_
    intro a b hab e
    subst e
    exact Path.lt_irrefl _ hab
  have hp : l.Perm m := (List.perm_ext_iff_of_nodup (nod hl) (nod hm)).mpr h
  refine hp.eq_of_pairwise ?_ hl hm
  intro a b _ _ h1 h2
  have := h1.1; have := h2.2; simp_all

end Snap
