import Verif.Model.Sort
/-! Lemmas about sorting. -/
namespace Snap

theorem insertBy_perm {α} (le : α → α → Bool) (a : α) (l : List α) : (insertBy le a l).Perm (a :: l) := by
  induction l with
  | nil => exact List.Perm.refl _
  | cons b l ih =>
    unfold insertBy
    split
    · exact List.Perm.refl _
    · exact (List.Perm.cons b ih).trans (List.Perm.swap a b l)

theorem sortBy_perm {α} (le : α → α → Bool) (l : List α) : (sortBy le l).Perm l := by
  induction l with
  | nil => exact List.Perm.refl _
  | cons a l ih => exact (insertBy_perm le a _).trans (List.Perm.cons a ih)

/-- A total preorder, as a Boolean function. -/
structure TotalPre {α} (le : α → α → Bool) : Prop where
  total : ∀ a b, le a b = true ∨ le b a = true
  trans : ∀ a b c, le a b = true → le b c = true → le a c = true

/-- A total order, as a Boolean function. -/
structure TotalOrder {α} (le : α → α → Bool) : Prop extends TotalPre le where
  antisymm : ∀ a b, le a b = true → le b a = true → a = b

theorem insertBy_sorted {α} {le : α → α → Bool} (h : TotalPre le) (a : α) {l : List α} (hl : l.Pairwise fun x y => le x y = true) :
    (insertBy le a l).Pairwise fun x y => le x y = true := by
  induction l with
  | nil => simp [insertBy]
  | cons b l ih =>
    rw [List.pairwise_cons] at hl
    unfold insertBy
    split
    · rename_i hab
      rw [List.pairwise_cons, List.pairwise_cons]
      refine ⟨?_, hl⟩
      intro c hc
      rcases List.mem_cons.mp hc with rfl | hc
      · exact hab
      · exact h.trans _ _ _ hab (hl.1 c hc)
    · rename_i hab
      rw [List.pairwise_cons]
      refine ⟨?_, ih hl.2⟩
      intro c hc
      rcases List.mem_cons.mp ((insertBy_perm le a l).subset hc) with rfl | hc
      · rcases h.total c b with h1 | h1
        · exact absurd h1 hab
        · exact h1
      · exact hl.1 c hc

theorem sortBy_sorted {α} {le : α → α → Bool} (h : TotalPre le) (l : List α) : (sortBy le l).Pairwise fun x y => le x y = true := by
  induction l with
  | nil => simp [sortBy]
  | cons a l ih => exact insertBy_sorted h a ih

theorem sorted_unique {α} {le : α → α → Bool} (h : TotalOrder le) {l m : List α} (hl : l.Pairwise fun x y => le x y = true)
    (hm : m.Pairwise fun x y => le x y = true) (hp : l.Perm m) : l = m :=
  hp.eq_of_pairwise (fun a b _ _ => h.antisymm a b) hl hm

theorem sortBy_congr {α} {le : α → α → Bool} (h : TotalOrder le) {l m : List α} (hp : l.Perm m) : sortBy le l = sortBy le m :=
  sorted_unique h (sortBy_sorted h.toTotalPre l) (sortBy_sorted h.toTotalPre m) ((sortBy_perm le l).trans (hp.trans (sortBy_perm le m).symm))

theorem bytes_total : TotalOrder fun a b : Bytes => decide (a ≤ b) where
  total a b := by simpa using List.le_total a b
  trans a b c := by simpa using List.le_trans
  antisymm a b := by simpa using List.le_antisymm

theorem key_total : TotalOrder Key.le where
  total a b := bytes_total.total a.hash b.hash
  trans a b c := bytes_total.trans a.hash b.hash c.hash
  antisymm a b h1 h2 := by
    have := bytes_total.antisymm a.hash b.hash h1 h2
    cases a; cases b; simp at this; subst this; rfl

end Snap
