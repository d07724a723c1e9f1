import Verif.Props.DiffFs
/-! Property C52: hiding what lies inside added or deleted directories. -/
namespace Snap.Props
open Snap
set_option linter.unusedSectionVars false
variable [Serde] [LawfulSerde]

/-- `a` is a proper ancestor of `b`: its components are a shorter beginning of those of `b`. -/
def isAbove (a b : Path) : Bool := a.comps.isPrefixOf b.comps && decide (a.comps.length < b.comps.length)

theorem isAbove_iff {a b : Path} : isAbove a b = true ↔ a.comps <+: b.comps ∧ a.comps ≠ b.comps := by
  unfold isAbove
  simp only [Bool.and_eq_true, List.isPrefixOf_iff_prefix, decide_eq_true_eq]
  constructor
  · rintro ⟨h1, h2⟩
    exact ⟨h1, fun h => by rw [h] at h2; omega⟩
  · rintro ⟨h1, h2⟩
    refine ⟨h1, ?_⟩
    have := h1.length_le
    rcases Nat.lt_or_ge a.comps.length b.comps.length with h | h
    · exact h
    · exact absurd (h1.eq_of_length (by omega)) h2

theorem isAbove_trans {a b c : Path} (h1 : isAbove a b = true) (h2 : isAbove b c = true) : isAbove a c = true := by
  unfold isAbove at *
  simp only [Bool.and_eq_true, List.isPrefixOf_iff_prefix, decide_eq_true_eq] at *
  exact ⟨h1.1.trans h2.1, by omega⟩

theorem listLe_prefix {α} {le : α → α → Bool} (h : ∀ a, le a a = true) (l t : List α) : listLe le l (l ++ t) = true := by
  induction l with
  | nil => simp [listLe]
  | cons a l ih => simp [listLe, h a, ih]

theorem path_le_of_prefix {a b : Path} (h : a.comps <+: b.comps) : Path.le a b = true := by
  obtain ⟨t, ht⟩ := h
  unfold Path.le
  rw [← ht]
  exact listLe_prefix (fun a => comp_total.toTotalPre.refl a) _ _

theorem startsWith_iff {p q : Path} : Path.startsWith p q = true ↔ q.comps <+: p.comps := by
  unfold Path.startsWith
  exact List.isPrefixOf_iff_prefix

theorem simplifyBy_snoc {α} (path : α → Path) (l : List α) (p : α) :
    simplifyBy path (l ++ [p]) = if (simplifyBy path l).any (fun x => Path.startsWith (path p) (path x)) then simplifyBy path l else simplifyBy path l ++ [p] := by
  unfold simplifyBy
  rw [List.foldl_append]
  rfl

/-- An element of a list with an ancestor in it has one without ancestors in it. -/
theorem top_above {α} (path : α → Path) (l : List α) (p : Path) (h : ∃ x ∈ l, isAbove (path x) p = true) :
    ∃ x ∈ l, isAbove (path x) p = true ∧ ∀ y ∈ l, isAbove (path y) (path x) = false := by
  obtain ⟨x, hx, hp⟩ := h
  have : ∀ n, ∀ x ∈ l, isAbove (path x) p = true → (path x).comps.length ≤ n → ∃ x ∈ l, isAbove (path x) p = true ∧ ∀ y ∈ l, isAbove (path y) (path x) = false := by
    intro n
    induction n with
    | zero =>
      intro x hx hp hn
      refine ⟨x, hx, hp, fun y _ => ?_⟩
      cases h : isAbove (path y) (path x) with
      | false => rfl
      | true => unfold isAbove at h; simp at h; omega
    | succ n ih =>
      intro x hx hp hn
      by_cases hy : ∃ y ∈ l, isAbove (path y) (path x) = true
      · obtain ⟨y, hy, ha⟩ := hy
        refine ih y hy (isAbove_trans ha hp) ?_
        unfold isAbove at ha; simp at ha; omega
      · refine ⟨x, hx, hp, fun y hy' => ?_⟩
        cases h : isAbove (path y) (path x) with
        | false => rfl
        | true => exact absurd ⟨y, hy', h⟩ hy
  exact this _ x hx hp (Nat.le_refl _)

theorem simplifyBy_eq {α} (path : α → Path) (l : List α) (h : (l.map path).Pairwise Path.lt) :
    simplifyBy path l = l.filter fun e => !l.any fun x => isAbove (path x) (path e) := by
  induction l using snocInd with
  | h0 => rfl
  | h1 l p ih =>
    rw [List.map_append, List.pairwise_append] at h
    obtain ⟨h1, _, h3⟩ := h
    have lt : ∀ e ∈ l, Path.lt (path e) (path p) := fun e he => h3 _ (List.mem_map_of_mem he) _ (by simp)
    have notBelow : ∀ e ∈ l, isAbove (path p) (path e) = false := by
      intro e he
      cases hh : isAbove (path p) (path e) with
      | false => rfl
      | true =>
        have a := path_le_of_prefix (isAbove_iff.mp hh).1
        have b := (lt e he).2
        rw [a] at b
        simp at b
    have notSelf : isAbove (path p) (path p) = false := by
      cases hh : isAbove (path p) (path p) with
      | false => rfl
      | true => exact absurd rfl (isAbove_iff.mp hh).2
    have e1 : ((l ++ [p]).filter fun e => !(l ++ [p]).any fun x => isAbove (path x) (path e)) =
        (l.filter fun e => !l.any fun x => isAbove (path x) (path e)) ++ if (l.any fun x => isAbove (path x) (path p)) then [] else [p] := by
      rw [List.filter_append]
      congr 1
      · refine List.filter_congr fun e he => ?_
        simp [notBelow e he]
      · have : ((l ++ [p]).any fun x => isAbove (path x) (path p)) = l.any fun x => isAbove (path x) (path p) := by
          rw [List.any_append, List.any_cons, List.any_nil, notSelf, Bool.or_false, Bool.or_false]
        rw [List.filter_cons, this]
        cases l.any fun x => isAbove (path x) (path p) <;> rfl
    rw [simplifyBy_snoc, ih h1, e1]
    have e2 : ((l.filter fun e => !l.any fun x => isAbove (path x) (path e)).any fun x => Path.startsWith (path p) (path x)) = l.any fun x => isAbove (path x) (path p) := by
      rw [Bool.eq_iff_iff, List.any_eq_true, List.any_eq_true]
      constructor
      · rintro ⟨x, hx, hs⟩
        have hx := (List.mem_filter.mp hx).1
        refine ⟨x, hx, isAbove_iff.mpr ⟨startsWith_iff.mp hs, fun he => ?_⟩⟩
        have := (lt x hx).2
        rw [path_le_of_prefix (by rw [he]; exact List.prefix_refl _)] at this
        simp at this
      · intro hh
        obtain ⟨x, hx, hp, ht⟩ := top_above path l (path p) hh
        refine ⟨x, List.mem_filter.mpr ⟨hx, ?_⟩, startsWith_iff.mpr (isAbove_iff.mp hp).1⟩
        simp only [Bool.not_eq_true', ← Bool.not_eq_true, List.any_eq_true, not_exists, not_and]
        intro y hy
        simp [ht y hy]
    rw [e2]
    split <;> simp

/-- **C52**: of a result whose added and deleted lists ascend by path, `simplify` keeps, in order, exactly the added (deleted) entries without a proper ancestor among the
added (deleted) ones, and all modified ones. -/
theorem C52_exact (r : DiffResult) (ha : (r.added.map (·.path)).Pairwise Path.lt) (hd : (r.deleted.map (·.path)).Pairwise Path.lt) :
    (simplify r).added = r.added.filter (fun e => !r.added.any fun x => isAbove x.path e.path) ∧
    (simplify r).deleted = r.deleted.filter (fun e => !r.deleted.any fun x => isAbove x.path e.path) ∧
    (simplify r).modified = r.modified :=
  ⟨simplifyBy_eq _ _ ha, simplifyBy_eq _ _ hd, rfl⟩

/-- **C52** for everything `compare` returns. -/
theorem C52_compare (E : Env) (fs : Fs) (iter : Nat → List Path → List Path) (hi : IterOk iter) (n : Nat) (source : Target) (to : Option Key) (s s' : Db × Cache) (r : DiffResult)
    (h : compare E fs iter n source to s = (.ok r, s')) :
    (simplify r).added = r.added.filter (fun e => !r.added.any fun x => isAbove x.path e.path) ∧
    (simplify r).deleted = r.deleted.filter (fun e => !r.deleted.any fun x => isAbove x.path e.path) ∧
    (simplify r).modified = r.modified := by
  have := C51_sorted E fs iter hi n source to s s' r h
  exact C52_exact r this.1 this.2.1

/-- Every entry that `simplify` hides lies inside a shown one. -/
theorem C52_covered (r : DiffResult) (ha : (r.added.map (·.path)).Pairwise Path.lt) (e : Added) (he : e ∈ r.added) :
    e ∈ (simplify r).added ∨ ∃ x ∈ (simplify r).added, isAbove x.path e.path = true := by
  by_cases hh : ∃ x ∈ r.added, isAbove x.path e.path = true
  · obtain ⟨x, hx, hp, ht⟩ := top_above (·.path) r.added e.path hh
    refine Or.inr ⟨x, ?_, hp⟩
    show x ∈ simplifyBy (·.path) r.added
    rw [simplifyBy_eq _ _ ha]
    refine List.mem_filter.mpr ⟨hx, ?_⟩
    simp only [Bool.not_eq_true', ← Bool.not_eq_true, List.any_eq_true, not_exists, not_and]
    intro y hy
    simp [ht y hy]
  · left
    show e ∈ simplifyBy (·.path) r.added
    rw [simplifyBy_eq _ _ ha]
    refine List.mem_filter.mpr ⟨he, ?_⟩
    simp only [Bool.not_eq_true', ← Bool.not_eq_true, List.any_eq_true, not_exists, not_and]
    intro y hy hy'
    exact hh ⟨y, hy, hy'⟩

/-- `a`, `a-b`, `a/c`, `a/c/d`: only what is inside `a` is hidden (`a-b` sorts between `a` and `a/c` as bytes, not as path) -/
def exAdded : DiffResult := ⟨[], [⟨[97], true, none⟩, ⟨[97, 47, 99], true, none⟩, ⟨[97, 47, 99, 47, 100], false, none⟩, ⟨[97, 45, 98], false, none⟩], []⟩
example : (exAdded.added.map (·.path)).Pairwise Path.lt := by unfold Path.lt; decide +kernel
example : (simplify exAdded).added.map (·.path) = [[97], [97, 45, 98]] := by decide +kernel

end Snap.Props
