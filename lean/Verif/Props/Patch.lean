import Verif.Model.Diff
import Verif.Lemmas.Object
/-! Properties C53 and C54: the hunks of a patch. -/
namespace Snap.Props
open Snap
set_option linter.unusedSectionVars false
variable [Serde] [LawfulSerde]

/-! ### Specification -/

/-- The line with index `i` is shown: some changed line lies at most 3 before it or at most 5 after it. -/
def Near (ls : List DLine) (i : Nat) : Prop := ∃ j l, ls[j]? = some l ∧ (∀ s, l ≠ .same s) ∧ i ≤ j + 3 ∧ j ≤ i + 5

/-- Number of lines of the old and of the new file among some lines. -/
def oldLines (ls : List DLine) : Nat := ls.countP fun l => match l with | .add _ => false | _ => true
def newLines (ls : List DLine) : Nat := ls.countP fun l => match l with | .rem _ => false | _ => true

/-- The lines with indices from `s` (included) to `e` (excluded). -/
def between (ls : List DLine) (s e : Nat) : List DLine := (ls.drop s).take (e - s)

/-- The hunk the code makes of the lines from `s` to `e`: it starts after the lines before; the counts leave out the last line. -/
def hunkAt (ls : List DLine) (p : Nat × Nat) : Hunk :=
  ⟨1 + oldLines (ls.take p.1), oldLines (between ls p.1 p.2).dropLast, 1 + newLines (ls.take p.1), newLines (between ls p.1 p.2).dropLast, between ls p.1 p.2⟩

/-- The maximal runs of indices with a property, in order: nonempty, inside the list, with a gap between two runs. -/
structure Runs (P : Nat → Prop) (len : Nat) (rs : List (Nat × Nat)) : Prop where
  nonempty : ∀ r ∈ rs, r.1 < r.2 ∧ r.2 ≤ len
  gaps : rs.Pairwise fun a b => a.2 < b.1
  cover : ∀ i, i < len → (P i ↔ ∃ r ∈ rs, r.1 ≤ i ∧ i < r.2)

/-! ### Grouping -/

theorem groupBy_flat {α} (key : α → Bool) (l : List α) : (groupBy key l).flatMap (·.2) = l := by
  induction l with
  | nil => rfl
  | cons a l ih =>
    unfold groupBy
    cases h : groupBy key l with
    | nil => rw [h] at ih; simp at ih; simp [← ih]
    | cons g gs =>
      obtain ⟨k, g⟩ := g
      rw [h] at ih
      simp only
      split
      · simp only [List.flatMap_cons, List.cons_append] at ih ⊢; rw [ih]
      · simp only [List.flatMap_cons, List.cons_append, List.nil_append] at ih ⊢; rw [ih]

theorem groupBy_keys {α} (key : α → Bool) (l : List α) : ∀ g ∈ groupBy key l, g.2 ≠ [] ∧ ∀ a ∈ g.2, key a = g.1 := by
  induction l with
  | nil => simp [groupBy]
  | cons a l ih =>
    unfold groupBy
    cases h : groupBy key l with
    | nil => simp
    | cons g gs =>
      obtain ⟨k, g⟩ := g
      rw [h] at ih
      simp only
      split
      · rename_i hk
        intro x hx
        rcases List.mem_cons.mp hx with rfl | hx
        · refine ⟨by simp, fun y hy => ?_⟩
          rcases List.mem_cons.mp hy with rfl | hy
          · exact hk.symm
          · exact (ih (k, g) (by simp)).2 y hy
        · exact ih x (by simp [hx])
      · intro x hx
        rcases List.mem_cons.mp hx with rfl | hx
        · simp
        · exact ih x hx

/-- Neighbouring groups have different keys. -/
def Alternate {α} : List (Bool × List α) → Prop
  | a :: b :: l => a.1 ≠ b.1 ∧ Alternate (b :: l)
  | _ => True

theorem Alternate.tail {α} {a : Bool × List α} {l : List (Bool × List α)} (h : Alternate (a :: l)) : Alternate l := by
  cases l with
  | nil => trivial
  | cons b l => exact h.2

theorem groupBy_alternate {α} (key : α → Bool) (l : List α) : Alternate (groupBy key l) := by
  induction l with
  | nil => simp [groupBy, Alternate]
  | cons a l ih =>
    unfold groupBy
    cases h : groupBy key l with
    | nil => simp [Alternate]
    | cons g gs =>
      obtain ⟨k, g⟩ := g
      rw [h] at ih
      simp only
      split
      · cases gs with
        | nil => trivial
        | cons b gs => exact ih
      · rename_i hk
        exact ⟨fun e => hk e.symm, ih⟩

/-- Where the groups with key `true` lie. -/
def spans {α} : Nat → List (Bool × List α) → List (Nat × Nat)
  | _, [] => []
  | o, (b, g) :: gs => if b then (o, o + g.length) :: spans (o + g.length) gs else spans (o + g.length) gs

theorem spans_lower {α} (o : Nat) (gs : List (Bool × List α)) : ∀ r ∈ spans o gs, o ≤ r.1 := by
  induction gs generalizing o with
  | nil => simp [spans]
  | cons g gs ih =>
    obtain ⟨b, g⟩ := g
    intro r hr
    unfold spans at hr
    split at hr
    · rcases List.mem_cons.mp hr with rfl | hr
      · exact Nat.le_refl _
      · have := ih _ r hr; omega
    · have := ih _ r hr; omega

theorem spans_lower' {α} {g0 : List α} (o : Nat) (gs : List (Bool × List α)) (ha : Alternate ((true, g0) :: gs)) (hne : ∀ g ∈ gs, g.2 ≠ []) : ∀ r ∈ spans o gs, o < r.1 := by
  cases gs with
  | nil => simp [spans]
  | cons g gs =>
    obtain ⟨b, g⟩ := g
    have hb : b = false := by have := ha.1; cases b <;> simp_all
    subst hb
    intro r hr
    unfold spans at hr
    simp only [Bool.false_eq_true, if_false] at hr
    have h1 := spans_lower _ _ r hr
    have h2 : g ≠ [] := hne (false, g) (by simp)
    have : 0 < g.length := List.length_pos_iff.mpr h2
    omega

theorem spans_runs {α} {key : α → Bool} (o : Nat) (gs : List (Bool × List α)) (ha : Alternate gs) (hk : ∀ g ∈ gs, g.2 ≠ [] ∧ ∀ a ∈ g.2, key a = g.1) :
    (∀ r ∈ spans o gs, r.1 < r.2 ∧ r.2 ≤ o + (gs.flatMap (·.2)).length) ∧ (spans o gs).Pairwise (fun a b => a.2 < b.1) ∧
    ∀ i x, (gs.flatMap (·.2))[i]? = some x → (key x = true ↔ ∃ r ∈ spans o gs, r.1 ≤ o + i ∧ o + i < r.2) := by
  induction gs generalizing o with
  | nil => simp [spans]
  | cons g gs ih =>
    obtain ⟨b, g⟩ := g
    obtain ⟨i1, i2, i3⟩ := ih (o + g.length) ha.tail (fun x hx => hk x (by simp [hx]))
    have hg := hk (b, g) (by simp)
    have hpos : 0 < g.length := List.length_pos_iff.mpr hg.1
    have ht : spans o ((b, g) :: gs) = if b then (o, o + g.length) :: spans (o + g.length) gs else spans (o + g.length) gs := rfl
    rw [ht]
    simp only [List.flatMap_cons, List.length_append]
    have tailCover : ∀ i x, g.length ≤ i → (g ++ gs.flatMap (·.2))[i]? = some x → (key x = true ↔ ∃ r ∈ spans (o + g.length) gs, r.1 ≤ o + i ∧ o + i < r.2) := by
      intro i x hi hx
      rw [List.getElem?_append_right hi] at hx
      have := i3 _ x hx
      rw [show o + g.length + (i - g.length) = o + i by omega] at this
      exact this
    have noTail : ∀ i, i < g.length → ¬ ∃ r ∈ spans (o + g.length) gs, r.1 ≤ o + i ∧ o + i < r.2 := by
      rintro i hi ⟨r, hr, h1, _⟩
      have := spans_lower _ _ r hr
      omega
    cases b with
    | false =>
      simp only [Bool.false_eq_true, if_false]
      refine ⟨fun r hr => ?_, i2, fun i x hx => ?_⟩
      · have := i1 r hr; omega
      · rcases Nat.lt_or_ge i g.length with h | h
        · rw [List.getElem?_append_left h] at hx
          have := hg.2 x (List.mem_of_getElem? hx)
          simp only [this, noTail i h]
          simp
        · exact tailCover i x h hx
    | true =>
      simp only [if_true]
      refine ⟨fun r hr => ?_, ?_, fun i x hx => ?_⟩
      · rcases List.mem_cons.mp hr with rfl | hr
        · simp only; omega
        · have := i1 r hr; omega
      · rw [List.pairwise_cons]
        exact ⟨fun r hr => spans_lower' _ _ ha (fun g hg => (hk g (by simp [hg])).1) r hr, i2⟩
      · rcases Nat.lt_or_ge i g.length with h | h
        · rw [List.getElem?_append_left h] at hx
          have := hg.2 x (List.mem_of_getElem? hx)
          simp only [this, true_iff]
          exact ⟨(o, o + g.length), by simp, by simp, by simp only; omega⟩
        · rw [tailCover i x h hx]
          constructor
          · rintro ⟨r, hr, h1⟩; exact ⟨r, by simp [hr], h1⟩
          · rintro ⟨r, hr, h1, h2⟩
            rcases List.mem_cons.mp hr with rfl | hr
            · simp only at h2; omega
            · exact ⟨r, hr, h1, h2⟩

/-- The groups with key `true` are the slices at their places. -/
theorem spans_slices {α} (o : Nat) (gs : List (Bool × List α)) (pre : List α) (hp : pre.length = o) :
    (gs.filter (·.1)).map (·.2) = (spans o gs).map fun r => ((pre ++ gs.flatMap (·.2)).drop r.1).take (r.2 - r.1) := by
  induction gs generalizing o pre with
  | nil => simp [spans]
  | cons g gs ih =>
    obtain ⟨b, g⟩ := g
    have ht : spans o ((b, g) :: gs) = if b then (o, o + g.length) :: spans (o + g.length) gs else spans (o + g.length) gs := rfl
    have := ih (o + g.length) (pre ++ g) (by simp [hp])
    rw [ht]
    simp only [List.flatMap_cons]
    rw [List.append_assoc] at this
    cases b with
    | false =>
      simp only [Bool.false_eq_true, if_false]
      rw [List.filter_cons]
      simpa using this
    | true =>
      simp only [if_true]
      rw [List.filter_cons]
      simp only [if_true, List.map_cons, this]
      congr 1
      rw [← hp]
      simp

/-! ### Numbering and windows -/

theorem number_length (b a : Nat) (ls : List DLine) : (number b a ls).length = ls.length := by
  induction ls generalizing b a with
  | nil => rfl
  | cons l ls ih => simp [number, ih]

theorem number_get (b a : Nat) (ls : List DLine) (i : Nat) : (number b a ls)[i]? = (ls[i]?).map fun l => (b + oldLines (ls.take i), a + newLines (ls.take i), l) := by
  induction ls generalizing b a i with
  | nil => simp [number]
  | cons l ls ih =>
    cases i with
    | zero => simp [number, oldLines, newLines]
    | succ i =>
      simp only [number, List.getElem?_cons_succ, ih, List.take_succ_cons]
      congr 1
      funext x
      unfold oldLines newLines
      simp only [List.countP_cons]
      cases l <;> simp [DLine.old, DLine.new] <;> omega

theorem number_lines (b a : Nat) (ls : List DLine) : (number b a ls).map (·.2.2) = ls := by
  induction ls generalizing b a with
  | nil => rfl
  | cons l ls ih => simp [number, ih]

theorem changed_iff {l : DLine} : l.changed = true ↔ ∀ s, l ≠ .same s := by
  cases l <;> simp [DLine.changed]

theorem near_ok (b a : Nat) (ls : List DLine) (i : Nat) (hi : i < ls.length) : ∃ r, near (number b a ls) i = .ok r ∧ (r = true ↔ Near ls i) := by
  unfold near sliceIncl
  rw [number_length]
  have hc : i - beforeContext ≤ min (i + afterContext) (ls.length - 1) + 1 ∧ min (i + afterContext) (ls.length - 1) < ls.length := by
    unfold beforeContext afterContext; omega
  rw [if_pos hc]
  refine ⟨_, rfl, ?_⟩
  rw [List.any_eq_true]
  constructor
  · rintro ⟨y, hy, hch⟩
    obtain ⟨j, hj⟩ := List.mem_iff_getElem?.mp hy
    rw [List.getElem?_take] at hj
    split at hj
    · rename_i hlt
      rw [List.getElem?_drop, number_get] at hj
      cases hl : ls[i - beforeContext + j]? with
      | none => rw [hl] at hj; simp at hj
      | some l =>
        rw [hl] at hj
        simp at hj
        subst hj
        refine ⟨i - beforeContext + j, l, hl, changed_iff.mp hch, ?_, ?_⟩ <;> unfold beforeContext afterContext at * <;> omega
    · simp at hj
  · rintro ⟨j, l, hl, hch, h1, h2⟩
    have hj : j < ls.length := (List.getElem?_eq_some_iff.mp hl).1
    have hg := number_get b a ls j
    rw [hl] at hg
    simp only [Option.map_some] at hg
    refine ⟨(b + oldLines (ls.take j), a + newLines (ls.take j), l), List.mem_of_getElem? (i := j - (i - beforeContext)) ?_, changed_iff.mpr hch⟩
    · rw [List.getElem?_take, if_pos (by unfold beforeContext afterContext; omega), List.getElem?_drop]
      rw [show i - beforeContext + (j - (i - beforeContext)) = j by unfold beforeContext; omega]
      exact hg

theorem take_add {α} (l : List α) (s n : Nat) : l.take (s + n) = l.take s ++ (l.drop s).take n := by
  rw [List.take_add]

/-- One hunk. -/
theorem mkHunk_slice (ls : List DLine) (s e : Nat) (h1 : s < e) (h2 : e ≤ ls.length) :
    mkHunk (((number 1 1 ls).drop s).take (e - s)) = .ok (hunkAt ls (s, e)) := by
  have hlen : (((number 1 1 ls).drop s).take (e - s)).length = e - s := by simp [number_length]; omega
  obtain ⟨ls0, hs⟩ : ∃ l, ls[s]? = some l := ⟨ls[s], List.getElem?_eq_getElem (by omega)⟩
  obtain ⟨le0, he⟩ : ∃ l, ls[e - 1]? = some l := ⟨ls[e - 1], List.getElem?_eq_getElem (by omega)⟩
  have hh : (((number 1 1 ls).drop s).take (e - s)).head? = some (1 + oldLines (ls.take s), 1 + newLines (ls.take s), ls0) := by
    rw [List.head?_eq_getElem?, List.getElem?_take, if_pos (by omega), List.getElem?_drop, Nat.add_zero, number_get, hs]
    rfl
  have hl : (((number 1 1 ls).drop s).take (e - s)).getLast? = some (1 + oldLines (ls.take (e - 1)), 1 + newLines (ls.take (e - 1)), le0) := by
    rw [List.getLast?_eq_getElem?, hlen, List.getElem?_take, if_pos (by omega), List.getElem?_drop, number_get, show s + (e - s - 1) = e - 1 by omega, he]
    rfl
  have hcut : ls.take (e - 1) = ls.take s ++ (between ls s e).dropLast := by
    have : (between ls s e).dropLast = (ls.drop s).take (e - 1 - s) := by
      unfold between
      rw [List.dropLast_eq_take, List.take_take, List.length_take, List.length_drop]
      congr 1
      omega
    rw [this, show e - 1 = s + (e - 1 - s) by omega, List.take_add]
    simp
  have ho : oldLines (ls.take (e - 1)) = oldLines (ls.take s) + oldLines (between ls s e).dropLast := by rw [hcut]; simp [oldLines, List.countP_append]
  have hn : newLines (ls.take (e - 1)) = newLines (ls.take s) + newLines (between ls s e).dropLast := by rw [hcut]; simp [newLines, List.countP_append]
  unfold mkHunk
  rw [hh, hl]
  simp only
  rw [ho, hn]
  unfold subRes
  rw [if_pos (by omega), if_pos (by omega)]
  simp only [Res.ok_bind]
  unfold hunkAt between
  simp only [List.map_take, List.map_drop, number_lines]
  refine congrArg Res.ok ?_
  congr 1 <;> omega

/-! ### C53 and C54 -/

/-- **C53**, **C54**: building the hunks of any list of changes succeeds. The hunks are, in order, the maximal runs of lines near a change: every such line is in exactly
one hunk, no other line is. `hunkAt` gives their starts and counts. -/
theorem C53_hunks (cs : List Change) : ∃ rs, Runs (Near (cs.flatMap Change.lines)) (cs.flatMap Change.lines).length rs ∧
    hunksOf cs = .ok (rs.map (hunkAt (cs.flatMap Change.lines))) := by
  classical
  unfold hunksOf
  generalize cs.flatMap Change.lines = ls
  let nl := number 1 1 ls
  let keyed : List (Bool × Nat × Nat × DLine) := (List.range ls.length).filterMap fun i => (nl[i]?).map fun x => (decide (Near ls i), x)
  have hkg : ∀ i, keyed[i]? = (nl[i]?).map fun x => (decide (Near ls i), x) := by
    have : ∀ (f : Nat → Option (Bool × Nat × Nat × DLine)) n, (∀ i, i < n → (f i).isSome = true) → ∀ i, ((List.range n).filterMap f)[i]? = if i < n then f i else none := by
      intro f n
      induction n with
      | zero => simp
      | succ n ih =>
        intro hf i
        have hl : ((List.range n).filterMap f).length = n := by
          have : ∀ (l : List Nat), (∀ i ∈ l, (f i).isSome = true) → (l.filterMap f).length = l.length := by
            intro l hl
            induction l with
            | nil => rfl
            | cons a l ihl =>
              obtain ⟨v, hv⟩ := Option.isSome_iff_exists.mp (hl a (by simp))
              rw [List.filterMap_cons, hv]
              simp [ihl (fun i hi => hl i (by simp [hi]))]
          rw [this _ (fun i hi => hf i (by have := List.mem_range.mp hi; omega))]
          simp
        obtain ⟨v, hv⟩ := Option.isSome_iff_exists.mp (hf n (by omega))
        rw [List.range_succ, List.filterMap_append, List.filterMap_cons, hv, List.filterMap_nil]
        rcases Nat.lt_or_ge i n with h | h
        · rw [List.getElem?_append_left (by omega), ih (fun i hi => hf i (by omega)), if_pos h, if_pos (by omega)]
        · rw [List.getElem?_append_right (by omega), hl]
          rcases Nat.eq_or_lt_of_le h with h | h
          · subst h; simp [hv]
          · rw [if_neg (by omega), List.getElem?_eq_none (by simp; omega)]
    intro i
    have hnl : nl.length = ls.length := number_length 1 1 ls
    rw [this _ _ (fun i hi => by rw [List.getElem?_eq_getElem (by omega)]; rfl) i]
    split
    · rfl
    · rw [List.getElem?_eq_none (by omega)]; rfl
  have hk2 : keyed.map (·.2) = nl := by
    apply List.ext_getElem?
    intro i
    rw [List.getElem?_map, hkg, Option.map_map]
    cases nl[i]? <;> rfl
  have hmap : mapRes (keyLine nl) (List.range nl.length) = .ok keyed := by
    have hnl : nl.length = ls.length := number_length 1 1 ls
    have hx : ∀ i ∈ List.range nl.length, keyLine nl i = .ok (decide (Near ls i), (nl[i]?).getD (0, 0, .same [])) := by
      intro i hi
      have hi := List.mem_range.mp hi
      obtain ⟨r, h1, h2⟩ := near_ok 1 1 ls i (by omega)
      unfold keyLine
      rw [show near nl i = .ok r from h1, Res.ok_bind, List.getElem?_eq_getElem hi]
      have : r = decide (Near ls i) := by rw [Bool.eq_iff_iff, h2, decide_eq_true_iff]
      rw [this]
      rfl
    rw [mapRes_ok _ hx]
    refine congrArg Res.ok ?_
    apply List.ext_getElem?
    intro i
    rw [hkg, List.getElem?_map]
    rcases Nat.lt_or_ge i nl.length with h | h
    · rw [List.getElem?_range h, List.getElem?_eq_getElem h]; simp only [Option.map_some, List.getElem?_eq_getElem h, Option.getD_some]
    · rw [List.getElem?_eq_none (l := nl) h, List.getElem?_eq_none (by simpa using h)]; rfl
  simp only
  rw [show number 1 1 ls = nl from rfl, hmap, Res.ok_bind]
  have hg := spans_runs (key := fun x : Bool × Nat × Nat × DLine => x.1) 0 (groupBy (·.1) keyed) (groupBy_alternate _ _) (groupBy_keys _ _)
  have hsl := spans_slices 0 (groupBy (·.1) keyed) [] rfl
  rw [groupBy_flat] at hg
  rw [groupBy_flat] at hsl
  have hlen : keyed.length = ls.length := by
    have := congrArg List.length hk2
    rw [List.length_map] at this
    rw [this]; exact number_length 1 1 ls
  refine ⟨spans 0 (groupBy (·.1) keyed), ⟨?_, hg.2.1, ?_⟩, ?_⟩
  · intro r hr
    have := hg.1 r hr
    omega
  · intro i hi
    have hx := hkg i
    have hnl : nl.length = ls.length := number_length 1 1 ls
    rw [List.getElem?_eq_getElem (l := nl) (by omega)] at hx
    have := hg.2.2 i _ hx
    simp only [decide_eq_true_iff, Nat.zero_add] at this
    exact this
  · have e : ((groupBy (·.1) keyed).filter (·.1)).map (fun g => g.2.map (·.2)) = (spans 0 (groupBy (·.1) keyed)).map fun r => (nl.drop r.1).take (r.2 - r.1) := by
      have := congrArg (List.map (List.map (·.2))) hsl
      simp only [List.map_map, List.nil_append] at this
      refine Eq.trans (b := List.map ((List.map fun x => x.2) ∘ fun x => x.2) ((groupBy (·.1) keyed).filter (·.1))) rfl (this.trans ?_)
      refine List.map_congr_left fun r _ => ?_
      simp only [Function.comp, List.map_take, List.map_drop, hk2]
    have e2 : mapRes (fun g : Bool × List (Bool × Nat × Nat × DLine) => mkHunk (g.2.map (·.2))) ((groupBy (·.1) keyed).filter (·.1)) =
        mapRes mkHunk (((groupBy (·.1) keyed).filter (·.1)).map (fun g => g.2.map (·.2))) := by
      rw [mapRes_map]
    rw [e2, e, mapRes_map]
    refine mapRes_ok _ fun r hr => ?_
    have := hg.1 r hr
    exact mkHunk_slice ls r.1 r.2 this.1 (by omega)

/-- **C53**: so every changed line is in a hunk; -/
theorem C53_changes_shown (cs : List Change) (i : Nat) (l : DLine) (hl : (cs.flatMap Change.lines)[i]? = some l) (hc : ∀ s, l ≠ .same s) :
    ∃ hs h, hunksOf cs = .ok hs ∧ h ∈ hs ∧ l ∈ h.lines := by
  obtain ⟨rs, hr, he⟩ := C53_hunks cs
  have hi := (List.getElem?_eq_some_iff.mp hl).1
  obtain ⟨r, hr1, h1, h2⟩ := (hr.cover i hi).mp ⟨i, l, hl, hc, by omega, by omega⟩
  refine ⟨_, _, he, List.mem_map_of_mem hr1, List.mem_of_getElem? (i := i - r.1) ?_⟩
  show (between _ r.1 r.2)[i - r.1]? = some l
  unfold between
  rw [List.getElem?_take, if_pos (by omega), List.getElem?_drop, show r.1 + (i - r.1) = i by omega, hl]

/-- and without a changed line there is no hunk. -/
theorem C53_no_change (cs : List Change) (h : ∀ l ∈ cs.flatMap Change.lines, ∃ s, l = .same s) : hunksOf cs = .ok [] := by
  obtain ⟨rs, hr, he⟩ := C53_hunks cs
  cases rs with
  | nil => exact he
  | cons r rs =>
    exfalso
    obtain ⟨h1, h2⟩ := hr.nonempty r (by simp)
    obtain ⟨j, l, hl, hc, _⟩ := (hr.cover r.1 (by omega)).mpr ⟨r, by simp, by omega, h1⟩
    obtain ⟨s, hs⟩ := h l (List.mem_of_getElem? hl)
    exact hc s hs

theorem between_split (ls : List DLine) (s e : Nat) (h1 : s ≤ e) : ls = ls.take s ++ (between ls s e ++ ls.drop e) := by
  unfold between
  conv => lhs; rw [← List.take_append_drop s ls]
  congr 1
  conv => lhs; rw [← List.take_append_drop (e - s) (ls.drop s)]
  congr 1
  rw [List.drop_drop]
  congr 1
  omega

/-- **C54**: the starts of each hunk are right: one more than the number of old (new) lines before it. The counts are those of all lines but the last, so that, the last
line belonging to at least one of the two files, never both are right. -/
theorem C54_counts (cs : List Change) (hs : List Hunk) (hh : hunksOf cs = .ok hs) (h : Hunk) (hm : h ∈ hs) :
    ∃ before lines last after, cs.flatMap Change.lines = before ++ (h.lines ++ after) ∧ h.lines = lines ++ [last] ∧
      h.oldStart = 1 + oldLines before ∧ h.newStart = 1 + newLines before ∧
      h.oldCount = oldLines lines ∧ h.newCount = newLines lines ∧
      h.oldCount + oldLines [last] = oldLines h.lines ∧ h.newCount + newLines [last] = newLines h.lines ∧
      ¬ (h.oldCount = oldLines h.lines ∧ h.newCount = newLines h.lines) := by
  obtain ⟨rs, hr, he⟩ := C53_hunks cs
  rw [hh] at he
  simp at he
  subst he
  obtain ⟨r, hr1, rfl⟩ := List.mem_map.mp hm
  obtain ⟨h1, h2⟩ := hr.nonempty r hr1
  generalize cs.flatMap Change.lines = ls at *
  have hne : between ls r.1 r.2 ≠ [] := by
    intro h0
    have := congrArg List.length h0
    unfold between at this
    simp at this
    omega
  have hsp := between_split ls r.1 r.2 (by omega)
  have hla := (List.dropLast_concat_getLast hne).symm
  have ho : oldLines ((between ls r.1 r.2).dropLast) + oldLines [(between ls r.1 r.2).getLast hne] = oldLines (between ls r.1 r.2) := by
    conv => rhs; rw [hla]
    generalize (between ls r.1 r.2).getLast hne = l
    unfold oldLines
    rw [List.countP_append]
  have hn : newLines ((between ls r.1 r.2).dropLast) + newLines [(between ls r.1 r.2).getLast hne] = newLines (between ls r.1 r.2) := by
    conv => rhs; rw [hla]
    generalize (between ls r.1 r.2).getLast hne = l
    unfold newLines
    rw [List.countP_append]
  refine ⟨ls.take r.1, (between ls r.1 r.2).dropLast, (between ls r.1 r.2).getLast hne, ls.drop r.2, hsp, hla, rfl, rfl, rfl, rfl, ho, hn, ?_⟩
  rintro ⟨g1, g2⟩
  have g1 : oldLines ((between ls r.1 r.2).dropLast) = oldLines (between ls r.1 r.2) := g1
  have g2 : newLines ((between ls r.1 r.2).dropLast) = newLines (between ls r.1 r.2) := g2
  generalize (between ls r.1 r.2).getLast hne = l at ho hn
  have : oldLines [l] + newLines [l] ≥ 1 := by cases l <;> simp [oldLines, newLines]
  omega

/-- **C54**: the patch of an added or removed file has one hunk, whose counts are right. -/
theorem C54_whole_file (lib : DiffLib) (db : Db) (n : Nat) (path : Path) (k : Key) (p : Patch) (hp : addedPatch lib db n path k = .ok p ∨ removedPatch lib db n path k = .ok p) :
    ∃ h, p.hunks = [h] ∧ h.oldCount = oldLines h.lines ∧ h.newCount = newLines h.lines := by
  have ca : ∀ l : List Bytes, oldLines (l.map .add) = 0 ∧ newLines (l.map .add) = l.length := by
    intro l
    unfold oldLines newLines
    induction l with
    | nil => simp
    | cons a l ih => simp
  have cr : ∀ l : List Bytes, newLines (l.map .rem) = 0 ∧ oldLines (l.map .rem) = l.length := by
    intro l
    unfold oldLines newLines
    induction l with
    | nil => simp
    | cons a l ih => simp
  rcases hp with hp | hp
  · unfold addedPatch at hp
    obtain ⟨d, _, hp⟩ := Res.bind_eq_ok hp
    split at hp
    · simp at hp
      subst hp
      exact ⟨_, rfl, (ca _).1.symm, (ca _).2.symm⟩
    · simp at hp
  · unfold removedPatch at hp
    obtain ⟨d, _, hp⟩ := Res.bind_eq_ok hp
    split at hp
    · simp at hp
      subst hp
      exact ⟨_, rfl, (cr _).2.symm, (cr _).1.symm⟩
    · simp at hp

/-- twelve lines, the second changed and one added at the end: two hunks. The header of the first says 4 old and 4 new lines, it has 5 of each -/
def exChanges : List Change := [.same [97], .rem [98], .add [99], .same [49, 10, 50, 10, 51, 10, 52, 10, 53, 10, 54, 10, 55, 10, 56, 10, 57], .add [122]]
example : hunksOf exChanges = .ok [⟨1, 4, 1, 4, [.same [97], .rem [98], .add [99], .same [49], .same [50], .same [51]]⟩, ⟨7, 5, 7, 5, [.same [53], .same [54], .same [55], .same [56], .same [57], .add [122]]⟩] := by decide +kernel

end Snap.Props
