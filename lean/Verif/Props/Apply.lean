import Verif.Props.Show
/-! Patches describe the change: applying the hunks to the old lines gives the new lines, and back. -/
namespace Snap.Props
open Snap

/-! ### Applying a patch: the specification -/

/-- The lines of the old and of the new file among the lines of a line diff. -/
def oldText (ls : List DLine) : List Bytes := ls.filterMap fun l => match l with | .same s | .rem s => some s | .add _ => none
def newText (ls : List DLine) : List Bytes := ls.filterMap fun l => match l with | .same s | .add s => some s | .rem _ => none

/-- The text with these lines, each ended by a newline. -/
def text (ls : List Bytes) : Bytes := ls.flatMap (· ++ [10])

/-- Applying the lines of one hunk: unchanged and removed lines must be there. The result are the new lines and the old lines that are left. -/
def applyLines : List DLine → List Bytes → Option (List Bytes × List Bytes)
  | [], old => some ([], old)
  | .add s :: ls, old => (applyLines ls old).map fun r => (s :: r.1, r.2)
  | .same s :: ls, x :: old => if x = s then (applyLines ls old).map fun r => (s :: r.1, r.2) else none
  | .rem s :: ls, x :: old => if x = s then applyLines ls old else none
  | .same _ :: _, [] => none
  | .rem _ :: _, [] => none

/-- Applying hunks one after the other from line `o` of the old and line `n` of the new file on: each at the line its header says, in both files; lines before it are kept. The
counts in the header are not used (they are wrong, C54). -/
def applyHunks : Nat → Nat → List Hunk → List Bytes → Option (List Bytes)
  | _, _, [], old => some old
  | o, n, h :: hs, old =>
    if o ≤ h.oldStart ∧ h.oldStart - o ≤ old.length ∧ h.newStart = n + (h.oldStart - o) then
      match applyLines h.lines (old.drop (h.oldStart - o)) with
      | some (out, rest) => (applyHunks (h.oldStart + oldLines h.lines) (h.newStart + newLines h.lines) hs rest).map fun r => old.take (h.oldStart - o) ++ (out ++ r)
      | none => none
    else none

/-- The hunk read backwards. -/
def flipLine : DLine → DLine
  | .same s => .same s
  | .add s => .rem s
  | .rem s => .add s
def flipHunk (h : Hunk) : Hunk := ⟨h.newStart, h.newCount, h.oldStart, h.oldCount, h.lines.map flipLine⟩

/-! ### Proofs -/

theorem applyLines_text (ls : List DLine) (rest : List Bytes) : applyLines ls (oldText ls ++ rest) = some (newText ls, rest) := by
  induction ls with
  | nil => rfl
  | cons l ls ih =>
    cases l with
    | same s =>
      show applyLines (.same s :: ls) (s :: (oldText ls ++ rest)) = _
      rw [applyLines, if_pos rfl, ih]; rfl
    | add s =>
      show applyLines (.add s :: ls) (oldText ls ++ rest) = _
      rw [applyLines, ih]; rfl
    | rem s =>
      show applyLines (.rem s :: ls) (s :: (oldText ls ++ rest)) = _
      rw [applyLines, if_pos rfl, ih]; rfl

theorem oldText_append (a b : List DLine) : oldText (a ++ b) = oldText a ++ oldText b := List.filterMap_append
theorem newText_append (a b : List DLine) : newText (a ++ b) = newText a ++ newText b := List.filterMap_append
theorem oldLines_append' (a b : List DLine) : oldLines (a ++ b) = oldLines a + oldLines b := List.countP_append
theorem newLines_append' (a b : List DLine) : newLines (a ++ b) = newLines a + newLines b := List.countP_append

theorem all_same {ls : List DLine} (h : ∀ l ∈ ls, ∃ s, l = .same s) :
    oldText ls = newText ls ∧ (oldText ls).length = ls.length ∧ oldLines ls = ls.length ∧ newLines ls = ls.length := by
  induction ls with
  | nil => exact ⟨rfl, rfl, rfl, rfl⟩
  | cons l ls ih =>
    obtain ⟨s, rfl⟩ := h l (by simp)
    obtain ⟨h1, h2, h3, h4⟩ := ih fun l hl => h l (by simp [hl])
    refine ⟨?_, ?_, ?_, ?_⟩
    · show s :: oldText ls = s :: newText ls
      rw [h1]
    · show (s :: oldText ls).length = _
      simp [h2]
    · unfold oldLines at h3 ⊢; simp [h3]
    · unfold newLines at h4 ⊢; simp [h4]

theorem apply_runs (ls : List DLine) (rs : List (Nat × Nat)) : ∀ i, i ≤ ls.length → (∀ r ∈ rs, i ≤ r.1 ∧ r.1 < r.2 ∧ r.2 ≤ ls.length) → rs.Pairwise (fun a b => a.2 < b.1) →
    (∀ j l, i ≤ j → ls[j]? = some l → (∀ r ∈ rs, ¬ (r.1 ≤ j ∧ j < r.2)) → ∃ s, l = .same s) →
    applyHunks (1 + oldLines (ls.take i)) (1 + newLines (ls.take i)) (rs.map (hunkAt ls)) (oldText (ls.drop i)) = some (newText (ls.drop i)) := by
  induction rs with
  | nil =>
    intro i _ _ _ hs
    show some _ = some _
    rw [(all_same (ls := ls.drop i) fun l hl => ?_).1]
    obtain ⟨j, hj⟩ := List.getElem?_of_mem hl
    rw [List.getElem?_drop] at hj
    exact hs _ _ (by omega) hj (by simp)
  | cons r rs ih =>
    intro i hi hr hp hs
    obtain ⟨h1, h2, h3⟩ := hr r (by simp)
    obtain ⟨hp1, hp2⟩ := List.pairwise_cons.mp hp
    have hA : ∀ l ∈ between ls i r.1, ∃ s, l = .same s := by
      intro l hl
      obtain ⟨j, hj⟩ := List.getElem?_of_mem hl
      unfold between at hj
      rw [List.getElem?_take] at hj
      split at hj
      · rename_i hlt
        rw [List.getElem?_drop] at hj
        refine hs _ _ (by omega) hj fun q hq => ?_
        rcases List.mem_cons.mp hq with rfl | hq
        · omega
        · have := hp1 q hq; have := hr q (by simp [hq]); omega
      · simp at hj
    obtain ⟨a1, a2, a3, a4⟩ := all_same hA
    have hlen : (between ls i r.1).length = r.1 - i := by unfold between; simp; omega
    have hd : ls.drop i = between ls i r.1 ++ (between ls r.1 r.2 ++ ls.drop r.2) := by
      unfold between
      rw [show (ls.drop i) = (ls.drop i).take (r.1 - i) ++ (ls.drop i).drop (r.1 - i) from (List.take_append_drop _ _).symm, List.drop_drop, show i + (r.1 - i) = r.1 by omega]
      congr 1
      · rw [List.take_append_of_le_length (by simp; omega), List.take_take, Nat.min_self]
      · conv => lhs; rw [← List.take_append_drop (r.2 - r.1) (ls.drop r.1)]
        rw [List.drop_drop, show r.1 + (r.2 - r.1) = r.2 by omega]
    have ht : ls.take r.1 = ls.take i ++ between ls i r.1 := by
      unfold between
      rw [← List.take_append_drop i (ls.take r.1), List.take_take, Nat.min_eq_left h1, List.drop_take]
    have ht2 : ls.take r.2 = ls.take r.1 ++ between ls r.1 r.2 := by
      unfold between
      rw [← List.take_append_drop r.1 (ls.take r.2), List.take_take, Nat.min_eq_left (by omega), List.drop_take]
    have ho : oldLines (ls.take r.1) = oldLines (ls.take i) + (r.1 - i) := by rw [ht, oldLines_append', a3, hlen]
    have hn : newLines (ls.take r.1) = newLines (ls.take i) + (r.1 - i) := by rw [ht, newLines_append', a4, hlen]
    have hk : (hunkAt ls r).oldStart - (1 + oldLines (ls.take i)) = r.1 - i := by
      show 1 + oldLines (ls.take r.1) - _ = _
      omega
    rw [List.map_cons, applyHunks, hk, if_pos, hd]
    · rw [oldText_append, List.drop_append_of_le_length (by omega), List.drop_of_length_le (by omega), List.nil_append, oldText_append]
      show (match applyLines (between ls r.1 r.2) _ with | some (out, rest) => _ | none => none) = _
      rw [applyLines_text]
      dsimp only
      rw [List.take_append_of_le_length (by omega), List.take_of_length_le (by omega)]
      have e1 : (hunkAt ls r).oldStart + oldLines (hunkAt ls r).lines = 1 + oldLines (ls.take r.2) := by
        show 1 + oldLines (ls.take r.1) + oldLines (between ls r.1 r.2) = _
        rw [ht2, oldLines_append']; omega
      have e2 : (hunkAt ls r).newStart + newLines (hunkAt ls r).lines = 1 + newLines (ls.take r.2) := by
        show 1 + newLines (ls.take r.1) + newLines (between ls r.1 r.2) = _
        rw [ht2, newLines_append']; omega
      rw [e1, e2, ih r.2 h3 (fun q hq => ⟨by have := hp1 q hq; omega, (hr q (by simp [hq])).2⟩) hp2 (fun j l hj hl hno => hs j l (by omega) hl fun q hq => ?_), newText_append, newText_append, a1]
      · rfl
      · rcases List.mem_cons.mp hq with rfl | hq
        · omega
        · exact hno q hq
    · refine ⟨?_, ?_, ?_⟩
      · show _ ≤ 1 + oldLines (ls.take r.1); omega
      · rw [hd, oldText_append, List.length_append]; omega
      · show 1 + newLines (ls.take r.1) = _; omega

theorem flip_counts (ls : List DLine) : oldLines (ls.map flipLine) = newLines ls ∧ newLines (ls.map flipLine) = oldLines ls ∧ oldText (ls.map flipLine) = newText ls ∧ newText (ls.map flipLine) = oldText ls := by
  induction ls with
  | nil => exact ⟨rfl, rfl, rfl, rfl⟩
  | cons l ls ih =>
    obtain ⟨h1, h2, h3, h4⟩ := ih
    unfold oldLines newLines oldText newText at *
    cases l <;> simp [flipLine, h1, h2, h3, h4]

theorem flip_hunk (ls : List DLine) (r : Nat × Nat) : hunkAt (ls.map flipLine) r = flipHunk (hunkAt ls r) := by
  have hb : between (ls.map flipLine) r.1 r.2 = (between ls r.1 r.2).map flipLine := by unfold between; rw [← List.map_drop, ← List.map_take]
  unfold hunkAt flipHunk
  dsimp only
  rw [hb, ← List.map_take, ← List.map_dropLast, (flip_counts _).1, (flip_counts _).1, (flip_counts _).2.1, (flip_counts _).2.1]

/-- **C69**: the hunks made of a line diff, applied where their headers say to the lines of the old file, give exactly the lines of the new file; read backwards and applied to
the new lines they give the old ones. -/
theorem C69_hunks (cs : List Change) : ∃ hs, hunksOf cs = .ok hs ∧
    applyHunks 1 1 hs (oldText (cs.flatMap Change.lines)) = some (newText (cs.flatMap Change.lines)) ∧
    applyHunks 1 1 (hs.map flipHunk) (newText (cs.flatMap Change.lines)) = some (oldText (cs.flatMap Change.lines)) := by
  obtain ⟨rs, hr, he⟩ := C53_hunks cs
  refine ⟨_, he, ?_⟩
  generalize cs.flatMap Change.lines = ls at *
  have hs : ∀ j l, ls[j]? = some l → (∀ r ∈ rs, ¬ (r.1 ≤ j ∧ j < r.2)) → ∃ s, l = .same s := by
    intro j l hl hno
    refine Classical.byContradiction fun hc => ?_
    obtain ⟨r, h1, h2⟩ := (hr.cover j (List.getElem?_eq_some_iff.mp hl).1).mp ⟨j, l, hl, fun s h => hc ⟨s, h⟩, by omega, by omega⟩
    exact hno r h1 h2
  constructor
  · have := apply_runs ls rs 0 (by omega) (fun r h => ⟨by omega, hr.nonempty r h⟩) hr.gaps (fun j l _ => hs j l)
    simpa [show oldLines [] = 0 from rfl, show newLines [] = 0 from rfl] using this
  · have := apply_runs (ls.map flipLine) rs 0 (by omega) (fun r h => ⟨by omega, by simpa using hr.nonempty r h⟩) hr.gaps (fun j l _ hl hno => ?_)
    · rw [List.drop_zero, (flip_counts ls).2.2.1, (flip_counts ls).2.2.2] at this
      rw [List.map_map]
      rw [show rs.map (flipHunk ∘ hunkAt ls) = rs.map (hunkAt (ls.map flipLine)) from List.map_congr_left fun r _ => (flip_hunk ls r).symm]
      simpa [show oldLines [] = 0 from rfl, show newLines [] = 0 from rfl] using this
    · rw [List.getElem?_map] at hl
      cases hj : ls[j]? with
      | none => rw [hj] at hl; simp at hl
      | some l' =>
        rw [hj] at hl
        obtain ⟨s, rfl⟩ := hs j l' hj hno
        simp at hl
        exact ⟨s, hl.symm⟩

theorem splitNl_text (s : Bytes) : text (splitNl s) = s ++ [10] ∧ ∀ l ∈ splitNl s, (10 : UInt8) ∉ l := by
  induction s with
  | nil => exact ⟨rfl, by simp [splitNl]⟩
  | cons b bs ih =>
    obtain ⟨h1, h2⟩ := ih
    rw [splitNl]
    split
    · rename_i hb
      subst hb
      refine ⟨?_, ?_⟩
      · unfold text at h1 ⊢
        rw [List.flatMap_cons, h1]; rfl
      · intro l hl
        rcases List.mem_cons.mp hl with rfl | hl
        · simp
        · exact h2 l hl
    · rename_i hb
      cases hs : splitNl bs with
      | nil => rw [hs] at h1; unfold text at h1; simp at h1
      | cons x xs =>
        rw [hs] at h1 h2
        refine ⟨?_, ?_⟩
        · unfold text at h1 ⊢
          rw [List.flatMap_cons] at h1 ⊢
          rw [List.cons_append, List.cons_append, h1]; rfl
        · intro l hl
          rcases List.mem_cons.mp hl with rfl | hl
          · intro hm
            rcases List.mem_cons.mp hm with h | h
            · exact hb h.symm
            · exact h2 x (by simp) h
          · exact h2 l (by simp [hl])

/-- What a line diff must satisfy to be one of these two texts: the unchanged and removed parts make up the old text, the unchanged and added parts the new one (each part and each
text being followed by a newline). -/
def DiffOf (cs : List Change) (before after : Bytes) : Prop :=
  (cs.flatMap fun c => match c with | .same s | .rem s => s ++ [10] | .add _ => []) = before ++ [10] ∧
  (cs.flatMap fun c => match c with | .same s | .add s => s ++ [10] | .rem _ => []) = after ++ [10]

theorem oldText_lines (cs : List Change) : text (oldText (cs.flatMap Change.lines)) = cs.flatMap fun c => match c with | .same s | .rem s => s ++ [10] | .add _ => [] := by
  induction cs with
  | nil => rfl
  | cons c cs ih =>
    rw [List.flatMap_cons, List.flatMap_cons, oldText_append]
    unfold text at ih ⊢
    rw [List.flatMap_append, ih]
    congr 1
    have e1 : ∀ l : List Bytes, oldText (l.map .same) = l := fun l => by induction l with | nil => rfl | cons a l ih => show a :: oldText (l.map .same) = _; rw [ih]
    have e2 : ∀ l : List Bytes, oldText (l.map .rem) = l := fun l => by induction l with | nil => rfl | cons a l ih => show a :: oldText (l.map .rem) = _; rw [ih]
    have e3 : ∀ l : List Bytes, oldText (l.map .add) = [] := fun l => by induction l with | nil => rfl | cons a l ih => show oldText (l.map .add) = _; rw [ih]
    cases c with
    | same s => rw [Change.lines, e1]; exact (splitNl_text s).1
    | rem s => rw [Change.lines, e2]; exact (splitNl_text s).1
    | add s => rw [Change.lines, e3]; rfl

theorem newText_lines (cs : List Change) : text (newText (cs.flatMap Change.lines)) = cs.flatMap fun c => match c with | .same s | .add s => s ++ [10] | .rem _ => [] := by
  induction cs with
  | nil => rfl
  | cons c cs ih =>
    rw [List.flatMap_cons, List.flatMap_cons, newText_append]
    unfold text at ih ⊢
    rw [List.flatMap_append, ih]
    congr 1
    have e1 : ∀ l : List Bytes, newText (l.map .same) = l := fun l => by induction l with | nil => rfl | cons a l ih => show a :: newText (l.map .same) = _; rw [ih]
    have e2 : ∀ l : List Bytes, newText (l.map .add) = l := fun l => by induction l with | nil => rfl | cons a l ih => show a :: newText (l.map .add) = _; rw [ih]
    have e3 : ∀ l : List Bytes, newText (l.map .rem) = [] := fun l => by induction l with | nil => rfl | cons a l ih => show newText (l.map .rem) = _; rw [ih]
    cases c with
    | same s => rw [Change.lines, e1]; exact (splitNl_text s).1
    | add s => rw [Change.lines, e2]; exact (splitNl_text s).1
    | rem s => rw [Change.lines, e3]; rfl

theorem lines_noNl (cs : List Change) : ∀ l ∈ cs.flatMap Change.lines, match l with | .same s | .add s | .rem s => (10 : UInt8) ∉ s := by
  intro l hl
  obtain ⟨c, _, hl⟩ := List.mem_flatMap.mp hl
  cases c with
  | same s => obtain ⟨x, hx, rfl⟩ := List.mem_map.mp hl; exact (splitNl_text s).2 x hx
  | add s => obtain ⟨x, hx, rfl⟩ := List.mem_map.mp hl; exact (splitNl_text s).2 x hx
  | rem s => obtain ⟨x, hx, rfl⟩ := List.mem_map.mp hl; exact (splitNl_text s).2 x hx

/-- **C69**, modified files: if the library's line diff is one of the two texts, applying the patch to the old text *followed by a newline* gives the new text followed by a
newline, and back. (The extra newline is in the patch: the last line of the patch of a text ending in a newline is an empty one.) -/
theorem C69_modified (lib : DiffLib) (before after : Bytes) (path : Path) (hd : DiffOf (lib.changes before after) before after) : ∃ p old new,
    patchFrom lib before after path = .ok p ∧ p.path = lib.lossy path ∧ text old = before ++ [10] ∧ text new = after ++ [10] ∧ (∀ l ∈ old, (10 : UInt8) ∉ l) ∧ (∀ l ∈ new, (10 : UInt8) ∉ l) ∧
    applyHunks 1 1 p.hunks old = some new ∧ applyHunks 1 1 (p.hunks.map flipHunk) new = some old := by
  obtain ⟨hs, he, h1, h2⟩ := C69_hunks (lib.changes before after)
  refine ⟨⟨lib.lossy path, hs⟩, _, _, ?_, rfl, (oldText_lines _).trans hd.1, (newText_lines _).trans hd.2, ?_, ?_, h1, h2⟩
  · unfold patchFrom; rw [he]; rfl
  · intro l hl
    obtain ⟨d, hd, h⟩ := List.mem_filterMap.mp hl
    have := lines_noNl _ d hd
    cases d <;> simp at h <;> (subst h; exact this)
  · intro l hl
    obtain ⟨d, hd, h⟩ := List.mem_filterMap.mp hl
    have := lines_noNl _ d hd
    cases d <;> simp at h <;> (subst h; exact this)
/-- The same for the patches `show` prints for changed files (C53, C63): they turn one text into the other. -/
theorem C69_shown (lib : DiffLib) (before after : Bytes) (path : Path) (hd : DiffOf (lib.changes (lib.lossy before) (lib.lossy after)) (lib.lossy before) (lib.lossy after)) : ∃ old new,
    text old = lib.lossy before ++ [10] ∧ text new = lib.lossy after ++ [10] ∧ (∀ l ∈ old, (10 : UInt8) ∉ l) ∧ (∀ l ∈ new, (10 : UInt8) ∉ l) ∧
    applyHunks 1 1 (changedPatch lib path before after).hunks old = some new ∧ applyHunks 1 1 ((changedPatch lib path before after).hunks.map flipHunk) new = some old := by
  obtain ⟨p, old, new, h1, _, h2, h3, h4, h5, h6, h7⟩ := C69_modified lib (lib.lossy before) (lib.lossy after) path hd
  have : p = changedPatch lib path before after := by
    unfold patchFrom at h1
    obtain ⟨hs, he, h1⟩ := Res.bind_eq_ok h1
    simp at h1
    subst h1
    unfold changedPatch
    rw [hunksOf_eq] at he
    simp at he
    rw [he]
  subst this
  exact ⟨old, new, h2, h3, h4, h5, h6, h7⟩

/-- Two changes far apart make two hunks, and the second starts where the first one moved it. -/
example : ∃ hs : List Hunk, hunksOf [.rem [97], .add [98, 10, 99], .same [10, 10, 10, 10, 10, 10, 10, 10, 10, 10, 10, 10], .add [100], .same []] = .ok hs ∧ hs.map (fun h => (h.oldStart, h.newStart, h.lines.length)) = [(1, 1, 6), (10, 11, 7)] ∧
    applyHunks 1 1 hs ([97] :: List.replicate 14 []) = some ([98] :: [99] :: List.replicate 13 [] ++ [[100], []]) := ⟨_, rfl, by decide +kernel, by decide +kernel⟩
example : DiffOf [.rem [97], .add [98, 10, 99], .same []] [97, 10] [98, 10, 99, 10] := by unfold DiffOf; decide

/-! ### Added and removed files -/

theorem text_append (a b : List Bytes) : text (a ++ b) = text a ++ text b := List.flatMap_append

theorem crlf_line (init : List Bytes) (hi : ∀ l ∈ init, (10 : UInt8) ∉ l) : ∀ a b, text init = a ++ 13 :: 10 :: b → ∃ l ∈ init, l.getLast? = some 13 := by
  induction init with
  | nil => intro a b h; simp [text] at h
  | cons l init ih =>
    intro a b h
    have e : text (l :: init) = l ++ 10 :: text init := by unfold text; rw [List.flatMap_cons, List.append_assoc]; rfl
    rw [e] at h
    rcases List.append_eq_append_iff.mp h with ⟨c, h1, h2⟩ | ⟨c, h1, h2⟩
    · cases c with
      | nil => simp at h2
      | cons x c =>
        simp at h2
        obtain ⟨l', hl', hc⟩ := ih (fun l hl => hi l (by simp [hl])) c b h2.2
        exact ⟨l', by simp [hl'], hc⟩
    · match c, h1, h2 with
      | [], _, h2 => simp at h2
      | [y], h1, h2 =>
        simp at h2
        exact ⟨l, by simp, by rw [h1, ← h2.1]; simp⟩
      | y :: z :: c, h1, h2 =>
        simp at h2
        exact absurd (by rw [h1, ← h2.2.1]; simp) (hi l (by simp))

theorem text_strip (init : List Bytes) : (text (init.map fun l => if l.getLast? = some 13 then l.dropLast else l)).length ≤ (text init).length ∧
    ((∃ l ∈ init, l.getLast? = some 13) → (text (init.map fun l => if l.getLast? = some 13 then l.dropLast else l)).length < (text init).length) := by
  induction init with
  | nil => simp [text]
  | cons l init ih =>
    obtain ⟨h1, h2⟩ := ih
    have e : ∀ (l : Bytes) init, (text (l :: init)).length = l.length + 1 + (text init).length := fun l init => by unfold text; rw [List.flatMap_cons]; simp; omega
    rw [List.map_cons, e, e]
    split
    · rename_i hl
      have : 0 < l.length := List.length_pos_iff.mpr (by rintro rfl; simp at hl)
      rw [List.length_dropLast]
      exact ⟨by omega, fun _ => by omega⟩
    · rename_i hl
      refine ⟨by omega, ?_⟩
      rintro ⟨x, hx, hc⟩
      rcases List.mem_cons.mp hx with rfl | hx
      · exact absurd hc hl
      · have := h2 ⟨x, hx, hc⟩; omega

/-- The lines `str::lines` finds are the text again iff it is empty or ends in a newline, and no newline follows a carriage return. -/
theorem strLines_text (data : Bytes) : text (strLines data) = data ↔ (data = [] ∨ data.getLast? = some 10) ∧ ∀ a b, data ≠ a ++ 13 :: 10 :: b := by
  obtain ⟨h1, h2⟩ := splitNl_text data
  rcases List.eq_nil_or_concat (splitNl data) with h0 | ⟨init, last, h0⟩
  · rw [h0] at h1; simp [text] at h1
  rw [List.concat_eq_append] at h0
  have hd : data = text init ++ last := by
    rw [h0, text_append] at h1
    have : text init ++ last ++ [10] = data ++ [10] := by rw [← h1]; simp [text]
    exact (List.append_cancel_right this).symm
  have hst : strLines data = (init.map fun l => if l.getLast? = some 13 then l.dropLast else l) ++ (match some last with | some [] => [] | some l => [l] | none => []) := by
    unfold strLines
    simp only [h0, List.dropLast_concat, List.getLast?_concat]
    cases last <;> rfl
  have hi : ∀ l ∈ init, (10 : UInt8) ∉ l := fun l hl => h2 l (by rw [h0]; simp [hl])
  have hla : (10 : UInt8) ∉ last := h2 last (by rw [h0]; simp)
  rw [hst, text_append]
  cases last with
  | nil =>
    rw [List.append_nil] at hd
    have hend : data = [] ∨ data.getLast? = some 10 := by
      rcases List.eq_nil_or_concat init with h | ⟨i, l, h⟩
      · left; rw [hd, h]; rfl
      · right; rw [List.concat_eq_append] at h; rw [hd, h, text_append]; simp [text]
    simp only [hend, true_and]
    rw [show text [] = [] from rfl, List.append_nil]
    constructor
    · intro h a b hc
      obtain ⟨l, hl, hcr⟩ := crlf_line init hi a b (hd ▸ hc)
      have := (text_strip init).2 ⟨l, hl, hcr⟩
      rw [h, hd] at this
      omega
    · intro h
      have : (init.map fun l => if l.getLast? = some 13 then l.dropLast else l) = init := by
        conv => rhs; rw [← List.map_id init]
        refine List.map_congr_left fun l hl => ?_
        rw [if_neg]; rfl
        intro hcr
        obtain ⟨l', hl'⟩ : ∃ l', l = l' ++ [13] := by
          rcases List.eq_nil_or_concat l with h | ⟨i, x, h⟩
          · rw [h] at hcr; simp at hcr
          · rw [List.concat_eq_append] at h; rw [h] at hcr; simp at hcr; exact ⟨i, by rw [h, hcr]⟩
        obtain ⟨i1, i2, hi'⟩ := List.append_of_mem hl
        refine h (text i1 ++ l') (text i2) ?_
        rw [hd, hi', text_append, hl']
        simp [text]
      rw [this, hd]
  | cons b bs =>
    have hne : data ≠ [] := by rw [hd]; simp
    have hl10 : data.getLast? ≠ some 10 := by
      rw [hd]
      intro h
      rw [List.getLast?_append] at h
      cases hg : (b :: bs).getLast? with
      | none => simp at hg
      | some x => rw [hg] at h; simp at h; subst h; exact hla (List.mem_of_getLast? hg)
    simp only [hne, hl10, or_self, false_and, iff_false]
    intro h
    refine hl10 ?_
    rw [← h, show text [b :: bs] = (b :: bs) ++ [10] from by simp [text], ← List.append_assoc, List.getLast?_concat]

/-- **C69**, added and removed files: the patch applied to nothing gives the lines of the file (backwards for a removed file), and these are the file iff it is empty or ends in a
newline and has no carriage return before a newline. -/
theorem C69_whole (lib : DiffLib) (path : Path) (c : Bytes) : ∃ lines h g, (newPatch lib path c).hunks = [h] ∧ (gonePatch lib path c).hunks = [g] ∧ g = flipHunk h ∧
    applyLines h.lines [] = some (lines, []) ∧ applyLines g.lines lines = some ([], []) ∧
    (text lines = c ↔ (c = [] ∨ c.getLast? = some 10) ∧ ∀ a b, c ≠ a ++ 13 :: 10 :: b) := by
  have e1 : ∀ l : List Bytes, oldText (l.map .add) = [] ∧ newText (l.map .add) = l := fun l => by
    induction l with
    | nil => exact ⟨rfl, rfl⟩
    | cons a l ih => exact ⟨ih.1, by show a :: newText (l.map .add) = _; rw [ih.2]⟩
  have hf : (strLines c).map DLine.rem = ((strLines c).map DLine.add).map flipLine := by rw [List.map_map]; rfl
  refine ⟨strLines c, _, _, rfl, rfl, ?_, ?_, ?_, strLines_text c⟩
  · show Hunk.mk _ _ _ _ _ = Hunk.mk _ _ _ _ _
    rw [hf]
  · have := applyLines_text ((strLines c).map .add) []
    rwa [(e1 _).1, (e1 _).2] at this
  · have := applyLines_text ((strLines c).map .rem) []
    rw [hf, (flip_counts _).2.2.1, (flip_counts _).2.2.2, (e1 _).1, (e1 _).2, List.append_nil, ← hf] at this
    exact this

/-- "a⏎" is shown as it is; of "a⏎b" and "a↵⏎" the patch shows another text -/
example : text (strLines [97, 10]) = [97, 10] ∧ text (strLines [97, 10, 98]) = [97, 10, 98, 10] ∧ text (strLines [97, 13, 10]) = [97, 10] := by decide

end Snap.Props
