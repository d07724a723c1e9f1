import Verif.Lemmas.Fs
import Verif.Lemmas.File
/-! What the mutating calls can do to the tree, whatever their outcome. -/
namespace Snap
set_option linter.unusedSectionVars false
variable [Serde] [LawfulSerde]

abbrev AtFn := List Bytes → Option Ent

/-- Changing one location. -/
def upd (a : AtFn) (q : List Bytes) (e : Ent) : AtFn := fun x => if x = q then some e else a x

/-- Keeping only some locations. -/
def keep (a : AtFn) (k : List Bytes → Bool) : AtFn := fun x => if k x then a x else none

/-- An invariant about the tree, with a fixed current directory. -/
def TreeInv (cwd : List Bytes) (J : AtFn → Prop) (fs : Fs) : Prop := fs.cwd = cwd ∧ J fs.at

theorem at_set' (fs : Fs) {q : List Bytes} (hq : q ≠ []) (e : Ent) : (fs.set q e).at = upd fs.at q e := funext fun x => at_set fs hq e x

theorem at_ne_root {fs : Fs} {q : List Bytes} (h : fs.at q = none) : q ≠ [] := by rintro rfl; simp at h
theorem at_file_ne_root {fs : Fs} {q : List Bytes} {c md} (h : fs.at q = some (.file c md)) : q ≠ [] := by rintro rfl; simp at h

theorem at_congr {fs fs' : Fs} (h : fs.ents = fs'.ents) : fs.at = fs'.at := by unfold Fs.at; rw [h]

/-- A mutating call. -/
theorem pres_call {α} {cwd J} {onFail : Nat → Fs → Fs} {x : SM Fs α} {Q : α → Prop}
    (hf : ∀ n fs, TreeInv cwd J fs → TreeInv cwd J (onFail n fs)) (hx : Pres (TreeInv cwd J) x Q) :
    Pres (TreeInv cwd J) (Fs.call onFail x) Q := by
  intro fs hs
  have h' : ∀ t, TreeInv cwd J { fs with faults := t } := fun t => ⟨hs.1, hs.2⟩
  unfold Fs.call
  split
  · exact ⟨hf _ _ (h' _), fun a ha => by simp at ha⟩
  · exact hx _ (h' _)

theorem pres_mkdir {cwd J} {p : Path} (h : ∀ a, J a → a (loc cwd p) = none → J (upd a (loc cwd p) .dir)) :
    Pres (TreeInv cwd J) (Fs.mkdir p) (fun _ => True) := by
  refine pres_call (fun _ _ h => h) ?_
  intro fs hs
  refine ⟨?_, fun _ _ => trivial⟩
  split
  · exact hs
  · split
    · exact hs
    · dsimp only
      cases hw : fs.walk (if Path.isAbs p then [] else fs.cwd) (dropTrailing (splitSlash p)) with
      | ok q =>
        have hq := walk_lex (fun s hs => splitSlash_mem (dropTrailing_mem hs)) hw
        rw [foldl_lexStep_dropTrailing, ← loc_segs, hs.1] at hq
        subst hq
        simp only
        split
        · rename_i hn
          exact ⟨hs.1, by rw [at_set' _ (at_ne_root hn)]; exact h _ hs.2 hn⟩
        · exact hs
      | err e => exact hs
      | panic => exact hs
      | fuel => exact hs

theorem pres_createDirAllN {cwd J} (n : Nat) {p : Path}
    (h : ∀ q : Path, q.comps <+: p.comps → ∀ a, J a → a (loc cwd q) = none → J (upd a (loc cwd q) .dir)) :
    Pres (TreeInv cwd J) (Fs.createDirAllN n p) (fun _ => True) := by
  induction n generalizing p with
  | zero => exact fun s hs => ⟨hs, fun _ _ => trivial⟩
  | succ n ih =>
    have hm := pres_mkdir (p := p) (h p (List.prefix_refl _))
    intro fs hs
    refine ⟨?_, fun _ _ => trivial⟩
    unfold Fs.createDirAllN
    split
    · exact hs
    · have h1 := (hm fs hs).1
      split
      · rename_i e; rw [e] at h1; exact h1
      · rename_i e; rw [e] at h1
        split
        · exact h1
        · rename_i q hq
          obtain ⟨c, hc⟩ := parent_comps hq
          have h2 := (ih (p := q) (fun q' hq' => h q' (by rw [hc]; exact hq'.trans (List.prefix_append _ _))) _ h1).1
          split
          · rename_i e2; rw [e2] at h2
            have h3 := (hm _ h2).1
            split
            · rename_i e3; rw [e3] at h3; exact h3
            · rename_i e3; rw [e3] at h3; split <;> exact h3
          · exact h2
      · rename_i e; rw [e] at h1
        split <;> exact h1

theorem pres_createDirAll {cwd J} {p : Path}
    (h : ∀ q : Path, q.comps <+: p.comps → ∀ a, J a → a (loc cwd q) = none → J (upd a (loc cwd q) .dir)) :
    Pres (TreeInv cwd J) (Fs.createDirAll p) (fun _ => True) := pres_createDirAllN _ h

theorem pres_createNew {cwd J} {p : Path} (h : ∀ a md, J a → a (loc cwd p) = none → J (upd a (loc cwd p) (.file [] md))) :
    Pres (TreeInv cwd J) (Fs.createNew p) (fun f => f = loc cwd p ∧ ∃ a, J a ∧ a f = none) := by
  refine pres_call (fun _ _ h => h) ?_
  intro fs hs
  dsimp only
  cases hl : fs.locate p with
  | ok q =>
    have hq := locate_loc hl
    rw [hs.1] at hq
    subst hq
    simp only
    split
    · split
      · rename_i hn
        refine ⟨⟨hs.1, ?_⟩, ?_⟩
        · show J (Fs.at (fs.set (loc cwd p) (.file [] fs.nextMeta))); rw [at_set' _ (at_ne_root hn)]
          exact h _ _ hs.2 hn
        · intro a ha
          simp at ha
          exact ⟨ha.symm, fs.at, hs.2, ha ▸ hn⟩
      · exact ⟨hs, fun _ h => by simp at h⟩
    · exact ⟨hs, fun _ h => by simp at h⟩
  | err e => exact ⟨hs, fun _ h => by simp at h⟩
  | panic => exact ⟨hs, fun _ h => by simp at h⟩
  | fuel => exact ⟨hs, fun _ h => by simp at h⟩

theorem pres_create {cwd J} {p : Path} (h : ∀ a md, J a → (a (loc cwd p) = none ∨ ∃ c md, a (loc cwd p) = some (.file c md)) → J (upd a (loc cwd p) (.file [] md))) :
    Pres (TreeInv cwd J) (Fs.create p) (fun f => f = loc cwd p) := by
  refine pres_call (fun _ _ h => h) ?_
  intro fs hs
  dsimp only
  cases hl : fs.locate p with
  | ok q =>
    have hq := locate_loc hl
    rw [hs.1] at hq
    subst hq
    simp only
    split
    · split
      · rename_i hn
        refine ⟨⟨hs.1, ?_⟩, ?_⟩
        · show J (Fs.at (fs.set (loc cwd p) (.file [] fs.nextMeta))); rw [at_set' _ (at_ne_root hn)]
          exact h _ _ hs.2 (Or.inl hn)
        · intro a ha
          simp at ha
          exact ha.symm
      · rename_i c md hn
        refine ⟨⟨hs.1, ?_⟩, ?_⟩
        · show J (Fs.at (fs.set (loc cwd p) (.file [] ⟨md.ino, fs.nextMeta.mtime⟩))); rw [at_set' _ (at_file_ne_root hn)]
          exact h _ _ hs.2 (Or.inr ⟨_, _, hn⟩)
        · intro a ha
          simp at ha
          exact ha.symm
      · exact ⟨hs, fun _ h => by simp at h⟩
    · exact ⟨hs, fun _ h => by simp at h⟩
  | err e => exact ⟨hs, fun _ h => by simp at h⟩
  | panic => exact ⟨hs, fun _ h => by simp at h⟩
  | fuel => exact ⟨hs, fun _ h => by simp at h⟩

theorem inv_append {cwd J} {q : List Bytes} (h : ∀ a c md d, J a → a q = some (.file c md) → J (upd a q (.file (c ++ d) md))) (d : Bytes) (fs : Fs)
    (hs : TreeInv cwd J fs) : TreeInv cwd J (Fs.append q d fs) := by
  refine ⟨by simp [hs.1], ?_⟩
  unfold Fs.append
  split
  · rename_i hn
    rw [at_set' _ (at_file_ne_root hn)]
    exact h _ _ _ _ hs.2 hn
  · exact hs.2

theorem pres_writeAll {cwd J} {q : List Bytes} (h : ∀ a c md d, J a → a q = some (.file c md) → J (upd a q (.file (c ++ d) md))) (d : Bytes) :
    Pres (TreeInv cwd J) (Fs.writeAll q d) (fun _ => True) :=
  pres_call (fun _ _ hs => inv_append h _ _ hs) (fun _ hs => ⟨inv_append h _ _ hs, fun _ _ => trivial⟩)

theorem at_keep (fs : Fs) (k : List Bytes → Bool) (h0 : k [] = true) : ({ fs with ents := fs.ents.filter fun e => k e.1 } : Fs).at = keep fs.at k := by
  funext x
  by_cases hx : x = []
  · subst hx; simp [keep, h0]
  · rw [at_filter fs k hx]; rfl

theorem pres_removeDirAll {cwd J} {p : Path} (h0 : loc cwd p ≠ [])
    (h : ∀ a k, J a → (∀ x, k x = false → loc cwd p <+: x) → (∀ x m, k (x ++ [m]) = true → k x = true) → J (keep a k)) :
    Pres (TreeInv cwd J) (Fs.removeDirAll p) (fun _ => True) := by
  intro fs hs
  refine ⟨?_, fun _ _ => trivial⟩
  unfold Fs.removeDirAll
  cases hl : fs.locate p with
  | ok q =>
    have hq := locate_loc hl
    rw [hs.1] at hq
    subst hq
    refine (pres_call (J := J) (cwd := cwd) (Q := fun _ => True) ?_ ?_ fs hs).1
    · intro n fs hs
      refine ⟨hs.1, ?_⟩
      rw [at_keep fs (fun x => !(List.isPrefixOf (loc cwd p) x && decide (x.length > (loc cwd p).length + n)))]
      · refine h _ _ hs.2 ?_ ?_
        · intro x hx
          simp at hx
          exact hx.1
        · intro x m hx
          simp only [Bool.not_eq_true', Bool.and_eq_false_iff, decide_eq_false_iff_not] at hx ⊢
          rcases hx with hx | hx
          · left
            cases hp : (loc cwd p).isPrefixOf x with
            | false => rfl
            | true =>
              have : (loc cwd p).isPrefixOf (x ++ [m]) = true := by
                rw [List.isPrefixOf_iff_prefix] at hp ⊢
                exact hp.trans (List.prefix_append _ _)
              rw [this] at hx; simp at hx
          · right; simp at hx; omega
      · simp
    · intro fs hs
      refine ⟨?_, fun _ _ => trivial⟩
      dsimp only
      split
      · refine ⟨hs.1, ?_⟩
        unfold Fs.prune
        rw [at_keep fs (fun x => !List.isPrefixOf (loc cwd p) x)]
        · refine h _ _ hs.2 (fun x hx => by simpa using hx) ?_
          intro x m hx
          cases hp : (loc cwd p).isPrefixOf x with
          | false => rfl
          | true =>
            have : (loc cwd p).isPrefixOf (x ++ [m]) = true := by
              rw [List.isPrefixOf_iff_prefix] at hp ⊢
              exact hp.trans (List.prefix_append _ _)
            rw [this] at hx; simp at hx
        · cases hl : loc cwd p with
          | nil => exact absurd hl h0
          | cons a t => rfl
      · exact hs
  | err e => exact hs
  | panic => exact hs
  | fuel => exact hs

theorem pres_removeFile {cwd J} {p : Path}
    (h : ∀ a k, J a → (∀ x, k x = false → x = loc cwd p) → a (loc cwd p) ≠ some .dir → J (keep a k)) :
    Pres (TreeInv cwd J) (Fs.removeFile p) (fun _ => True) := by
  refine pres_call (fun _ _ h => h) ?_
  intro fs hs
  refine ⟨?_, fun _ _ => trivial⟩
  dsimp only
  cases hl : fs.locate p with
  | ok q =>
    have hq := locate_loc hl
    rw [hs.1] at hq
    subst hq
    simp only
    split
    · exact hs
    · exact hs
    · rename_i hnd hne
      refine ⟨hs.1, ?_⟩
      rw [at_keep fs (fun x => decide (x ≠ loc cwd p))]
      · exact h _ _ hs.2 (fun x hx => by simpa using hx) (fun e => by simp_all)
      · have : loc cwd p ≠ [] := by intro e; rw [e] at hne; simp at hne; simp_all
        simpa using this.symm
  | err e => exact hs
  | panic => exact hs
  | fuel => exact hs

/-- Reading stored data into a sink keeps what the sink keeps. -/
theorem pres_readDataTo {σ : Type} {I : σ → Prop} (db : Db) {sink : Bytes → SM σ Unit} (h : ∀ d, Pres I (sink d) (fun _ => True)) (fuel : Nat) (k : Key) :
    Pres I (readDataTo db sink fuel k) (fun _ => True) := by
  induction fuel generalizing k with
  | zero => exact fun s hs => ⟨hs, fun _ _ => trivial⟩
  | succ n ih =>
    unfold readDataTo
    refine Pres.bind (Pres.lift (Q := fun _ => True) (fun _ _ => trivial)) (fun obj _ => ?_)
    split
    · exact Pres.each (fun k _ => ih k)
    · exact h _
    · split
      · exact ih _
      · exact Pres.panic
    · exact Pres.panic

end Snap
