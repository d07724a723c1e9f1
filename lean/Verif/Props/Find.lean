import Verif.Model.Cli
import Verif.Lemmas.Path
import Verif.Lemmas.Plant
import Verif.Props.Walk
/-! Finding the repository: C48. -/
namespace Snap.Props
open Snap

theorem ofComps_abs (l : List Bytes) : Path.ofComps (sSlash :: l) = joins sSlash l := rfl

theorem comps_abs {l : List Bytes} (h : ∀ n ∈ l, okComp n) : Path.comps (joins sSlash l) = sSlash :: l := by
  have := comps_foldl_join (c := sSlash) h
  rw [comps_root] at this
  exact this

theorem parent_abs {l : List Bytes} {n : Bytes} (h : ∀ m ∈ l ++ [n], okComp m) : Path.parent (joins sSlash (l ++ [n])) = some (joins sSlash l) := by
  unfold Path.parent
  rw [comps_abs h]
  have hn : okComp n := h n (by simp)
  have : n ≠ sSlash := by
    intro e
    subst e
    exact absurd hn (by simp [okComp, sSlash])
  have e1 : (sSlash :: (l ++ [n])).getLast? = some n := by
    rw [← List.cons_append, List.getLast?_append]; simp
  have e2 : (sSlash :: (l ++ [n])).dropLast = sSlash :: l := by
    rw [← List.cons_append, List.dropLast_concat]
  rw [e1, e2]
  simp [this, ofComps_abs]

theorem parent_root : Path.parent sSlash = none := by decide

theorem findFrom_spec (fs : Fs) (name : Path) (l : List Bytes) (h : ∀ n ∈ l, okComp n) :
    (∃ a b, l = a ++ b ∧ findFrom fs name (l.length + 1) (joins sSlash l) = .ok (some (Path.join (joins sSlash a) name)) ∧ fs.exists (Path.join (joins sSlash a) name) = true ∧
      ∀ a' b', l = a' ++ b' → a.length < a'.length → fs.exists (Path.join (joins sSlash a') name) = false) ∨
    (findFrom fs name (l.length + 1) (joins sSlash l) = .ok none ∧ ∀ a b, l = a ++ b → fs.exists (Path.join (joins sSlash a) name) = false) := by
  induction l using snocInd with
  | h0 =>
    simp only [findFrom, joins_nil, List.length_nil]
    by_cases hx : fs.exists (Path.join sSlash name) = true
    · left
      refine ⟨[], [], rfl, by rw [if_pos hx]; rfl, hx, ?_⟩
      intro a' b' e
      obtain ⟨rfl, rfl⟩ := List.append_eq_nil_iff.mp e.symm
      simp
    · right
      rw [if_neg hx, parent_root]
      refine ⟨rfl, ?_⟩
      intro a b e
      obtain ⟨rfl, rfl⟩ := List.append_eq_nil_iff.mp e.symm
      simpa using hx
  | h1 l n ih =>
    have ih := ih fun m hm => h m (by simp [hm])
    rw [List.length_append, List.length_singleton]
    rw [findFrom]
    by_cases hx : fs.exists (Path.join (joins sSlash (l ++ [n])) name) = true
    · left
      refine ⟨l ++ [n], [], by simp, by rw [if_pos hx], hx, ?_⟩
      intro a' b' e hl
      have := congrArg List.length e
      simp at this hl
      omega
    · rw [if_neg hx, parent_abs h]
      simp only
      have case : ∀ a b, l ++ [n] = a ++ b → (∃ b', l = a ++ b') ∨ a = l ++ [n] := by
        intro a b e
        rcases List.eq_nil_or_concat b with rfl | ⟨b', m, rfl⟩
        · right; simpa using e.symm
        · left
          rw [List.concat_eq_append, ← List.append_assoc] at e
          exact ⟨b', (List.append_inj' e rfl).1⟩
      rcases ih with ⟨a, b, e, g1, g2, g3⟩ | ⟨g1, g2⟩
      · left
        refine ⟨a, b ++ [n], by rw [e, List.append_assoc], g1, g2, ?_⟩
        intro a' b' e' hl
        rcases case a' b' e' with ⟨b'', e''⟩ | rfl
        · exact g3 a' b'' e'' hl
        · simpa using hx
      · right
        refine ⟨g1, ?_⟩
        intro a b e
        rcases case a b e with ⟨b', e'⟩ | rfl
        · exact g2 a b' e'
        · simpa using hx

/-- **C48**: the search for the repository ends, and finds the database folder in the nearest ancestor of the current directory (or in itself) that has one; it finds none
iff there is none. -/
theorem C48_nearest (fs : Fs) (hcwd : ∀ n ∈ fs.cwd, okComp n) (name : Path) :
    (∀ p, findDbFolder fs name = .ok (some p) ↔ ∃ up down, fs.cwd = up ++ down ∧ p = Path.join (joins sSlash up) name ∧ fs.exists p = true ∧
      ∀ up' down', fs.cwd = up' ++ down' → up.length < up'.length → fs.exists (Path.join (joins sSlash up') name) = false) ∧
    (findDbFolder fs name = .ok none ↔ ∀ up down, fs.cwd = up ++ down → fs.exists (Path.join (joins sSlash up) name) = false) ∧
    ∃ r, findDbFolder fs name = .ok r := by
  unfold findDbFolder
  rw [ofComps_abs]
  rcases findFrom_spec fs name fs.cwd hcwd with ⟨a, b, e, g1, g2, g3⟩ | ⟨g1, g2⟩
  · refine ⟨?_, ?_, _, g1⟩
    · intro p
      rw [g1]
      constructor
      · intro h
        simp only [Res.ok.injEq, Option.some.injEq] at h
        subst h
        exact ⟨a, b, e, rfl, g2, g3⟩
      · rintro ⟨up, down, e', rfl, h1, h2⟩
        have : up = a := by
          have hl : up.length = a.length := by
            rcases Nat.lt_trichotomy up.length a.length with hl | hl | hl
            · rw [h2 a b e hl] at g2; simp at g2
            · exact hl
            · rw [g3 up down e' hl] at h1; simp at h1
          exact (List.append_inj (e'.symm.trans e) hl).1
        rw [this]
    · rw [g1]
      constructor
      · intro h; simp at h
      · intro h
        rw [h a b e] at g2
        simp at g2
  · refine ⟨?_, ?_, _, g1⟩
    · intro p
      rw [g1]
      constructor
      · intro h; simp at h
      · rintro ⟨up, down, e, rfl, h1, _⟩
        rw [g2 up down e] at h1
        simp at h1
    · rw [g1]
      simp only [true_iff]
      exact g2

/-- In terms of places: for a plain name (the default is `.snapcd`) the search looks for an entry of that name in the ancestors, of whatever kind. -/
theorem C48_places (fs : Fs) (hw : fs.Wf) (up : List Bytes) (name : Bytes) (h : ∀ n ∈ up, okName n) (hn : okName name) :
    fs.exists (Path.join (joins sSlash up) name) = true ↔ ∃ e, fs.at (up ++ [name]) = some e ∧ e ≠ .broken := by
  have hl : loc fs.cwd sSlash = [] := by unfold loc; rw [comps_root]; simp [lexStep, sSlash]
  have hloc : fs.locate sSlash = .ok (loc fs.cwd sSlash) := by rw [hl]; simp [Fs.locate, sSlash, Path.isAbs, splitSlash, Fs.walk, sDot]
  have e : Path.join (joins sSlash up) name = joins sSlash (up ++ [name]) := by rw [joins_append]; rfl
  have hok : ∀ m ∈ up ++ [name], okName m := by
    intro m hm
    rcases List.mem_append.mp hm with hm | hm
    · exact h m hm
    · simp only [List.mem_singleton] at hm; subst hm; exact hn
  unfold Fs.exists
  rw [e]
  constructor
  · intro hx
    cases hm : fs.metadata (joins sSlash (up ++ [name])) with
    | ok en =>
      obtain ⟨_, h2, h3⟩ := metadata_ok hm
      rw [loc_joins _ _ hok, hl] at h2
      exact ⟨en, h2, h3⟩
    | err e => rw [hm] at hx; simp [Res.isOk] at hx
    | panic => rw [hm] at hx; simp [Res.isOk] at hx
    | fuel => rw [hm] at hx; simp [Res.isOk] at hx
  · rintro ⟨en, h1, h2⟩
    rw [metadata_joins hw hloc (by rw [hl]; exact h1) h2]
    rfl

/-- `/a/.s` and `/.s` exist; from `/a/b` the search finds `/a/.s`, from `/c` it finds `/.s`; nothing is called `.t`. -/
def exFind (cwd : List Bytes) : Fs :=
  { ents := [([], .dir), ([[97]], .dir), ([[97], [98]], .dir), ([[97], [46, 115]], .dir), ([[46, 115]], .dir), ([[99]], .dir)], cwd := cwd }
example : findDbFolder (exFind [[97], [98]]) [46, 115] = .ok (some [47, 97, 47, 46, 115]) ∧ findDbFolder (exFind [[99]]) [46, 115] = .ok (some [47, 46, 115]) ∧
    findDbFolder (exFind [[97], [98]]) [46, 116] = .ok none ∧ (∀ n ∈ (exFind [[97], [98]]).cwd, okComp n) := by decide +kernel

end Snap.Props
