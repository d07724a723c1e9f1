import Verif.SpecTree
/-! Lemmas about paths. -/
namespace Snap

theorem splitSlash_ne_nil (p : Bytes) : splitSlash p ≠ [] := by
  cases p with
  | nil => simp [splitSlash]
  | cons b bs =>
    unfold splitSlash
    split
    · simp
    · split <;> simp

theorem splitSlash_append (a b : Bytes) : splitSlash (a ++ 47 :: b) = splitSlash a ++ splitSlash b := by
  induction a with
  | nil => simp [splitSlash]
  | cons x a ih =>
    simp only [List.cons_append, splitSlash, ih]
    split
    · simp
    · cases h : splitSlash a with
      | nil => exact absurd h (splitSlash_ne_nil a)
      | cons s ss => simp

theorem splitSlash_noslash {n : Bytes} (h : 47 ∉ n) : splitSlash n = [n] := by
  induction n with
  | nil => rfl
  | cons b bs ih =>
    simp only [List.mem_cons, not_or] at h
    rw [splitSlash, if_neg (fun e => h.1 e.symm), ih h.2]

theorem splitSlash_mem {p s : Bytes} (h : s ∈ splitSlash p) : 47 ∉ s := by
  induction p generalizing s with
  | nil => simp [splitSlash] at h; subst h; simp
  | cons b bs ih =>
    unfold splitSlash at h
    split at h
    · rcases List.mem_cons.mp h with rfl | h
      · simp
      · exact ih h
    · rename_i hb
      cases hs : splitSlash bs with
      | nil => exact absurd hs (splitSlash_ne_nil bs)
      | cons t ts =>
        rw [hs] at h
        simp only at h
        rcases List.mem_cons.mp h with rfl | h
        · simp only [List.mem_cons, not_or]
          exact ⟨fun e => hb e.symm, ih (by rw [hs]; simp)⟩
        · exact ih (by rw [hs]; simp [h])

theorem okName.comp {n : Bytes} (h : okName n) : okComp n := ⟨h.1, h.2.1, h.2.2.2.1⟩

theorem okComp.notAbs {n : Bytes} (h : okComp n) : Path.isAbs n = false := by
  cases n with
  | nil => rfl
  | cons b bs =>
    have := h.2.2
    simp only [List.mem_cons, not_or] at this
    simp only [Path.isAbs, List.head?_cons]
    rw [Bool.eq_false_iff]
    simp; exact fun e => this.1 e.symm

theorem isAbs_append {p n : Bytes} (h : p ≠ []) : Path.isAbs (p ++ n) = Path.isAbs p := by
  cases p with
  | nil => exact absurd rfl h
  | cons b bs => simp [Path.isAbs]

theorem join_cases {p n : Path} (hn : Path.isAbs n = false) :
    (p = [] ∧ Path.join p n = n) ∨ (∃ q, p = q ++ [47] ∧ Path.join p n = q ++ 47 :: n) ∨ (p ≠ [] ∧ Path.join p n = p ++ 47 :: n) := by
  unfold Path.join
  rw [if_neg (by simp [hn])]
  by_cases hp : p = []
  · left; simp [hp]
  · by_cases hl : p.getLast? = some 47
    · right; left
      have hd : p = p.dropLast ++ [47] := by
        rw [List.getLast?_eq_some_iff] at hl
        obtain ⟨ys, rfl⟩ := hl
        simp
      refine ⟨p.dropLast, ?_, ?_⟩
      · exact hd
      · rw [if_pos (Or.inr hl)]
        conv => lhs; rw [hd]
        simp
    · right; right
      exact ⟨hp, by rw [if_neg (by simp [hp, hl])]⟩

theorem join_ne_nil {p n : Path} (hn : Path.isAbs n = false) (h : n ≠ []) : Path.join p n ≠ [] := by
  rcases join_cases (p := p) hn with ⟨_, e⟩ | ⟨q, _, e⟩ | ⟨_, e⟩ <;> rw [e] <;> simp [h]

theorem isAbs_join {p n : Path} (hn : Path.isAbs n = false) (hp : p ≠ []) : Path.isAbs (Path.join p n) = Path.isAbs p := by
  rcases join_cases (p := p) hn with ⟨e, _⟩ | ⟨q, e1, e⟩ | ⟨_, e⟩
  · exact absurd e hp
  · rw [e, e1]
    cases q <;> simp [Path.isAbs]
  · rw [e, isAbs_append hp]

/-- Segments of a joined path. -/
theorem splitSlash_join {p n : Path} (hn : 47 ∉ n) (hp : p ≠ []) :
    ∃ l, (splitSlash p = l ∨ splitSlash p = l ++ [[]]) ∧ splitSlash (Path.join p n) = l ++ [n] := by
  have ha : Path.isAbs n = false := by
    cases n with
    | nil => rfl
    | cons b bs =>
      simp only [List.mem_cons, not_or] at hn
      simp only [Path.isAbs, List.head?_cons, Bool.eq_false_iff]
      simp; exact fun e => hn.1 e.symm
  rcases join_cases (p := p) ha with ⟨e, _⟩ | ⟨q, e1, e⟩ | ⟨_, e⟩
  · exact absurd e hp
  · refine ⟨splitSlash q, Or.inr ?_, ?_⟩
    · rw [e1, splitSlash_append]; rfl
    · rw [e, splitSlash_append, splitSlash_noslash hn]
  · exact ⟨splitSlash p, Or.inl rfl, by rw [e, splitSlash_append, splitSlash_noslash hn]⟩

theorem comps_ok {n : Path} (h : okComp n) : Path.comps n = [n] := by
  unfold Path.comps
  rw [h.notAbs, splitSlash_noslash h.2.2]
  simp [h.1, h.2.1]

theorem comps_join {p n : Path} (h : okComp n) : Path.comps (Path.join p n) = Path.comps p ++ [n] := by
  by_cases hp : p = []
  · subst hp
    have : Path.join [] n = n := by unfold Path.join; rw [if_neg (by simp [h.notAbs])]; simp
    rw [this, comps_ok h]; rfl
  · obtain ⟨l, hl, e⟩ := splitSlash_join h.2.2 hp
    have ha : Path.isAbs (Path.join p n) = Path.isAbs p := isAbs_join h.notAbs hp
    have hl0 : l ≠ [] ∨ splitSlash p = [[]] := by
      rcases hl with hl | hl
      · left; rw [← hl]; exact splitSlash_ne_nil p
      · cases l with
        | nil => right; simpa using hl
        | cons a t => left; simp
    have hl0 : l ≠ [] := by
      rcases hl0 with h0 | h0
      · exact h0
      · exfalso
        cases p with
        | nil => exact hp rfl
        | cons b bs =>
          unfold splitSlash at h0
          split at h0
          · simp at h0; exact splitSlash_ne_nil bs h0
          · cases hs : splitSlash bs with
            | nil => exact splitSlash_ne_nil bs hs
            | cons s ss => rw [hs] at h0; simp at h0
    have hh : (splitSlash (Path.join p n)).head? = (splitSlash p).head? := by
      rw [e]
      cases l with
      | nil => exact absurd rfl hl0
      | cons a t => rcases hl with hl | hl <;> rw [hl] <;> rfl
    unfold Path.comps
    rw [ha, hh, e, List.append_assoc]
    congr 1
    rcases hl with hl | hl <;> rw [hl] <;> simp [List.filter_append, h.1, h.2.1]

theorem comps_foldl_join {c : Path} {ns : List Bytes} (h : ∀ n ∈ ns, okComp n) :
    Path.comps (ns.foldl Path.join c) = Path.comps c ++ ns := by
  induction ns generalizing c with
  | nil => simp
  | cons n ns ih =>
    simp only [List.foldl_cons]
    rw [ih (fun m hm => h m (by simp [hm])), comps_join (h n (by simp))]
    simp

theorem comps_root : Path.comps sSlash = [sSlash] := by decide
theorem comps_dot : Path.comps sDot = [sDot] := by decide
@[simp] theorem comps_nil : Path.comps [] = [] := by decide

/-- Shape of the component list. -/
theorem comps_shape (p : Path) : ∃ h t, Path.comps p = h ++ t ∧ (h = [] ∨ h = [sSlash] ∨ h = [sDot]) ∧ ∀ n ∈ t, okComp n := by
  refine ⟨_, _, rfl, ?_, ?_⟩
  · split
    · simp
    · split <;> simp
  · intro n hn
    obtain ⟨h1, h2⟩ := List.mem_filter.mp hn
    simp at h2
    exact ⟨h2.1, h2.2, splitSlash_mem h1⟩

theorem comps_ofComps_comps (p : Path) : Path.comps (Path.ofComps (Path.comps p)) = Path.comps p := by
  obtain ⟨h, t, e, hh, ht⟩ := comps_shape p
  rw [e]
  rcases hh with rfl | rfl | rfl
  · cases t with
    | nil => rfl
    | cons a t =>
      simp only [List.nil_append, Path.ofComps]
      rw [comps_foldl_join (fun n hn => ht n (by simp [hn])), comps_ok (ht a (by simp))]
      rfl
  · simp only [List.cons_append, List.nil_append, Path.ofComps]
    rw [comps_foldl_join ht, comps_root]; rfl
  · simp only [List.cons_append, List.nil_append, Path.ofComps]
    rw [comps_foldl_join ht, comps_dot]; rfl

@[simp] theorem comps_norm (p : Path) : Path.comps p.norm = p.comps := comps_ofComps_comps p
@[simp] theorem norm_norm (p : Path) : Path.norm p.norm = p.norm := by
  unfold Path.norm
  rw [comps_ofComps_comps]

theorem norm_eq_iff {p q : Path} : p.norm = q.norm ↔ p.comps = q.comps := by
  constructor
  · intro h; rw [← comps_norm p, h, comps_norm]
  · intro h; unfold Path.norm; rw [h]

theorem join_nil {n : Path} (h : Path.isAbs n = false) : Path.join [] n = n := by
  unfold Path.join; rw [if_neg (by simp [h])]; simp

theorem comps_relPath {ns : List Bytes} (h : ∀ n ∈ ns, okComp n) : Path.comps (relPath ns) = ns := by
  unfold relPath; rw [comps_foldl_join h]; rfl

theorem relPath_snoc (ns : List Bytes) (n : Bytes) : relPath (ns ++ [n]) = Path.join (relPath ns) n := by
  simp [relPath, List.foldl_append]

theorem norm_relPath {ns : List Bytes} (h : ∀ n ∈ ns, okComp n) : Path.norm (relPath ns) = relPath ns := by
  unfold Path.norm
  rw [comps_relPath h]
  cases ns with
  | nil => rfl
  | cons n ns =>
    simp only [Path.ofComps, relPath, List.foldl_cons]
    rw [join_nil (h n (by simp)).notAbs]

theorem relPath_inj {a b : List Bytes} (ha : ∀ n ∈ a, okComp n) (hb : ∀ n ∈ b, okComp n) (h : relPath a = relPath b) : a = b := by
  rw [← comps_relPath ha, h, comps_relPath hb]

theorem relPath_eq_nil {ns : List Bytes} (h : ∀ n ∈ ns, okComp n) : relPath ns = [] ↔ ns = [] := by
  constructor
  · intro e; have := comps_relPath h; rw [e] at this; simpa using this.symm
  · rintro rfl; rfl

@[simp] theorem joins_nil (p : Path) : joins p [] = p := rfl
@[simp] theorem joins_cons (p : Path) (n : Bytes) (ns : List Bytes) : joins p (n :: ns) = joins (Path.join p n) ns := rfl
theorem joins_append (p : Path) (a b : List Bytes) : joins p (a ++ b) = joins (joins p a) b := by simp [joins, List.foldl_append]

/-- The separator `join` puts after `p`. -/
def sep (p : Path) : Bytes := if p = [] ∨ p.getLast? = some 47 then [] else [47]

theorem join_sep {p n : Path} (h : Path.isAbs n = false) : Path.join p n = p ++ sep p ++ n := by
  unfold Path.join sep
  rw [if_neg (by simp [h])]
  split <;> simp

theorem sep_append (p : Path) {m : Path} (h : m ≠ []) : sep (p ++ m) = sep m := by
  unfold sep
  have : (p ++ m).getLast? = m.getLast? := by
    rw [List.getLast?_append]
    cases hx : m.getLast? with
    | none => simp at hx; exact absurd hx h
    | some v => rfl
  rw [this]
  simp [h]

theorem join_assoc {b m n : Path} (hm : m ≠ []) (ha : Path.isAbs m = false) (hn : Path.isAbs n = false) :
    Path.join (Path.join b m) n = Path.join b (Path.join m n) := by
  have h1 : Path.isAbs (Path.join m n) = false := by rw [isAbs_join hn hm, ha]
  rw [join_sep hn, join_sep h1, join_sep ha, join_sep hn, sep_append _ hm]
  simp

theorem isAbs_joins {p : Path} {ns : List Bytes} (h : ∀ m ∈ ns, okComp m) (hp : p ≠ []) : Path.isAbs (joins p ns) = Path.isAbs p := by
  induction ns generalizing p with
  | nil => rfl
  | cons n ns ih =>
    have hn := h n (by simp)
    rw [joins_cons, ih (fun m hm => h m (by simp [hm])) (join_ne_nil hn.notAbs hn.1), isAbs_join hn.notAbs hp]

theorem joins_ne_nil {p : Path} {ns : List Bytes} (h : ∀ m ∈ ns, okComp m) (hp : p ≠ []) : joins p ns ≠ [] := by
  induction ns generalizing p with
  | nil => exact hp
  | cons n ns ih =>
    have hn := h n (by simp)
    exact ih (fun m hm => h m (by simp [hm])) (join_ne_nil hn.notAbs hn.1)

/-- `base.join(rel)` for a relative path made of names is joining the names. -/
theorem join_joins {base m : Path} {ns : List Bytes} (h : ∀ m ∈ ns, okComp m) (hm : m ≠ []) (ha : Path.isAbs m = false) :
    Path.join base (joins m ns) = joins (Path.join base m) ns := by
  induction ns generalizing m with
  | nil => rfl
  | cons n ns ih =>
    have hn := h n (by simp)
    rw [joins_cons, joins_cons, ih (fun m hm => h m (by simp [hm])) (join_ne_nil hn.notAbs hn.1) (by rw [isAbs_join hn.notAbs hm, ha]), join_assoc hm ha hn.notAbs]

theorem join_relPath {base : Path} {ns : List Bytes} (h : ∀ m ∈ ns, okComp m) (h0 : ns ≠ []) :
    Path.join base (relPath ns) = joins base ns := by
  cases ns with
  | nil => exact absurd rfl h0
  | cons n ns =>
    have hn := h n (by simp)
    show Path.join base (joins (Path.join [] n) ns) = _
    rw [join_nil hn.notAbs, join_joins (fun m hm => h m (by simp [hm])) hn.1 hn.notAbs]
    rfl

end Snap
