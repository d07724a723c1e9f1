import Verif.Lemmas.Plant
/-! `get_fs_item` on a stored tree writes its files one after the other. -/
namespace Snap
set_option linter.unusedSectionVars false
variable [Serde] [LawfulSerde]

theorem each_append {σ α : Type} (f : α → SM σ Unit) (a b : List α) : SM.each f (a ++ b) = SM.bind (SM.each f a) fun _ => SM.each f b := by
  induction a with
  | nil => rfl
  | cons x a ih =>
    show SM.bind (f x) (fun _ => SM.each f (a ++ b)) = _
    rw [ih]
    funext s
    show SM.bind _ _ s = SM.bind (SM.bind _ _) _ s
    unfold SM.bind
    rcases f x s with ⟨r, s'⟩
    cases r <;> rfl

theorem each_single {σ α : Type} (f : α → SM σ Unit) (a : α) : SM.each f [a] = f a := by
  funext s
  show SM.bind _ _ s = _
  unfold SM.bind
  rcases f a s with ⟨r, s'⟩
  cases r <;> rfl

theorem each_flatMap {σ α β : Type} (f : α → SM σ Unit) (g : β → List α) (l : List β) : SM.each (fun b => SM.each f (g b)) l = SM.each f (l.flatMap g) := by
  induction l with
  | nil => rfl
  | cons b l ih =>
    rw [List.flatMap_cons, each_append, ← ih]
    rfl

theorem each_map {σ α β : Type} (f : α → SM σ Unit) (g : β → α) (l : List β) : SM.each f (l.map g) = SM.each (fun b => f (g b)) l := by
  induction l with
  | nil => rfl
  | cons b l ih => show SM.bind _ _ = SM.bind _ _; rw [ih]

theorem each_congr {σ α : Type} {f g : α → SM σ Unit} {l : List α} (h : ∀ a ∈ l, f a = g a) : SM.each f l = SM.each g l := by
  induction l with
  | nil => rfl
  | cons a l ih =>
    show SM.bind _ _ = SM.bind _ _
    rw [h a (by simp), ih fun b hb => h b (by simp [hb])]

/-- The files of a tree, with their contents cut into the pieces in which they are written. -/
abbrev Parts := List (List Bytes × List Bytes)

/-- `fl` cuts the files of `ns` into pieces. -/
def Cuts (fl : Parts) (ns : List Node) : Prop := fl.map (fun x => (x.1, x.2.flatten)) = ns.filterMap fun x => x.content.map fun c => (x.rel, c)

theorem choose_list {α β : Type} {P : α → β → Prop} {l : List α} (h : ∀ a ∈ l, ∃ b, P a b) : ∃ l' : List (α × β), l'.map (·.1) = l ∧ ∀ x ∈ l', P x.1 x.2 := by
  induction l with
  | nil => exact ⟨[], rfl, by simp⟩
  | cons a l ih =>
    obtain ⟨b, hb⟩ := h a (by simp)
    obtain ⟨l', h1, h2⟩ := ih fun x hx => h x (by simp [hx])
    refine ⟨(a, b) :: l', by simp [h1], ?_⟩
    intro x hx
    rcases List.mem_cons.mp hx with rfl | hx
    · exact hb
    · exact h2 x hx

/-- Fetching a stored tree is writing its files in order. -/
theorem getFsItem_stored {db : Db} {n : Nat} {k : Key} {ns : List KNode} (hs : Stored db n k ns) :
    ∃ fl : Parts, Cuts fl (ns.map (·.node)) ∧ ∀ path fuel, n + 6 ≤ fuel → getFsItem db fuel k path = SM.each (fun x => plantOne (joins path x.1) x.2) fl := by
  induction n generalizing k ns with
  | zero => exact hs.elim
  | succ n ih =>
    rcases hs with ⟨sz, nm, ck, c, m, h1, h2, h3, h4⟩ | ⟨sz, es, h1, h2, h3⟩
    · subst h4
      obtain ⟨ls, hls, hrd⟩ := h3.leaves
      refine ⟨[([], ls)], by simp [Cuts, hls], fun path fuel hf => ?_⟩
      obtain ⟨f, rfl⟩ : ∃ f, fuel = f + 1 := ⟨fuel - 1, by omega⟩
      have hr : ∀ q, readDataTo db (Fs.writeAll q) f ck = SM.each (Fs.writeAll q) ls := fun q => hrd _ _ f (by omega)
      rw [each_single]
      funext fs
      unfold getFsItem plantOne
      simp only [SM.bind_apply, SM.lift_apply, h1, joins_nil, hr]
      cases Path.parent path <;> rfl
    · have hex : ∀ e ∈ es, ∃ fl : Parts, Cuts fl (e.2.2.map (·.node)) ∧ ∀ path fuel, n + 6 ≤ fuel →
          getFsItem db fuel e.2.1 path = SM.each (fun x => plantOne (joins path x.1) x.2) fl := fun e he => ih (h3 e he)
      obtain ⟨L, hL, hP⟩ := choose_list hex
      refine ⟨L.flatMap fun x => x.2.map fun y => (x.1.1 :: y.1, y.2), ?_, fun path fuel hf => ?_⟩
      · subst h2
        unfold Cuts
        simp only [List.map_cons, List.filterMap_cons, Option.map_none]
        subst hL
        clear ih h1 h3 hex
        induction L with
        | nil => rfl
        | cons x L ih =>
          simp only [List.flatMap_cons, List.map_append, List.filterMap_append, List.map_cons]
          rw [ih fun y hy => hP y (by simp [hy])]
          congr 1
          have := (hP x (by simp)).1
          unfold Cuts at this
          have h' := congrArg (List.map fun (z : List Bytes × Bytes) => (x.1.1 :: z.1, z.2)) this
          simp only [List.map_map, List.map_filterMap, List.filterMap_map] at h' ⊢
          refine Eq.trans (by rfl) (h'.trans ?_)
          congr 1
          funext y
          simp [Node.under, Function.comp_def]
      · obtain ⟨f, rfl⟩ : ∃ f, fuel = f + 1 := ⟨fuel - 1, by omega⟩
        have hstep : getFsItem db (f + 1) k path = SM.each (fun (c : Key × Path) => getFsItem db f c.1 (Path.join path c.2)) ((es.map (·.2.1)).zip (es.map (·.1))) := by
          funext fs
          conv => lhs; unfold getFsItem
          simp only [SM.bind_apply, SM.lift_apply, h1]
        rw [hstep]
        have hz : (es.map (·.2.1)).zip (es.map (·.1)) = L.map fun x => (x.1.2.1, x.1.1) := by
          subst hL
          simp only [List.map_map, List.zip_map']
          rfl
        rw [hz, each_map, ← each_flatMap]
        refine each_congr fun x hx => ?_
        rw [(hP x hx).2 _ f (by omega), each_map]
        rfl

/-- The tree `a'` is the tree `a` with the given files added below `L`, and the directories they need. -/
structure Planted (a a' : AtFn) (L : List Bytes) (fl : List (List Bytes × Bytes)) : Prop where
  files : ∀ x ∈ fl, ∃ md, a' (L ++ x.1) = some (.file x.2 md)
  dirs : ∀ q, (∃ x ∈ fl, q <+: L ++ x.1 ∧ q ≠ L ++ x.1) → a' q = some .dir
  other : ∀ q, (∀ x ∈ fl, ¬ q <+: L ++ x.1) → a' q = a q

theorem each_plant {fs : Fs} (hf : fs.faults = []) (hc : fs.at fs.cwd = some .dir) (hw : AtWf fs.at) {path : Path}
    (fl : Parts) (hcl : ∀ x ∈ fl, Clean (joins path x.1) ∧ (joins path x.1).lastIsName = true)
    {L : List Bytes} (hloc : ∀ x ∈ fl, loc fs.cwd (joins path x.1) = L ++ x.1)
    (hfree : ∀ x ∈ fl, fs.at (L ++ x.1) = none ∧ Open fs.at (L ++ x.1))
    (hpf : fl.Pairwise fun x y => ¬ x.1 <+: y.1 ∧ ¬ y.1 <+: x.1) :
    ∃ fs', SM.each (fun x => plantOne (joins path x.1) x.2) fl fs = (.ok (), fs') ∧ fs'.faults = [] ∧ fs'.cwd = fs.cwd ∧
      AtWf fs'.at ∧ Planted fs.at fs'.at L (fl.map fun x => (x.1, x.2.flatten)) := by
  induction fl generalizing fs with
  | nil => exact ⟨fs, rfl, hf, rfl, hw, by simp, by simp, by simp⟩
  | cons x fl ih =>
    obtain ⟨hfx, hox⟩ := hfree x (by simp)
    have hlx := hloc x (by simp)
    obtain ⟨hcx, hnx⟩ := hcl x (by simp)
    obtain ⟨fs1, e1, f1, c1, md, a1⟩ := plantOne_ok hf hc hw hcx hnx (by rw [hlx]; exact hfx) (by rw [hlx]; exact hox) x.2
    rw [hlx] at a1
    have hpx : ∀ y ∈ fl, ¬ x.1 <+: y.1 ∧ ¬ y.1 <+: x.1 := (List.pairwise_cons.mp hpf).1
    have hLne : L ++ x.1 ≠ [] := at_ne_root hfx
    obtain ⟨q, n, hq⟩ : ∃ q n, L ++ x.1 = q ++ [n] := by
      rcases List.eq_nil_or_concat (L ++ x.1) with h | ⟨q, n, h⟩
      · exact absurd h hLne
      · exact ⟨q, n, by simpa using h⟩
    rw [hq, List.dropLast_concat] at a1
    have hval : ∀ z, fs1.at z = if z = q ++ [n] then some (.file x.2.flatten md) else if z <+: q then some .dir else fs.at z := fun z => by
      rw [a1]; rfl
    have hw1 : AtWf fs1.at := by
      intro z m h
      rw [hval] at h ⊢
      by_cases h1 : z = q ++ [n]
      · exfalso
        subst h1
        rw [if_neg (by intro h; have := congrArg List.length h; simp at this), if_neg (by intro h; have := h.length_le; simp at this; omega)] at h
        have := hw _ _ h
        rw [← hq, hfx] at this
        simp at this
      · rw [if_neg h1]
        by_cases h2 : z ++ [m] = q ++ [n]
        · have := (List.append_inj' h2 rfl).1
          subst this
          rw [if_pos (List.prefix_refl _)]
        · rw [if_neg h2] at h
          split at h
          · rename_i h3; rw [if_pos ((List.prefix_append _ _).trans h3)]
          · split
            · rfl
            · exact hw _ _ h
    have hc1 : fs1.at fs1.cwd = some .dir := by
      rw [hval, c1, if_neg, hc]
      · split <;> rfl
      · intro h
        rw [h, ← hq, hfx] at hc
        simp at hc
    have hother : ∀ y ∈ fl, ∀ z, z <+: L ++ y.1 → fs1.at z = some .dir ∨ fs1.at z = fs.at z := by
      intro y hy z hz
      rw [hval]
      by_cases h1 : z = q ++ [n]
      · exfalso
        rw [h1, ← hq, List.prefix_append_right_inj] at hz
        exact (hpx y hy).1 hz
      · rw [if_neg h1]
        split
        · exact Or.inl rfl
        · exact Or.inr rfl
    obtain ⟨fs', e2, f2, c2, w2, p2⟩ := ih (fs := fs1) f1 hc1 hw1 (fun y hy => hcl y (by simp [hy])) (fun y hy => by rw [c1]; exact hloc y (by simp [hy])) (by
      intro y hy
      obtain ⟨h1, h2⟩ := hfree y (by simp [hy])
      constructor
      · rw [hval, if_neg, if_neg, h1]
        · intro h
          have : L ++ y.1 <+: L ++ x.1 := h.trans (by rw [hq]; exact List.prefix_append _ _)
          rw [List.prefix_append_right_inj] at this
          exact (hpx y hy).2 this
        · intro h
          rw [← hq] at h
          exact (hpx y hy).1 (List.append_cancel_left h ▸ List.prefix_refl _)
      · intro z hz
        rcases hother y hy z hz with h | h
        · exact Or.inr h
        · rw [h]; exact h2 z hz) (List.pairwise_cons.mp hpf).2
    refine ⟨fs', ?_, f2, by rw [c2, c1], w2, ?_, ?_, ?_⟩
    · show SM.bind _ _ _ = _
      unfold SM.bind
      dsimp only
      rw [e1]
      exact e2
    · intro z hz
      rw [List.map_cons] at hz
      rcases List.mem_cons.mp hz with rfl | hz
      · refine ⟨md, ?_⟩
        rw [p2.other, hval, if_pos hq]
        intro y hy h
        obtain ⟨y', hy', rfl⟩ := List.mem_map.mp hy
        simp only at h
        rw [List.prefix_append_right_inj] at h
        exact (hpx y' hy').1 h
      · exact p2.files z hz
    · rintro z ⟨y, hy, hz, hne⟩
      by_cases hz' : ∃ y ∈ fl.map (fun x => (x.1, x.2.flatten)), z <+: L ++ y.1 ∧ z ≠ L ++ y.1
      · exact p2.dirs z hz'
      · rw [List.map_cons] at hy
        rcases List.mem_cons.mp hy with rfl | hy
        · simp only at hz hne
          rw [hq] at hz hne
          rw [p2.other, hval, if_neg hne]
          · rw [if_pos]
            rcases prefix_snoc_iff.mp hz with h | h
            · exact absurd h hne
            · exact h
          · intro y hy h
            obtain ⟨y', hy', rfl⟩ := List.mem_map.mp hy
            by_cases h0 : z = L ++ y'.1
            · rw [h0, ← hq, List.prefix_append_right_inj] at hz
              exact (hpx y' hy').2 hz
            · exact hz' ⟨_, hy, h, h0⟩
        · exact absurd ⟨y, hy, hz, hne⟩ hz'
    · intro z hz
      rw [p2.other z fun y hy => hz y (by simp only [List.map_cons, List.mem_cons]; exact Or.inr hy)]
      have h1 := hz (x.1, x.2.flatten) (by simp)
      simp only at h1
      rw [hq] at h1
      rw [hval, if_neg (by rintro rfl; exact h1 (List.prefix_refl _)), if_neg (fun h => h1 (h.trans (List.prefix_append _ _)))]

end Snap
