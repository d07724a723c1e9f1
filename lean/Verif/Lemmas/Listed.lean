import Verif.Lemmas.Tree
/-! What `Listed` means on a well-formed file tree. -/
namespace Snap

theorem at_mem {fs : Fs} {q : List Bytes} {e : Ent} (hq : q ≠ []) (h : fs.at q = some e) : (q, e) ∈ fs.ents := by
  unfold Fs.at at h
  rw [if_neg hq] at h
  cases hf : fs.ents.find? (·.1 == q) with
  | none => rw [hf] at h; simp at h
  | some x =>
    rw [hf] at h
    simp at h
    have h1 := List.mem_of_find?_eq_some hf
    have h2 := List.find?_some hf
    simp at h2
    rw [← h, ← h2]
    exact h1

theorem mem_at {fs : Fs} {q : List Bytes} {e : Ent} (h : (q, e) ∈ fs.ents) : fs.at q ≠ none := by
  by_cases hq : q = []
  · subst hq; simp
  · unfold Fs.at
    rw [if_neg hq]
    intro hn
    simp at hn
    exact hn q e h rfl

theorem mem_names {fs : Fs} {q : List Bytes} {n : Bytes} : n ∈ fs.names q ↔ fs.at (q ++ [n]) ≠ none := by
  unfold Fs.names
  rw [List.mem_filterMap]
  constructor
  · rintro ⟨⟨k, e⟩, hm, h⟩
    simp only at h
    split at h
    · rename_i hk
      have : k = q ++ [n] := by
        obtain ⟨l, hl⟩ := List.getLast?_eq_some_iff.mp h
        rw [hl] at hk
        simp at hk
        rw [hl, hk]
      rw [this] at hm
      exact mem_at hm
    · simp at h
  · intro h
    cases ha : fs.at (q ++ [n]) with
    | none => exact absurd ha h
    | some e =>
      exact ⟨_, at_mem (by simp) ha, by simp⟩

theorem names_nodup {fs : Fs} (h : (fs.ents.map (·.1)).Nodup) (q : List Bytes) : (fs.names q).Nodup := by
  unfold Fs.names
  generalize fs.ents = l at h
  induction l with
  | nil => simp
  | cons e l ih =>
    simp only [List.map_cons, List.nodup_cons] at h
    rw [List.filterMap_cons]
    split
    · exact ih h.2
    · rename_i n hn
      rw [List.nodup_cons]
      refine ⟨?_, ih h.2⟩
      intro hm
      obtain ⟨e', he', h'⟩ := List.mem_filterMap.mp hm
      split at hn
      · rename_i h1
        split at h'
        · rename_i h2
          apply h.1
          obtain ⟨a, ha⟩ := List.getLast?_eq_some_iff.mp hn
          obtain ⟨b, hb⟩ := List.getLast?_eq_some_iff.mp h'
          rw [ha] at h1
          rw [hb] at h2
          simp at h1 h2
          have : e.1 = e'.1 := by rw [ha, hb, h1, h2]
          rw [this]
          exact List.mem_map_of_mem he'
        · simp at h'
      · simp at hn

theorem Fs.Wf.okNames {fs : Fs} (hw : fs.Wf) {q : List Bytes} {n : Bytes} (h : n ∈ fs.names q) : okName n := by
  have := mem_names.mp h
  cases ha : fs.at (q ++ [n]) with
  | none => exact absurd ha this
  | some e => exact hw.names _ (at_mem (by simp) ha) n (by simp)

theorem Fs.Wf.above {fs : Fs} (hw : fs.Wf) {q r : List Bytes} (hr : r ≠ []) (h : fs.at (q ++ r) ≠ none) : fs.at q = some .dir := by
  induction r generalizing q with
  | nil => exact absurd rfl hr
  | cons x r ih =>
    by_cases h0 : r = []
    · subst h0; exact hw.parents q x h
    · have : q ++ x :: r = (q ++ [x]) ++ r := by simp
      rw [this] at h
      have := ih h0 h
      exact hw.parents q x (by rw [this]; simp)

theorem metadata_ok {fs : Fs} {p : Path} {e : Ent} (h : fs.metadata p = .ok e) : fs.locate p = .ok (loc fs.cwd p) ∧ fs.at (loc fs.cwd p) = some e ∧ e ≠ .broken := by
  unfold Fs.metadata at h
  obtain ⟨q, hq, h⟩ := Res.bind_eq_ok h
  have hl := locate_loc hq
  subst hl
  refine ⟨hq, ?_⟩
  split at h
  · simp at h
  · rename_i hne he
    simp at h
    subst h
    exact ⟨he, fun hb => hne (by simp [← hb, he])⟩
  · simp at h

theorem metadata_of {fs : Fs} {p : Path} {e : Ent} (h : fs.locate p = .ok (loc fs.cwd p)) (ha : fs.at (loc fs.cwd p) = some e) (hb : e ≠ .broken) :
    fs.metadata p = .ok e := by
  unfold Fs.metadata
  rw [h, Res.ok_bind, ha]
  cases e <;> simp_all

theorem readDir_ok {fs : Fs} {p : Path} {l : List Bytes} (h : fs.readDir p = .ok l) :
    fs.locate p = .ok (loc fs.cwd p) ∧ fs.at (loc fs.cwd p) = some .dir ∧ l = fs.names (loc fs.cwd p) := by
  unfold Fs.readDir at h
  obtain ⟨q, hq, h⟩ := Res.bind_eq_ok h
  have hl := locate_loc hq
  subst hl
  refine ⟨hq, ?_⟩
  split at h
  · rename_i he
    simp at h
    exact ⟨he, h.symm⟩
  all_goals simp at h

theorem readDir_of {fs : Fs} {p : Path} (h : fs.locate p = .ok (loc fs.cwd p)) (ha : fs.at (loc fs.cwd p) = some .dir) : fs.readDir p = .ok (fs.names (loc fs.cwd p)) := by
  unfold Fs.readDir
  rw [h, Res.ok_bind, ha]

theorem locate_ne_nil {fs : Fs} {p : Path} {q : List Bytes} (h : fs.locate p = .ok q) : p ≠ [] := by
  rintro rfl; simp [Fs.locate] at h

theorem locate_join_ok {fs : Fs} {p : Path} {n : Bytes} (hn : okName n) (h : fs.locate p = .ok (loc fs.cwd p)) (hd : fs.at (loc fs.cwd p) = some .dir) :
    fs.locate (Path.join p n) = .ok (loc fs.cwd (Path.join p n)) := by
  rw [locate_join fs (locate_ne_nil h) hn, h, loc_join _ _ hn, Res.ok_bind, Fs.enter, hd]

theorem acceptAll_mem {fs : Fs} {filter : Filter} {path : Path} {all acc : List Bytes} (h : acceptAll fs filter path all acc) (n : Bytes) :
    n ∈ acc ↔ n ∈ all ∧ filter fs (Path.join path n) = .ok true := by
  induction all generalizing acc with
  | nil => cases h; simp
  | cons x all ih =>
    rcases h with ⟨h1, acc', rfl, h2⟩ | ⟨h1, h2⟩
    · simp only [List.mem_cons, ih h2]
      constructor
      · rintro (rfl | h)
        · exact ⟨Or.inl rfl, h1⟩
        · exact ⟨Or.inr h.1, h.2⟩
      · rintro ⟨rfl | h, h'⟩
        · exact Or.inl rfl
        · exact Or.inr ⟨h, h'⟩
    · rw [ih h2]
      constructor
      · rintro ⟨h, h'⟩; exact ⟨by simp [h], h'⟩
      · rintro ⟨h, h'⟩
        rcases List.mem_cons.mp h with rfl | h
        · rw [h1] at h'; simp at h'
        · exact ⟨h, h'⟩

theorem acceptAll_sublist {fs : Fs} {filter : Filter} {path : Path} {all acc : List Bytes} (h : acceptAll fs filter path all acc) : acc.Sublist all := by
  induction all generalizing acc with
  | nil => cases h; exact List.Sublist.slnil
  | cons x all ih =>
    rcases h with ⟨h1, acc', rfl, h2⟩ | ⟨h1, h2⟩
    · exact (ih h2).cons_cons x
    · exact (ih h2).cons x

theorem acceptAll_filter {fs : Fs} {filter : Filter} {path : Path} {all acc : List Bytes} (h : acceptAll fs filter path all acc) {n : Bytes} (hn : n ∈ all) :
    filter fs (Path.join path n) = .ok true ∨ filter fs (Path.join path n) = .ok false := by
  induction all generalizing acc with
  | nil => simp at hn
  | cons x all ih =>
    rcases h with ⟨h1, acc', rfl, h2⟩ | ⟨h1, h2⟩ <;> rcases List.mem_cons.mp hn with rfl | hn
    · exact Or.inl h1
    · exact ih h2 hn
    · exact Or.inr h1
    · exact ih h2 hn

theorem prefix_cons_iff {x : Bytes} {r l : List Bytes} : r <+: x :: l ↔ r = [] ∨ ∃ r', r = x :: r' ∧ r' <+: l := by
  cases r with
  | nil => simp
  | cons y r => 
    rw [List.cons_prefix_cons]
    constructor
    · rintro ⟨rfl, h⟩; exact Or.inr ⟨r, rfl, h⟩
    · rintro (h | ⟨r', h, h'⟩)
      · simp at h
      · simp at h; exact ⟨h.1, h.2 ▸ h'⟩

theorem visible_nil (fs : Fs) (filter : Filter) (path : Path) : Visible fs filter path [] := fun r h hp => absurd (List.prefix_nil.mp hp) h

theorem visible_cons {fs : Fs} {filter : Filter} {path : Path} {n : Bytes} {r : List Bytes} :
    Visible fs filter path (n :: r) ↔ filter fs (Path.join path n) = .ok true ∧ Visible fs filter (Path.join path n) r := by
  constructor
  · intro h
    refine ⟨h [n] (by simp) (by simp), ?_⟩
    intro x hx hp
    exact h (n :: x) (by simp) (by simpa using hp)
  · rintro ⟨h1, h2⟩ x hx hp
    rcases prefix_cons_iff.mp hp with rfl | ⟨x', rfl, hp'⟩
    · exact absurd rfl hx
    · by_cases h0 : x' = []
      · subst h0; exact h1
      · exact h2 x' h0 hp'

theorem Visible.prefix {fs : Fs} {filter : Filter} {path : Path} {r r' : List Bytes} (h : Visible fs filter path r) (hp : r' <+: r) : Visible fs filter path r' :=
  fun x hx hxp => h x hx (hxp.trans hp)

/-- The entry a node stands for. -/
def Node.isAt (fs : Fs) (L : List Bytes) (x : Node) : Prop :=
  match x.content with
  | some c => ∃ md, fs.at (L ++ x.rel) = some (.file c md)
  | none => fs.at (L ++ x.rel) = some .dir

theorem Listed.locate {fs : Fs} {filter : Filter} {n : Nat} {path : Path} {ns : List Node} (h : Listed fs filter n path ns) :
    fs.locate path = .ok (loc fs.cwd path) := by
  cases n with
  | zero => exact absurd h (by simp [Listed])
  | succ n =>
    rcases h with ⟨c, md, h, _⟩ | ⟨h, _⟩
    · exact (metadata_ok h).1
    · exact (metadata_ok h).1

/-- The nodes are exactly the visible files and directories. -/
theorem Listed.mem {fs : Fs} (hw : fs.Wf) {filter : Filter} {n : Nat} {path : Path} {ns : List Node} (h : Listed fs filter n path ns) (x : Node) :
    x ∈ ns ↔ Visible fs filter path x.rel ∧ x.isAt fs (loc fs.cwd path) := by
  induction n generalizing path ns x with
  | zero => exact absurd h (by simp [Listed])
  | succ n ih =>
    rcases h with ⟨c, md, h1, rfl⟩ | ⟨h1, all, h2, es, h3, rfl, h4⟩
    · obtain ⟨hl, ha, _⟩ := metadata_ok h1
      constructor
      · intro hx
        simp at hx
        subst hx
        exact ⟨visible_nil _ _ _, md, by simpa using ha⟩
      · rintro ⟨hv, hx⟩
        obtain ⟨rel, content⟩ := x
        cases rel with
        | nil =>
          cases content with
          | none => simp [Node.isAt, ha] at hx
          | some c' =>
            obtain ⟨md', hx⟩ := hx
            simp [ha] at hx
            simp [hx.1]
        | cons y r =>
          have hne : fs.at (loc fs.cwd path ++ y :: r) ≠ none := by
            cases content with
            | none => simp only [Node.isAt] at hx; rw [hx]; simp
            | some c' => obtain ⟨md', hx⟩ := hx; simp only at hx; rw [hx]; simp
          have := hw.above (by simp) hne
          rw [ha] at this
          simp at this
    · obtain ⟨hl, hd, rfl⟩ := readDir_ok h2
      have hnames : ∀ e ∈ es, okName e.1 := by
        intro e he
        exact hw.okNames ((acceptAll_mem h3 e.1).mp (List.mem_map_of_mem he)).1
      have key : ∀ e ∈ es, ∀ y : Node, y ∈ e.2 ↔ Visible fs filter (Path.join path e.1) y.rel ∧ (y.under e.1).isAt fs (loc fs.cwd path) := by
        intro e he y
        rw [ih (h4 e he) y, loc_join _ _ (hnames e he)]
        simp [Node.isAt]
      constructor
      · intro hx
        rcases List.mem_cons.mp hx with rfl | hx
        · exact ⟨visible_nil _ _ _, by simpa [Node.isAt] using hd⟩
        · obtain ⟨e, he, hx⟩ := List.mem_flatMap.mp hx
          obtain ⟨y, hy, rfl⟩ := List.mem_map.mp hx
          obtain ⟨a1, a2⟩ := (key e he y).mp hy
          refine ⟨visible_cons.mpr ⟨((acceptAll_mem h3 e.1).mp (List.mem_map_of_mem he)).2, a1⟩, a2⟩
      · rintro ⟨hv, hx⟩
        obtain ⟨rel, content⟩ := x
        cases rel with
        | nil =>
          cases content with
          | none => simp
          | some c' =>
            obtain ⟨md', hx⟩ := hx
            simp [hd] at hx
        | cons y r =>
          obtain ⟨hv1, hv2⟩ := visible_cons.mp hv
          have hne : fs.at ((loc fs.cwd path ++ [y]) ++ r) ≠ none := by
            have e : (loc fs.cwd path ++ [y]) ++ r = loc fs.cwd path ++ y :: r := by simp
            rw [e]
            cases content with
            | none => simp only [Node.isAt] at hx; rw [hx]; simp
            | some c' => obtain ⟨md', hx⟩ := hx; simp only at hx; rw [hx]; simp
          have hne' : fs.at (loc fs.cwd path ++ [y]) ≠ none := by
            by_cases hr : r = []
            · subst hr; simpa using hne
            · rw [hw.above hr hne]; simp
          have hy : y ∈ es.map (·.1) := (acceptAll_mem h3 y).mpr ⟨mem_names.mpr hne', hv1⟩
          obtain ⟨e, he, rfl⟩ := List.mem_map.mp hy
          refine List.mem_cons_of_mem _ (List.mem_flatMap.mpr ⟨e, he, List.mem_map.mpr ⟨⟨r, content⟩, (key e he _).mpr ⟨hv2, hx⟩, rfl⟩⟩)

theorem Listed.okNames {fs : Fs} (hw : fs.Wf) {filter : Filter} {n : Nat} {path : Path} {ns : List Node} (h : Listed fs filter n path ns) :
    ∀ x ∈ ns, ∀ m ∈ x.rel, okName m := by
  induction n generalizing path ns with
  | zero => exact absurd h (by simp [Listed])
  | succ n ih =>
    rcases h with ⟨c, md, h1, rfl⟩ | ⟨h1, all, h2, es, h3, rfl, h4⟩
    · intro x hx; simp at hx; subst hx; simp
    · obtain ⟨hl, hd, rfl⟩ := readDir_ok h2
      intro x hx m hm
      rcases List.mem_cons.mp hx with rfl | hx
      · simp at hm
      · obtain ⟨e, he, hx⟩ := List.mem_flatMap.mp hx
        obtain ⟨y, hy, rfl⟩ := List.mem_map.mp hx
        rcases List.mem_cons.mp hm with rfl | hm
        · exact hw.okNames ((acceptAll_mem h3 e.1).mp (List.mem_map_of_mem he)).1
        · exact ih (h4 e he) y hy m hm

theorem nodup_flatMap_under {es : List (Bytes × List Node)} (h1 : (es.map (·.1)).Nodup) (h2 : ∀ e ∈ es, (e.2.map Node.rel).Nodup) :
    ((es.flatMap (fun e => e.2.map (Node.under e.1))).map Node.rel).Nodup := by
  induction es with
  | nil => simp
  | cons e es ih =>
    simp only [List.map_cons, List.nodup_cons] at h1
    rw [List.flatMap_cons, List.map_append, List.nodup_append]
    refine ⟨?_, ih h1.2 (fun e he => h2 e (by simp [he])), ?_⟩
    · have : (e.2.map (Node.under e.1)).map Node.rel = (e.2.map Node.rel).map (e.1 :: ·) := by simp [Function.comp_def]
      rw [this]
      unfold List.Nodup
      rw [List.pairwise_map]
      refine (h2 e (by simp)).imp ?_
      intro a b hab h; simp at h; exact hab h
    · intro a ha b hb hab
      simp only [List.mem_map] at ha hb
      obtain ⟨x, ⟨x', _, rfl⟩, rfl⟩ := ha
      obtain ⟨y, hy, rfl⟩ := hb
      obtain ⟨e', he', hy⟩ := List.mem_flatMap.mp hy
      obtain ⟨y', _, rfl⟩ := List.mem_map.mp hy
      simp at hab
      exact h1.1 (hab.1 ▸ List.mem_map_of_mem he')

theorem nodup_cons_under {es : List (Bytes × List Node)} {c : Option Bytes} (h1 : (es.map (·.1)).Nodup) (h2 : ∀ e ∈ es, (e.2.map Node.rel).Nodup) :
    (((⟨[], c⟩ : Node) :: es.flatMap (fun e => e.2.map (Node.under e.1))).map Node.rel).Nodup := by
  rw [List.map_cons, List.nodup_cons]
  refine ⟨?_, nodup_flatMap_under h1 h2⟩
  intro h
  obtain ⟨y, hy, h'⟩ := List.mem_map.mp h
  obtain ⟨e', he', hy⟩ := List.mem_flatMap.mp hy
  obtain ⟨y', _, rfl⟩ := List.mem_map.mp hy
  simp at h'

theorem Listed.nodup {fs : Fs} (hw : fs.Wf) {filter : Filter} {n : Nat} {path : Path} {ns : List Node} (h : Listed fs filter n path ns) :
    (ns.map Node.rel).Nodup := by
  induction n generalizing path ns with
  | zero => exact absurd h (by simp [Listed])
  | succ n ih =>
    rcases h with ⟨c, md, h1, rfl⟩ | ⟨h1, all, h2, es, h3, rfl, h4⟩
    · simp
    · obtain ⟨hl, hd, rfl⟩ := readDir_ok h2
      exact nodup_cons_under ((names_nodup hw.nodup _).sublist (acceptAll_sublist h3)) (fun e he => ih (h4 e he))

/-- Nothing visible is other than a file or directory, and the filter answered for every entry of a visible directory. -/
theorem Listed.complete {fs : Fs} (hw : fs.Wf) {filter : Filter} {n : Nat} {path : Path} {ns : List Node} (h : Listed fs filter n path ns)
    {rel : List Bytes} (hv : Visible fs filter path rel) {e : Ent} (ha : fs.at (loc fs.cwd path ++ rel) = some e) : e = .dir ∨ ∃ c md, e = .file c md := by
  induction n generalizing path ns rel with
  | zero => exact absurd h (by simp [Listed])
  | succ n ih =>
    rcases h with ⟨c, md, h1, rfl⟩ | ⟨h1, all, h2, es, h3, rfl, h4⟩
    · obtain ⟨hl, ha', _⟩ := metadata_ok h1
      cases rel with
      | nil => simp [ha'] at ha; exact Or.inr ⟨c, md, ha.symm⟩
      | cons y r =>
        have := hw.above (q := loc fs.cwd path) (r := y :: r) (by simp) (by rw [ha]; simp)
        rw [ha'] at this; simp at this
    · obtain ⟨hl, hd, rfl⟩ := readDir_ok h2
      cases rel with
      | nil => simp [hd] at ha; exact Or.inl ha.symm
      | cons y r =>
        obtain ⟨hv1, hv2⟩ := visible_cons.mp hv
        have ha2 : fs.at ((loc fs.cwd path ++ [y]) ++ r) = some e := by simpa using ha
        have hne' : fs.at (loc fs.cwd path ++ [y]) ≠ none := by
          by_cases hr : r = []
          · subst hr; simp at ha2; rw [ha2]; simp
          · rw [hw.above hr (by rw [ha2]; simp)]; simp
        have hy : y ∈ es.map (·.1) := (acceptAll_mem h3 y).mpr ⟨mem_names.mpr hne', hv1⟩
        obtain ⟨x, hx, rfl⟩ := List.mem_map.mp hy
        exact ih (h4 x hx) hv2 (by rw [loc_join _ _ (hw.okNames (mem_names.mpr hne'))]; exact ha2)

theorem Listed.filtered {fs : Fs} (hw : fs.Wf) {filter : Filter} {n : Nat} {path : Path} {ns : List Node} (h : Listed fs filter n path ns)
    {rel : List Bytes} (hv : Visible fs filter path rel) {m : Bytes} (ha : fs.at (loc fs.cwd path ++ rel ++ [m]) ≠ none) :
    filter fs (joins path (rel ++ [m])) = .ok true ∨ filter fs (joins path (rel ++ [m])) = .ok false := by
  induction n generalizing path ns rel with
  | zero => exact absurd h (by simp [Listed])
  | succ n ih =>
    rcases h with ⟨c, md, h1, rfl⟩ | ⟨h1, all, h2, es, h3, rfl, h4⟩
    · obtain ⟨hl, ha', _⟩ := metadata_ok h1
      have := hw.above (q := loc fs.cwd path) (r := rel ++ [m]) (by simp) (by simpa using ha)
      rw [ha'] at this; simp at this
    · obtain ⟨hl, hd, rfl⟩ := readDir_ok h2
      cases rel with
      | nil =>
        simp only [List.append_nil] at ha
        exact acceptAll_filter h3 (mem_names.mpr ha)
      | cons y r =>
        obtain ⟨hv1, hv2⟩ := visible_cons.mp hv
        have ha2 : fs.at ((loc fs.cwd path ++ [y]) ++ (r ++ [m])) ≠ none := by simpa using ha
        have hne' : fs.at (loc fs.cwd path ++ [y]) ≠ none := by
          rw [hw.above (by simp) ha2]; simp
        have hy : y ∈ es.map (·.1) := (acceptAll_mem h3 y).mpr ⟨mem_names.mpr hne', hv1⟩
        obtain ⟨x, hx, rfl⟩ := List.mem_map.mp hy
        exact ih (h4 x hx) hv2 (by rw [loc_join _ _ (hw.okNames (mem_names.mpr hne'))]; simpa using ha)

end Snap
