import Verif.Props.SameKey
import Verif.Props.Commands
import Verif.Props.Checkout
/-! C90: storing a directory again stores only what has changed. -/
namespace Snap.Props
open Snap
set_option linter.unusedSectionVars false
variable [Serde] [LawfulSerde]

namespace Spec

/-- Storing the visible file at `rel` by itself, in an empty store, writes a row with this key. -/
def FileRow (E : Env) (fs : Fs) (filter : Filter) (path : Path) (rel : List Bytes) (key : Bytes) : Prop :=
  ∃ c, VisFile fs filter path rel c ∧ ∃ k d, putFile E (joins path rel) c {} = (.ok k, d) ∧ ∃ r ∈ d.data, r.1 = key

/-- There is a directory at `rel`, and storing it gives this key. -/
def DirRow (E : Env) (fs : Fs) (filter : Filter) (path : Path) (rel : List Bytes) (key : Bytes) : Prop :=
  Visible fs filter path rel ∧ fs.at (loc fs.cwd path ++ rel) = some .dir ∧ ∃ n k d d', putFsItem E fs filter n (joins path rel) d = (.ok k, d') ∧ key = k.asDbKey

/-- What is at `rel` was there before, the same all the way down. -/
def Unchanged (E : Env) (fs : Fs) (filter : Filter) (path : Path) (fs' : Fs) (filter' : Filter) (path' : Path) (rel : List Bytes) : Prop :=
  Visible fs filter path rel ∧ Alike E fs filter (joins path rel) fs' filter' (joins path' rel)

end Spec

/-! ### Where the rows come from -/

theorem putEntries_rows {E : Env} {fs : Fs} {filter : Filter} {rec : Path → M Key} (hp : ∀ p, IsPuts E.H (rec p)) {path : Path} {l : List Bytes} {db db' : Db} {es : List (Bytes × Key)}
    (h : putEntries fs filter rec path l db = (.ok es, db')) : db.data <+: db'.data ∧
    (∀ e ∈ es, ∃ d d', rec (Path.join path e.1) d = (.ok e.2, d') ∧ db.data <+: d.data ∧ d'.data <+: db'.data) ∧
    ∀ r ∈ db'.data, r ∉ db.data → ∃ e ∈ es, ∃ d d', rec (Path.join path e.1) d = (.ok e.2, d') ∧ r ∈ d'.data ∧ r ∉ d.data := by
  induction l generalizing db es with
  | nil =>
    unfold putEntries at h
    obtain ⟨rfl, rfl⟩ : es = [] ∧ db = db' := by
      have h' : ((Res.ok [] : Res (List (Bytes × Key))), db) = (.ok es, db') := h
      simp at h'
      exact ⟨h'.1.symm ▸ rfl, h'.2⟩
    exact ⟨List.prefix_refl _, by simp, fun r h1 h2 => absurd h1 h2⟩
  | cons x l ih =>
    unfold putEntries at h
    obtain ⟨b, d1, h1, h2⟩ := bind_ok h
    simp only [SM.lift_apply, Prod.mk.injEq] at h1
    obtain ⟨h1, rfl⟩ := h1
    cases b with
    | false => exact ih h2
    | true =>
      simp only [if_true] at h2
      obtain ⟨k, d2, h3, h4⟩ := bind_ok h2
      obtain ⟨r', d3, h5, h6⟩ := bind_ok h4
      have h6' : ((Res.ok ((x, k) :: r') : Res (List (Bytes × Key))), d3) = (.ok es, db') := h6
      simp at h6'
      obtain ⟨rfl, rfl⟩ := h6'
      obtain ⟨g0, g1, g2⟩ := ih h5
      have hg : db.data <+: d2.data := by have := ((hp (Path.join path x)).grow db).data; rw [h3] at this; exact this
      refine ⟨hg.trans g0, ?_, ?_⟩
      · intro e he
        rcases List.mem_cons.mp he with rfl | he
        · exact ⟨_, _, h3, List.prefix_refl _, g0⟩
        · obtain ⟨d, d', a1, a2, a3⟩ := g1 e he
          exact ⟨d, d', a1, hg.trans a2, a3⟩
      · intro r hr hn
        by_cases hm : r ∈ d2.data
        · exact ⟨_, List.mem_cons_self .., _, _, h3, hm, hn⟩
        · obtain ⟨e, he, x⟩ := g2 r hr hm
          exact ⟨e, List.mem_cons_of_mem _ he, x⟩

/-- The key that a successful `put_obj` gives is that of the only row it may add. -/
theorem putObj_rows {H : Bytes → Key} {o : Object} {db db' : Db} {k : Key} (h : putObj H o db = (.ok k, db')) :
    (∃ r ∈ db'.data, r.1 = k.asDbKey) ∧ ∀ r ∈ db'.data, r ∉ db.data → r.1 = k.asDbKey := by
  rcases putObj_cases H o db with ⟨_, e⟩ | ⟨b, hb, e | e⟩
  · rw [e] at h; simp at h
  · rw [e] at h; simp at h
  · rw [e] at h
    simp only [Prod.mk.injEq, Res.ok.injEq] at h
    obtain ⟨rfl, rfl⟩ := h
    refine ⟨?_, ?_⟩
    · show ∃ r ∈ insertIgnore db.data (H b).asDbKey b, r.1 = (H b).asDbKey
      rw [← assoc_isSome_iff, insertIgnore_assoc]
      cases assoc db.data (H b).asDbKey <;> simp
    · intro r hr hn
      have hr : r ∈ insertIgnore db.data (H b).asDbKey b := hr
      rcases insertIgnore_cases db.data (H b).asDbKey b with ⟨_, e⟩ | ⟨_, e⟩
      · rw [e] at hr; exact absurd hr hn
      · rw [e] at hr
        rcases List.mem_append.mp hr with hr | hr
        · exact absurd hr hn
        · rw [List.mem_singleton.mp hr]

/-- A computation that only puts: the keys of the rows it adds somewhere are there after any successful run. -/
theorem isPuts_rows {α} {H : Bytes → Key} {x : M α} (h : IsPuts H x) {db d db' d' : Db} {a b : α} (h1 : x db = (.ok a, d)) (h2 : x db' = (.ok b, d')) {r : Bytes × Bytes}
    (hr : r ∈ d.data) (hn : r ∉ db.data) : ∃ r' ∈ d'.data, r'.1 = r.1 := by
  obtain ⟨ws, res, hx⟩ := h
  rw [hx] at h1 h2
  have hp := execPuts_present H ws res b db' d' h2
  clear h2 hx
  induction ws generalizing db with
  | nil =>
    have h1' : (res, db) = (Res.ok a, d) := h1
    simp only [Prod.mk.injEq] at h1'
    rw [← h1'.2] at hr
    exact absurd hr hn
  | cons w ws ih =>
    rw [execPuts_cons] at h1
    rcases put_cases H w db with e | e
    · rw [e] at h1; simp at h1
    · rw [e] at h1
      simp only at h1
      by_cases hm : r ∈ insertIgnore db.data (H w).asDbKey w
      · rcases insertIgnore_cases db.data (H w).asDbKey w with ⟨_, e⟩ | ⟨_, e⟩
        · rw [e] at hm; exact absurd hm hn
        · rw [e] at hm
          rcases List.mem_append.mp hm with hm | hm
          · exact absurd hm hn
          · obtain ⟨r', g1, g2⟩ := hp w (by simp)
            exact ⟨r', g1, by rw [List.mem_singleton.mp hm]; exact g2⟩
      · exact ih hm h1 fun x hx => hp x (by simp [hx])

theorem isPuts_empty {α} {H : Bytes → Key} {x : M α} (h : IsPuts H x) {db d : Db} {a : α} (h1 : x db = (.ok a, d)) : ∃ d', x {} = (.ok a, d') := by
  obtain ⟨ws, res, hx⟩ := h
  have e1 := execPuts_result H ws res db
  rw [← hx, h1] at e1
  simp only [reduceCtorEq, or_false] at e1
  subst e1
  have := (execPuts_nofault H ws (Res.ok a) {} rfl).1
  exact ⟨(x {}).2, Prod.ext (by rw [hx]; exact this) rfl⟩

/-- Every row that storing a directory adds belongs to one file or is the row of one directory. -/
theorem put_rows {E : Env} {fs : Fs} (hw : fs.Wf) {filter : Filter} {n : Nat} {path : Path} {db d : Db} {k : Key} (h : putFsItem E fs filter n path db = (.ok k, d))
    {r : Bytes × Bytes} (hr : r ∈ d.data) (hn : r ∉ db.data) : ∃ rel, Spec.FileRow E fs filter path rel r.1 ∨ Spec.DirRow E fs filter path rel r.1 := by
  induction n generalizing path db d k with
  | zero => unfold putFsItem at h; simp [SM.lift_apply] at h
  | succ n ih =>
    have h0 := h
    unfold putFsItem at h
    obtain ⟨e, d1, h1, h2⟩ := bind_ok h
    simp only [SM.lift_apply, Prod.mk.injEq] at h1
    obtain ⟨h1, rfl⟩ := h1
    obtain ⟨hl, ha, _⟩ := metadata_ok h1
    cases e with
    | special => simp [SM.panic] at h2
    | broken => simp [SM.panic] at h2
    | file c md =>
      simp only at h2
      obtain ⟨d', he⟩ := isPuts_empty (isPuts_putFile E path c) h2
      obtain ⟨r', g1, g2⟩ := isPuts_rows (isPuts_putFile E path c) h2 he hr hn
      exact ⟨[], .inl ⟨c, ⟨visible_nil _ _ _, by rw [List.append_nil, content_some]; exact ⟨md, ha⟩⟩, k, d', he, r', g1, g2⟩⟩
    | dir =>
      simp only at h2
      obtain ⟨l, d2, h3, h4⟩ := bind_ok h2
      simp only [SM.lift_apply, Prod.mk.injEq] at h3
      obtain ⟨h3, rfl⟩ := h3
      obtain ⟨_, _, rfl⟩ := readDir_ok h3
      obtain ⟨es, d3, h5, h6⟩ := bind_ok h4
      by_cases hm : r ∈ d3.data
      · obtain ⟨_, _, g⟩ := putEntries_rows (isPuts_putFsItem E fs filter n) h5
        obtain ⟨e, he, a, b, q1, q2, q3⟩ := g r hm hn
        obtain ⟨g1, _⟩ := putEntries_run h5
        have hmem : e.1 ∈ es.map (·.1) := List.mem_map_of_mem he
        rw [g1] at hmem
        obtain ⟨n1, f1⟩ := List.mem_filter.mp hmem
        have hok := hw.okNames n1
        have f2 : filter fs (Path.join path e.1) = .ok true := by simpa using f1
        obtain ⟨rel, hrel⟩ := ih q1 q2 q3
        refine ⟨e.1 :: rel, ?_⟩
        rcases hrel with ⟨c, ⟨v1, v2⟩, hf⟩ | ⟨v1, v2, hf⟩
        · refine .inl ⟨c, ⟨visible_cons.mpr ⟨f2, v1⟩, ?_⟩, by simpa using hf⟩
          rw [loc_join _ _ hok] at v2
          simpa using v2
        · refine .inr ⟨visible_cons.mpr ⟨f2, v1⟩, ?_, by simpa using hf⟩
          rw [loc_join _ _ hok] at v2
          simpa using v2
      · obtain ⟨o, d4, h7, h8⟩ := bind_ok h6
        simp only [SM.lift_apply, Prod.mk.injEq] at h7
        obtain ⟨h7, rfl⟩ := h7
        exact ⟨[], .inr ⟨visible_nil _ _ _, by simpa using ha, n + 1, k, db, d, h0, (putObj_rows h8).2 r hr hm⟩⟩

/-- What is visible in a stored directory was stored too. -/
theorem put_sub {E : Env} {fs : Fs} (hw : fs.Wf) {filter : Filter} {n : Nat} {path : Path} {db d : Db} {k : Key} (h : putFsItem E fs filter n path db = (.ok k, d))
    {rel : List Bytes} (hv : Visible fs filter path rel) (ha : fs.at (loc fs.cwd path ++ rel) ≠ none) :
    ∃ m k' d1 d2, putFsItem E fs filter m (joins path rel) d1 = (.ok k', d2) ∧ d2.data <+: d.data := by
  induction rel generalizing n path db d k with
  | nil => exact ⟨n, k, db, d, h, List.prefix_refl _⟩
  | cons x rel ih =>
    cases n with
    | zero => unfold putFsItem at h; simp [SM.lift_apply] at h
    | succ n =>
    unfold putFsItem at h
    obtain ⟨e, d1, h1, h2⟩ := bind_ok h
    simp only [SM.lift_apply, Prod.mk.injEq] at h1
    obtain ⟨h1, rfl⟩ := h1
    obtain ⟨hl, hat, _⟩ := metadata_ok h1
    have hx : fs.at (loc fs.cwd path ++ [x]) ≠ none := by
      cases rel with
      | nil => exact ha
      | cons y rel =>
        rw [hw.above (q := loc fs.cwd path ++ [x]) (r := y :: rel) (by simp) (by simpa using ha)]
        simp
    have hd : fs.at (loc fs.cwd path) = some .dir := hw.above (r := [x]) (by simp) hx
    have hok : okName x := hw.okNames (mem_names.mpr hx)
    rw [hat] at hd
    cases hd
    simp only at h2
    obtain ⟨l, d2, h3, h4⟩ := bind_ok h2
    simp only [SM.lift_apply, Prod.mk.injEq] at h3
    obtain ⟨h3, rfl⟩ := h3
    obtain ⟨_, _, rfl⟩ := readDir_ok h3
    obtain ⟨es, d3, h5, h6⟩ := bind_ok h4
    obtain ⟨_, g2, _⟩ := putEntries_rows (isPuts_putFsItem E fs filter n) h5
    obtain ⟨g1, _⟩ := putEntries_run h5
    obtain ⟨f1, f2⟩ := visible_cons.mp hv
    have hmem : x ∈ es.map (·.1) := by
      rw [g1]
      exact List.mem_filter.mpr ⟨mem_names.mpr hx, by rw [f1]; decide⟩
    obtain ⟨e, he, rfl⟩ := List.mem_map.mp hmem
    obtain ⟨a, b, q1, q2, q3⟩ := g2 e he
    have hg : d3.data <+: d.data := by
      obtain ⟨o, d4, h7, h8⟩ := bind_ok h6
      simp only [SM.lift_apply, Prod.mk.injEq] at h7
      obtain ⟨_, rfl⟩ := h7
      have := ((isPuts_putObj E.H o).grow d3).data
      rw [h8] at this
      exact this
    obtain ⟨m, k', d1, d2, w1, w2⟩ := ih q1 f2 (by rw [loc_join _ _ hok]; simpa using ha)
    exact ⟨m, k', d1, d2, by simpa using w1, w2.trans (q3.trans hg)⟩

/-- The key that storing something gives is stored. -/
theorem put_stored {E : Env} {fs : Fs} {filter : Filter} {n : Nat} {path : Path} {db d : Db} {k : Key} (h : putFsItem E fs filter n path db = (.ok k, d)) :
    ∃ r ∈ d.data, r.1 = k.asDbKey := by
  cases n with
  | zero => unfold putFsItem at h; simp [SM.lift_apply] at h
  | succ n =>
    unfold putFsItem at h
    obtain ⟨e, d1, h1, h2⟩ := bind_ok h
    cases e with
    | special => simp [SM.panic] at h2
    | broken => simp [SM.panic] at h2
    | file c md =>
      obtain ⟨_, d2, h3, h4⟩ := bind_ok h2
      obtain ⟨o, d3, h5, h6⟩ := bind_ok h4
      exact (putObj_rows h6).1
    | dir =>
      obtain ⟨_, d2, h3, h4⟩ := bind_ok h2
      obtain ⟨_, d3, h5, h6⟩ := bind_ok h4
      obtain ⟨o, d4, h7, h8⟩ := bind_ok h6
      exact (putObj_rows h8).1

theorem wf_okRel {fs : Fs} (hw : fs.Wf) {q rel : List Bytes} (h : fs.at (q ++ rel) ≠ none) : ∀ m ∈ rel, okName m := by
  intro m hm
  cases ha : fs.at (q ++ rel) with
  | none => exact absurd ha h
  | some e => exact hw.names _ (at_mem (by intro e; rw [List.append_eq_nil_iff] at e; rw [e.2] at hm; simp at hm) ha) m (by simp [hm])

/-! ### C90 -/

/-- **C90**: storing a directory tree when another one (an earlier state of it, say) is stored already. Every row that is added belongs to a file or directory of the new tree
that has no unchanged counterpart in the old one: it is one of the rows of a file that was not there before with the same contents, or the row of a directory in which something has
changed, at some depth. -/
theorem C90_new (E : Env) (fs fs' : Fs) (hw : fs.Wf) (hw' : fs'.Wf) (filter filter' : Filter) (n n' : Nat) (path path' : Path) (db d db' d' : Db) (k k' : Key)
    (h : putFsItem E fs filter n path db = (.ok k, d)) (hi : Inv E.H db') (hsub : ∀ r ∈ d.data, r ∈ db'.data) (h' : putFsItem E fs' filter' n' path' db' = (.ok k', d'))
    (r : Bytes × Bytes) (hr : r ∈ d'.data) (hn : r ∉ db'.data) :
    ∃ rel, ¬ Spec.Unchanged E fs filter path fs' filter' path' rel ∧ (Spec.FileRow E fs' filter' path' rel r.1 ∨ Spec.DirRow E fs' filter' path' rel r.1) := by
  obtain ⟨rel, hrel⟩ := put_rows hw' h' hr hn
  refine ⟨rel, ?_, hrel⟩
  rintro ⟨hv, hal⟩
  -- a row with this key was there before
  suffices hold : ∃ r' ∈ d.data, r'.1 = r.1 by
    obtain ⟨r', g1, g2⟩ := hold
    have hg := (isPuts_putFsItem E fs' filter' n' path').grow db'
    rw [h'] at hg
    have hnd := (hg.inv hi).nodup
    have : r' = r := nodup_map_inj hnd (hg.data.subset (hsub r' g1)) hr g2
    exact hn (this ▸ hsub r' g1)
  have hs := hal.shapes [] (visible_nil _ _ _) (visible_nil _ _ _)
  simp only [List.append_nil] at hs
  rcases hrel with ⟨c, ⟨_, hc⟩, kk, d0, hf, r0, hr0, he⟩ | ⟨_, ha, m, kk, a, b, hf, he⟩
  · obtain ⟨md, ha⟩ := content_some.mp hc
    have hok := wf_okRel hw' (q := loc fs'.cwd path') (rel := rel) (by rw [ha]; simp)
    rw [loc_joins _ _ hok, loc_joins _ _ hok] at hs
    obtain ⟨md', ha'⟩ : ∃ md, fs.at (loc fs.cwd path ++ rel) = some (.file c md) := by
      unfold Fs.shape at hs
      rw [ha] at hs
      split at hs
      · simp at hs
      · rename_i c' md' e; simp at hs; subst hs; exact ⟨_, e⟩
      · simp at hs
    obtain ⟨m, k1, d1, d2, q1, q2⟩ := put_sub hw h hv (by rw [ha']; simp)
    cases m with
    | zero => unfold putFsItem at q1; simp [SM.lift_apply] at q1
    | succ m =>
    unfold putFsItem at q1
    obtain ⟨e, d3, h1, h2⟩ := bind_ok q1
    simp only [SM.lift_apply, Prod.mk.injEq] at h1
    obtain ⟨h1, rfl⟩ := h1
    obtain ⟨_, hat, _⟩ := metadata_ok h1
    rw [loc_joins _ _ hok, ha'] at hat
    cases hat
    simp only at h2
    have hr : putFile E (joins path rel) c = putFile E (joins path' rel) c := by
      unfold putFile; rw [show E.rd (joins path rel) c = E.rd (joins path' rel) c from hal.reads [] c]
    rw [← hr] at hf
    obtain ⟨r', g1, g2⟩ := isPuts_rows (isPuts_putFile E _ c) hf h2 hr0 (by simp)
    exact ⟨r', q2.subset g1, g2.trans he⟩
  · have hok := wf_okRel hw' (q := loc fs'.cwd path') (rel := rel) (by rw [ha]; simp)
    have hne : fs.at (loc fs.cwd path ++ rel) ≠ none := by
      rw [loc_joins _ _ hok, loc_joins _ _ hok] at hs
      intro e
      unfold Fs.shape at hs
      rw [ha, e] at hs
      simp at hs
    obtain ⟨m, k1, d1, d2, q1, q2⟩ := put_sub hw h hv hne
    have := C34_equal_keys E fs fs' hw hw' filter filter' _ _ _ _ hal _ _ _ _ _ _ q1 hf
    subst this
    obtain ⟨r', g1, g2⟩ := put_stored q1
    exact ⟨r', q2.subset g1, g2.trans he.symm⟩

theorem alike_step {E : Env} {fs fs' : Fs} (hw : fs.Wf) {filter filter' : Filter} {path path' : Path} (hal : Alike E fs filter path fs' filter' path') {m : Bytes} (hok : okName m)
    (f : filter fs (Path.join path m) = .ok true) (f' : filter' fs' (Path.join path' m) = .ok true) : Alike E fs filter (Path.join path m) fs' filter' (Path.join path' m) := by
  refine ⟨?_, ?_, ?_⟩
  · intro rel hv hv'
    have := hal.shapes (m :: rel) (visible_cons.mpr ⟨f, hv⟩) (visible_cons.mpr ⟨f', hv'⟩)
    rw [loc_join _ _ hok, loc_join _ _ hok]
    simpa using this
  · intro rel hv hv'
    have := hal.order (m :: rel) (visible_cons.mpr ⟨f, hv⟩) (visible_cons.mpr ⟨f', hv'⟩)
    rw [loc_join _ _ hok, loc_join _ _ hok]
    simpa using this
  · intro rel c
    simpa using hal.reads (m :: rel) c

theorem alike_unchanged {E : Env} {fs fs' : Fs} (hw : fs.Wf) (hw' : fs'.Wf) {filter filter' : Filter} {path path' : Path} (hal : Alike E fs filter path fs' filter' path')
    {rel : List Bytes} (hv : Visible fs' filter' path' rel) (ha : fs'.at (loc fs'.cwd path' ++ rel) ≠ none) : Spec.Unchanged E fs filter path fs' filter' path' rel := by
  induction rel generalizing path path' with
  | nil => exact ⟨visible_nil _ _ _, hal⟩
  | cons m rel ih =>
    have hok := wf_okRel hw' ha m (by simp)
    obtain ⟨f', hv'⟩ := visible_cons.mp hv
    have hm : m ∈ fs'.names (loc fs'.cwd path') := by
      refine mem_names.mpr ?_
      cases rel with
      | nil => exact ha
      | cons y rel => rw [hw'.above (q := loc fs'.cwd path' ++ [m]) (r := y :: rel) (by simp) (by simpa using ha)]; simp
    have ho := hal.order [] (visible_nil _ _ _) (visible_nil _ _ _)
    simp only [List.append_nil, List.nil_append, joins_cons, joins_nil] at ho
    have hmm := List.mem_filter (p := fun m => filter' fs' (Path.join path' m) == .ok true).mpr ⟨hm, show (filter' fs' (Path.join path' m) == .ok true) = true by rw [f']; decide⟩
    rw [← ho] at hmm
    have f : filter fs (Path.join path m) = .ok true := by simpa using (List.mem_filter.mp hmm).2
    obtain ⟨u1, u2⟩ := ih (alike_step hw hal hok f f') hv' (by rw [loc_join _ _ hok]; simpa using ha)
    exact ⟨visible_cons.mpr ⟨f, u1⟩, by simpa using u2⟩

/-- **C90**: storing again a directory that has not changed adds no row. -/
theorem C90_again (E : Env) (fs fs' : Fs) (hw : fs.Wf) (hw' : fs'.Wf) (filter filter' : Filter) (n n' : Nat) (path path' : Path) (db d db' d' : Db) (k k' : Key)
    (hal : Alike E fs filter path fs' filter' path')
    (h : putFsItem E fs filter n path db = (.ok k, d)) (hi : Inv E.H db') (hsub : ∀ r ∈ d.data, r ∈ db'.data) (h' : putFsItem E fs' filter' n' path' db' = (.ok k', d')) :
    k' = k ∧ d'.data = db'.data := by
  refine ⟨(C34_equal_keys E fs fs' hw hw' filter filter' n n' path path' hal db d db' d' k k' h h').symm, ?_⟩
  have hg := (isPuts_putFsItem E fs' filter' n' path').grow db'
  rw [h'] at hg
  obtain ⟨l, hl⟩ := hg.data
  cases l with
  | nil => rw [← hl, List.append_nil]
  | cons r l =>
    exfalso
    have hnd := (hg.inv hi).nodup
    have hr : r ∈ d'.data := by rw [← hl]; simp
    have hn : r ∉ db'.data := by
      intro hm
      rw [← hl, List.map_append, List.map_cons, List.nodup_append] at hnd
      exact hnd.2.2 r.1 (List.mem_map_of_mem hm) r.1 (by simp) rfl
    obtain ⟨rel, hnu, hrel⟩ := C90_new E fs fs' hw hw' filter filter' n n' path path' db d db' d' k k' h hi hsub h' r hr hn
    refine hnu ?_
    rcases hrel with ⟨c, ⟨v, hc⟩, _⟩ | ⟨v, ha, _⟩
    · obtain ⟨md, ha⟩ := content_some.mp hc
      exact alike_unchanged hw hw' hal v (by rw [ha]; simp)
    · exact alike_unchanged hw hw' hal v (by rw [ha]; simp)

/-! ### Commits -/

/-- The rows a commit adds: those of the directory, and one for the commit itself. -/
theorem commit_rows {X : Ctx} {path : Option Path} {message : Bytes} {refname : Option Bytes} {w : World} {R : Repo} {q : List Bytes}
    (h : Committed X (.commit path message refname) w R q) :
    ∃ n tree d, ∃ ck : Key, putFsItem X.E w.fs (makeFilter X.glob R.folder) X.depth (path.getD R.root) (w.dbs q) = (.ok tree, d) ∧
      d.data <+: ((mainRun X (.commit path message refname) w).2.2.dbs q).data ∧
      ((mainRun X (.commit path message refname) w).2.2.dbs q).reflog = (w.dbs q).reflog ++ [⟨n, none, ck.asDbKey⟩] ∧
      (((mainRun X (.commit path message refname) w).2.2.dbs q).data = d.data ∨
        ∃ v, ((mainRun X (.commit path message refname) w).2.2.dbs q).data = d.data ++ [(ck.asDbKey, v)]) := by
  obtain ⟨ho, h1, h2⟩ := h
  have hrun := mainRun_open (cmd := .commit path message refname) (by simp) ho
  have hsame := runIn_committed X R q _ w () h1 h2
  rw [← hrun] at hsame
  obtain ⟨n, ps, tree, d1, ck, d2, g1, g2, g3, g4, g5⟩ := cmdCommit_ok (X := X) (R := R) (s := startOf w q) (s' := ((Command.commit path message refname).inRepo X R (startOf w q)).2) (Prod.ext h1 rfl)
  obtain ⟨e1, e2, e3, e4⟩ := reflogPush_ok g5
  have hd1 : Grow X.E.H (w.dbs q) d1 := by
    have := (isPuts_putFsItem X.E w.fs (makeFilter X.glob R.folder) X.depth (path.getD R.root)).grow (w.dbs q)
    rw [show putFsItem X.E w.fs (makeFilter X.glob R.folder) X.depth (path.getD R.root) (w.dbs q) = (.ok tree, d1) from g3] at this
    exact this
  have hgrow2 := (isPuts_commitTree X.E.H tree ps { message := message }).grow d1
  rw [g4] at hgrow2
  have hdata : ((mainRun X (.commit path message refname) w).2.2.dbs q).data = d2.data := hsame.1.1.trans e1
  refine ⟨n, tree, d1, ck, g3, by rw [hdata]; exact hgrow2.data, by rw [hsame.1.2.2, e3, hgrow2.reflog, hd1.reflog], ?_⟩
  rw [hdata]
  unfold Snap.commitTree at g4
  obtain ⟨o, d3, h7, h8⟩ := bind_ok g4
  simp only [SM.lift_apply, Prod.mk.injEq] at h7
  obtain ⟨_, rfl⟩ := h7
  rcases putObj_cases X.E.H o d1 with ⟨_, e⟩ | ⟨b, hb, e | e⟩
  · rw [e] at h8; simp at h8
  · rw [e] at h8; simp at h8
  · rw [e] at h8
    simp only [Prod.mk.injEq, Res.ok.injEq] at h8
    obtain ⟨rfl, rfl⟩ := h8
    rcases insertIgnore_cases d1.data (X.E.H b).asDbKey b with ⟨_, e⟩ | ⟨_, e⟩
    · exact .inl e
    · exact .inr ⟨b, e⟩

/-- **C90** for `commit`: after an earlier commit of the same or another directory, at any time before, a commit adds rows only for what has changed, and one for the commit itself, and
one entry in the log of the ref. -/
theorem C90_commit (X X' : Ctx) (hE : X'.E = X.E) (path path' : Option Path) (message message' : Bytes) (refname refname' : Option Bytes) (w w' : World) (hw : w.fs.Wf) (hw' : w'.fs.Wf)
    (R R' : Repo) (q : List Bytes) (h : Committed X (.commit path message refname) w R q) (hi : Inv X.E.H (w'.dbs q))
    (hsub : ∀ r ∈ ((mainRun X (.commit path message refname) w).2.2.dbs q).data, r ∈ (w'.dbs q).data)
    (h' : Committed X' (.commit path' message' refname') w' R' q) :
    let after := (mainRun X' (.commit path' message' refname') w').2.2.dbs q
    ∃ n, ∃ ck : Key, after.reflog = (w'.dbs q).reflog ++ [⟨n, none, ck.asDbKey⟩] ∧
      ∀ r ∈ after.data, r ∉ (w'.dbs q).data → r.1 = ck.asDbKey ∨
        ∃ rel, ¬ Spec.Unchanged X.E w.fs (makeFilter X.glob R.folder) (path.getD R.root) w'.fs (makeFilter X'.glob R'.folder) (path'.getD R'.root) rel ∧
          (Spec.FileRow X.E w'.fs (makeFilter X'.glob R'.folder) (path'.getD R'.root) rel r.1 ∨
            Spec.DirRow X.E w'.fs (makeFilter X'.glob R'.folder) (path'.getD R'.root) rel r.1) := by
  intro after
  obtain ⟨n, tree, d, ck, a1, a2, _, _⟩ := commit_rows h
  obtain ⟨n', tree', d', ck', b1, b2, b3, b4⟩ := commit_rows h'
  refine ⟨n', ck', b3, fun r hr hn => ?_⟩
  by_cases hm : r ∈ d'.data
  · rw [hE] at b1
    exact .inr (C90_new X.E w.fs w'.fs hw hw' _ _ _ _ _ _ _ d _ d' _ _ a1 hi (fun r hr => hsub r (a2.subset hr)) b1 r hm hn)
  · left
    rcases b4 with e | ⟨v, e⟩
    · exact absurd (e ▸ hr : r ∈ d'.data) hm
    · have hr' : r ∈ d'.data ++ [(ck'.asDbKey, v)] := e ▸ hr
      rcases List.mem_append.mp hr' with hr' | hr'
      · exact absurd hr' hm
      · rw [List.mem_singleton.mp hr']

/-- **C90**: a commit of a directory that is as it was in an earlier commit adds at most one row, that of the commit, and one entry in the log of the ref. -/
theorem C90_commit_again (X X' : Ctx) (hE : X'.E = X.E) (path path' : Option Path) (message message' : Bytes) (refname refname' : Option Bytes) (w w' : World) (hw : w.fs.Wf) (hw' : w'.fs.Wf)
    (R R' : Repo) (q : List Bytes) (h : Committed X (.commit path message refname) w R q) (hi : Inv X.E.H (w'.dbs q))
    (hsub : ∀ r ∈ ((mainRun X (.commit path message refname) w).2.2.dbs q).data, r ∈ (w'.dbs q).data)
    (h' : Committed X' (.commit path' message' refname') w' R' q)
    (hal : Alike X.E w.fs (makeFilter X.glob R.folder) (path.getD R.root) w'.fs (makeFilter X'.glob R'.folder) (path'.getD R'.root)) :
    let after := (mainRun X' (.commit path' message' refname') w').2.2.dbs q
    ∃ n, ∃ ck : Key, after.reflog = (w'.dbs q).reflog ++ [⟨n, none, ck.asDbKey⟩] ∧
      (after.data = (w'.dbs q).data ∨ ∃ v, after.data = (w'.dbs q).data ++ [(ck.asDbKey, v)]) := by
  intro after
  obtain ⟨n, tree, d, ck, a1, a2, _, _⟩ := commit_rows h
  obtain ⟨n', tree', d', ck', b1, b2, b3, b4⟩ := commit_rows h'
  rw [hE] at b1
  obtain ⟨rfl, e⟩ := C90_again X.E w.fs w'.fs hw hw' _ _ _ _ _ _ _ d _ d' _ _ hal a1 hi (fun r hr => hsub r (a2.subset hr)) b1
  rw [e] at b4
  exact ⟨n', ck', b3, b4⟩

end Snap.Props
