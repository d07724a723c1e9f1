import Verif.Props.Diff
/-! C34, the converse: a key determines the tree it was made from. -/
namespace Snap.Props
open Snap
set_option linter.unusedSectionVars false
variable [Serde] [LawfulSerde]

theorem acceptAll_eq {fs : Fs} {filter : Filter} {path : Path} {all acc : List Bytes} (h : acceptAll fs filter path all acc) :
    acc = all.filter fun m => filter fs (Path.join path m) == .ok true := by
  induction all generalizing acc with
  | nil => cases h; rfl
  | cons x all ih =>
    rcases h with ⟨h1, acc', rfl, h2⟩ | ⟨h1, h2⟩
    · rw [List.filter_cons, if_pos (by rw [h1]; decide), ih h2]
    · rw [List.filter_cons, if_neg (by rw [h1]; decide), ih h2]

/-- The name of `r` in the directory `rel`, if it lies directly in it. -/
def childName (rel r : List Bytes) : Option Bytes := if r ≠ [] ∧ r.dropLast = rel then r.getLast? else none

theorem childName_cons (y : Bytes) (rel : List Bytes) (x : Bytes) (r : List Bytes) : childName (y :: rel) (x :: r) = if x = y then childName rel r else none := by
  cases r with
  | nil => simp [childName]
  | cons z r => by_cases h : x = y <;> simp [childName, h, List.getLast?_cons]

theorem childName_nil (x : Bytes) (r : List Bytes) : childName [] (x :: r) = if r = [] then some x else none := by
  cases r with
  | nil => simp [childName]
  | cons z r => simp [childName]

theorem Listed.own {fs : Fs} {filter : Filter} {n : Nat} {path : Path} {ns : List Node} (h : Listed fs filter n path ns) :
    ∃ c l, ns = ⟨[], c⟩ :: l ∧ ∀ x ∈ l, x.rel ≠ [] := by
  cases n with
  | zero => exact absurd h (by simp [Listed])
  | succ n =>
    rcases h with ⟨c, md, h1, rfl⟩ | ⟨h1, all, h2, es, h3, rfl, h4⟩
    · exact ⟨_, [], rfl, by simp⟩
    · refine ⟨_, _, rfl, ?_⟩
      intro x hx
      obtain ⟨e, he, hx⟩ := List.mem_flatMap.mp hx
      obtain ⟨y, hy, rfl⟩ := List.mem_map.mp hx
      simp

theorem names_empty {fs : Fs} (hw : fs.Wf) {q : List Bytes} (h : fs.at q ≠ some .dir) : fs.names q = [] := by
  cases hn : fs.names q with
  | nil => rfl
  | cons m l =>
    have : m ∈ fs.names q := by rw [hn]; simp
    exact absurd (hw.parents q m (mem_names.mp this)) h

/-- The accepted names in each directory, in their order. -/
theorem Listed.order {fs : Fs} (hw : fs.Wf) {filter : Filter} {n : Nat} {path : Path} {ns : List Node} (h : Listed fs filter n path ns) {rel : List Bytes}
    (hv : Visible fs filter path rel) :
    (fs.names (loc fs.cwd path ++ rel)).filter (fun m => filter fs (joins path (rel ++ [m])) == .ok true) = (ns.map Node.rel).filterMap (childName rel) := by
  induction n generalizing path ns rel with
  | zero => exact absurd h (by simp [Listed])
  | succ n ih =>
    rcases h with ⟨c, md, h1, rfl⟩ | ⟨h1, all, h2, es, h3, rfl, h4⟩
    · obtain ⟨hl, ha', _⟩ := metadata_ok h1
      rw [names_empty hw]
      · simp [childName]
      · intro hd
        cases rel with
        | nil => rw [List.append_nil, ha'] at hd; simp at hd
        | cons y r =>
          have := hw.above (q := loc fs.cwd path) (r := y :: r) (by simp) (by rw [hd]; simp)
          rw [ha'] at this; simp at this
    · obtain ⟨hl, hd, rfl⟩ := readDir_ok h2
      have hnames : (fs.names (loc fs.cwd path)).filter (fun m => filter fs (Path.join path m) == .ok true) = es.map (·.1) := (acceptAll_eq h3).symm
      have hfm : ∀ (g : List Bytes → Option Bytes), g [] = none → ((⟨[], none⟩ :: es.flatMap (fun e => e.2.map (Node.under e.1)) : List Node).map Node.rel).filterMap g =
          es.flatMap fun e => (e.2.map Node.rel).filterMap fun r => g (e.1 :: r) := by
        intro g hg
        rw [List.map_cons, List.filterMap_cons, hg]
        simp only [List.map_flatMap, List.filterMap_flatMap, List.map_map, List.filterMap_map]
        rfl
      rw [hfm _ (by simp [childName])]
      cases rel with
      | nil =>
        simp only [List.append_nil, List.nil_append]
        have : (fun m => filter fs (joins path [m]) == .ok true) = fun m => filter fs (Path.join path m) == .ok true := rfl
        rw [this, hnames]
        clear hnames h3 h2
        induction es with
        | nil => rfl
        | cons e es ihe =>
          rw [List.map_cons, List.flatMap_cons, ← ihe (fun x hx => h4 x (by simp [hx])) (by
            intro g hg
            rw [List.map_cons, List.filterMap_cons, hg]
            simp only [List.map_flatMap, List.filterMap_flatMap, List.map_map, List.filterMap_map]
            rfl)]
          obtain ⟨c, l, hl1, hl2⟩ := Listed.own (h4 e (by simp))
          rw [hl1, List.map_cons, List.filterMap_cons, childName_nil, if_pos rfl]
          have : (l.map Node.rel).filterMap (fun r => childName [] (e.1 :: r)) = [] := by
            rw [List.filterMap_eq_nil_iff]
            intro r hr
            obtain ⟨x, hx, rfl⟩ := List.mem_map.mp hr
            rw [childName_nil, if_neg (hl2 x hx)]
          rw [this]
          rfl
      | cons y r =>
        obtain ⟨hv1, hv2⟩ := visible_cons.mp hv
        simp only [childName_cons]
        have hnd : (es.map (·.1)).Nodup := (names_nodup hw.nodup _).sublist (acceptAll_sublist h3)
        by_cases hy : y ∈ es.map (·.1)
        · obtain ⟨e, he, rfl⟩ := List.mem_map.mp hy
          have hok : okName e.1 := hw.okNames ((acceptAll_mem h3 e.1).mp hy).1
          have := ih (h4 e he) hv2
          rw [loc_join _ _ hok] at this
          have e1 : loc fs.cwd path ++ e.1 :: r = loc fs.cwd path ++ [e.1] ++ r := by simp
          rw [e1]
          have e2 : (fun m => filter fs (joins path (e.1 :: r ++ [m])) == .ok true) = fun m => filter fs (joins (Path.join path e.1) (r ++ [m])) == .ok true := rfl
          rw [e2, this]
          clear this e1 e2 hfm hnames h3 h2 ih h4 hy hv hv1 hv2
          induction es with
          | nil => simp at he
          | cons x es ihe =>
            rw [List.map_cons, List.nodup_cons] at hnd
            rw [List.flatMap_cons]
            rcases List.mem_cons.mp he with rfl | he
            · have : es.flatMap (fun x => (x.2.map Node.rel).filterMap fun r' => if x.1 = e.1 then childName r r' else none) = [] := by
                rw [List.flatMap_eq_nil_iff]
                intro z hz
                have hne : ¬ z.1 = e.1 := fun h => hnd.1 (h ▸ List.mem_map_of_mem hz)
                simp [hne]
              rw [this, List.append_nil]
              simp
            · have hne : ¬ x.1 = e.1 := fun h => hnd.1 (h ▸ List.mem_map_of_mem he)
              simp only [hne, if_false]
              rw [← ihe hnd.2 he]
              simp
        · rw [List.flatMap_eq_nil_iff.mpr]
          · rw [names_empty hw]
            · simp
            · intro hd'
              apply hy
              have e1 : loc fs.cwd path ++ y :: r = loc fs.cwd path ++ [y] ++ r := by simp
              rw [e1] at hd'
              have hne' : fs.at (loc fs.cwd path ++ [y]) ≠ none := by
                by_cases hr : r = []
                · subst hr; simp at hd'; rw [hd']; simp
                · rw [hw.above hr (by rw [hd']; simp)]; simp
              exact (acceptAll_mem h3 y).mpr ⟨mem_names.mpr hne', hv1⟩
          · intro e he
            have hne : ¬ e.1 = y := fun h => hy (h ▸ List.mem_map_of_mem he)
            simp [hne]

/-- `put_fs_item` gave the key `k`, and what it stored is in the store. -/
structure PutIn (E : Env) (db : Db) (k : Key) (fs : Fs) (filter : Filter) (n : Nat) (path : Path) : Prop where
  wf : fs.Wf
  put : ∃ d d', Inv E.H d ∧ putFsItem E fs filter n path d = (.ok k, d') ∧ NoColl E.H d' ∧ d'.data <+: db.data
  read : ∀ rel c, VisFile fs filter path rel c → FullyRead E (joins path rel) c

theorem PutIn.nodes {E : Env} {db : Db} {k : Key} {fs : Fs} {filter : Filter} {n : Nat} {path : Path} (h : PutIn E db k fs filter n path) :
    ∃ ks ns, Snap.Stored db n k ks ∧ Listed fs filter n path ns ∧ ns = ks.map KNode.node := by
  obtain ⟨d, d', hi, hp, hc, hd⟩ := h.put
  obtain ⟨ps, hst, hl, hpa, _⟩ := putFsItem_made hi hp hc
  refine ⟨_, _, hst.mono hd, hl, ?_⟩
  rw [List.map_map]
  refine List.map_congr_left fun p hp => ?_
  obtain ⟨h1, h2⟩ := hpa p hp
  have hm := (hl.mem h.wf p.2).mp (List.mem_map_of_mem hp)
  obtain ⟨⟨⟨r, c⟩, kk⟩, ⟨r', c'⟩⟩ := p
  simp only at h1 h2 hm
  subst h1
  cases c with
  | none => cases c' with
    | none => rfl
    | some _ => exact h2.elim
  | some c => cases c' with
    | none => exact h2.elim
    | some c' =>
      have : VisFile fs filter path r c' := ⟨hm.1, content_some.mpr hm.2⟩
      have hr := h.read _ _ this
      have := readBackAs_exact (h2 : ReadBackAs E (joins path r) c' c) hr.1 (Or.inl ⟨hr.2.2.1, hr.2.2.2⟩)
      simp [this]

/-- **C34**, the converse: in one store without collisions, two directories (or files) with the same key have the same visible files with the same contents, the same visible
directories, and list them in the same order. -/
theorem C34_same_key (E : Env) (db : Db) (k : Key) (fs fs' : Fs) (filter filter' : Filter) (n n' : Nat) (path path' : Path) (h : PutIn E db k fs filter n path)
    (h' : PutIn E db k fs' filter' n' path') :
    (∀ rel c, VisFile fs filter path rel c ↔ VisFile fs' filter' path' rel c) ∧
    (∀ rel, Visible fs filter path rel ∧ fs.at (loc fs.cwd path ++ rel) = some .dir ↔ Visible fs' filter' path' rel ∧ fs'.at (loc fs'.cwd path' ++ rel) = some .dir) ∧
    ∀ rel, Visible fs filter path rel → Visible fs' filter' path' rel →
      (fs.names (loc fs.cwd path ++ rel)).filter (fun m => filter fs (joins path (rel ++ [m])) == .ok true) =
        (fs'.names (loc fs'.cwd path' ++ rel)).filter (fun m => filter' fs' (joins path' (rel ++ [m])) == .ok true) := by
  obtain ⟨ks, ns, a1, a2, a3⟩ := h.nodes
  obtain ⟨ks', ns', b1, b2, b3⟩ := h'.nodes
  have := stored_unique a1 b1
  subst this
  rw [← a3] at b3
  subst b3
  refine ⟨fun rel c => ?_, fun rel => ?_, fun rel hv hv' => ?_⟩
  · have e1 := a2.mem h.wf ⟨rel, some c⟩
    have e2 := b2.mem h'.wf ⟨rel, some c⟩
    unfold VisFile
    rw [content_some, content_some]
    exact e1.symm.trans e2
  · exact (a2.mem h.wf ⟨rel, none⟩).symm.trans (b2.mem h'.wf ⟨rel, none⟩)
  · rw [Listed.order h.wf a2 hv, Listed.order h'.wf b2 hv']

/-- **C34**: so two directories in one store have the same key iff their visible parts are equal. -/
theorem C34_iff (E : Env) (db : Db) (k k' : Key) (fs fs' : Fs) (filter filter' : Filter) (n n' : Nat) (path path' : Path) (h : PutIn E db k fs filter n path)
    (h' : PutIn E db k' fs' filter' n' path') (hreads : ∀ rel c, E.rd (joins path rel) c = E.rd (joins path' rel) c) :
    k = k' ↔ Alike E fs filter path fs' filter' path' := by
  constructor
  · rintro rfl
    obtain ⟨h1, h2, h3⟩ := C34_same_key E db k fs fs' filter filter' n n' path path' h h'
    refine ⟨fun rel hv hv' => ?_, h3, hreads⟩
    have h1 := fun c => (h1 rel c)
    have h2 := h2 rel
    unfold VisFile at h1
    simp only [hv, hv', true_and, content_some] at h1 h2
    unfold Fs.shape
    generalize fs.at (loc fs.cwd path ++ rel) = x at h1 h2
    generalize fs'.at (loc fs'.cwd path' ++ rel) = y at h1 h2
    rcases x with _ | (_ | ⟨c, md⟩ | _ | _) <;> rcases y with _ | (_ | ⟨c', md'⟩ | _ | _) <;> simp_all
  · intro hal
    obtain ⟨d, d', _, hp, _, _⟩ := h.put
    obtain ⟨e, e', _, hp', _, _⟩ := h'.put
    exact C34_equal_keys E fs fs' h.wf h'.wf filter filter' n n' path path' hal _ _ _ _ k k' hp hp'

end Snap.Props
