import Verif.Props.Tree
/-! Properties C32–C35 (walking trees, filters, equal trees, special files). -/
namespace Snap.Props
open Snap
set_option linter.unusedSectionVars false
variable [Serde] [LawfulSerde]

/-! ### C32 -/

/-- `b` is the directory flag of what is at `q`: a directory or a regular file. -/
def KindAt (fs : Fs) (q : List Bytes) (b : Bool) : Prop := (b = true ∧ fs.at q = some .dir) ∨ (b = false ∧ ∃ c, fs.content q = some c)

theorem isAt_kind {fs : Fs} {L : List Bytes} {x : Node} (h : x.isAt fs L) : KindAt fs (L ++ x.rel) x.content.isNone := by
  unfold Node.isAt at h
  split at h
  · rename_i c hc
    obtain ⟨md, h⟩ := h
    exact Or.inr ⟨by rw [hc]; rfl, c, content_some.mpr ⟨md, h⟩⟩
  · rename_i hc
    exact Or.inl ⟨by rw [hc]; rfl, h⟩

/-- What walking a listed directory gives. -/
theorem walkReal_listed {fs : Fs} (hw : fs.Wf) {filter : Filter} {n : Nat} {path : Path} {ns : List Node} (hl : Listed fs filter n path ns)
    (hd : fs.metadata path = .ok .dir) {fuel : Nat} (hf : n ≤ fuel) :
    walkReal fs filter fuel path = .ok ((ns.filter fun x => !(x.rel = [] ∧ x.content = none)).map fun x => (relPath x.rel, x.content.isNone)) := by
  have := walkRealFrom_listed hw (pre := []) (by simpa using hl) (by simp) (fun _ => hd) hf
  unfold walkReal
  refine (Eq.trans this ?_)
  simp only [entries, dropRootN, if_true, List.nil_append]

/-- The entries of the walk are exactly the visible files and directories below `path`. -/
theorem listed_entries {fs : Fs} (hw : fs.Wf) {filter : Filter} {n : Nat} {path : Path} {ns : List Node} (hl : Listed fs filter n path ns)
    (hd : fs.metadata path = .ok .dir) (p : Path) (b : Bool) :
    (p, b) ∈ ((ns.filter fun x => !(x.rel = [] ∧ x.content = none)).map fun x => (relPath x.rel, x.content.isNone)) ↔
      ∃ rel, rel ≠ [] ∧ p = relPath rel ∧ Visible fs filter path rel ∧ KindAt fs (loc fs.cwd path ++ rel) b := by
  obtain ⟨_, hat, _⟩ := metadata_ok hd
  constructor
  · intro h
    obtain ⟨x, hx, he⟩ := List.mem_map.mp h
    obtain ⟨hx, hr⟩ := List.mem_filter.mp hx
    obtain ⟨hv, ha⟩ := (hl.mem hw x).mp hx
    simp at he
    obtain ⟨rfl, rfl⟩ := he
    refine ⟨x.rel, ?_, rfl, hv, isAt_kind ha⟩
    intro h0
    unfold Node.isAt at ha
    rw [h0] at ha hr
    cases hc : x.content with
    | none => rw [hc] at hr; simp at hr
    | some c =>
      rw [hc] at ha
      obtain ⟨md, ha⟩ := ha
      rw [List.append_nil, hat] at ha; simp at ha
  · rintro ⟨rel, h0, rfl, hv, hk⟩
    rcases hk with ⟨rfl, ha⟩ | ⟨rfl, c, hc⟩
    · refine List.mem_map.mpr ⟨⟨rel, none⟩, List.mem_filter.mpr ⟨(hl.mem hw ⟨rel, none⟩).mpr ⟨hv, ha⟩, by simp [h0]⟩, rfl⟩
    · refine List.mem_map.mpr ⟨⟨rel, some c⟩, List.mem_filter.mpr ⟨(hl.mem hw ⟨rel, some c⟩).mpr ⟨hv, content_some.mp hc⟩, by simp⟩, rfl⟩

/-- What walking the stored tree gives. -/
theorem walkItems_stored {db : Db} {fs : Fs} (hw : fs.Wf) {E : Env} {filter : Filter} {n : Nat} {path : Path} {k : Key} {ps : List Pair}
    (hs : Snap.Stored db n k (ps.map (·.1))) (hl : Listed fs filter n path (ps.map (·.2))) (hpa : Paired E path ps) {fuel : Nat} (hf : n ≤ fuel) :
    walkItems db fuel k = .ok (((ps.map (·.1)).filter fun x => !(x.node.rel = [] ∧ x.node.content = none)).map fun x => (relPath x.node.rel, x.key, x.node.content.isNone)) := by
  have hrel : (ps.map (·.1)).map (fun x => x.node.rel) = (ps.map (·.2)).map Node.rel := by
    simp only [List.map_map]
    exact List.map_congr_left fun p hp => (hpa p hp).1
  have := walkItemsFrom_stored (pre := []) hs (by simp) (by
    intro x hx m hm
    obtain ⟨p, hp, rfl⟩ := List.mem_map.mp hx
    rw [(hpa p hp).1] at hm
    exact hl.okNames hw p.2 (List.mem_map_of_mem hp) m hm) (by rw [hrel]; exact hl.nodup hw) hf
  unfold walkItems
  refine Eq.trans this ?_
  simp only [entries, dropRoot, if_true, List.nil_append]
  rfl

theorem paired_isNone {E : Env} {path : Path} {ps : List Pair} (hpa : Paired E path ps) {p : Pair} (hp : p ∈ ps) : p.1.node.content.isNone = p.2.content.isNone := by
  have := (hpa p hp).2
  cases h1 : p.1.node.content <;> cases h2 : p.2.content <;> rw [h1, h2] at this <;> first | rfl | exact this.elim

/-- Both walks succeed and list the same paths with the same flags (even in the same order): exactly the visible files and directories, none twice. -/
theorem C32_same_listing (E : Env) (fs : Fs) (hw : fs.Wf) (filter : Filter) (n : Nat) (path : Path) (db db' later : Db) (k : Key)
    (hi : Inv E.H db) (hp : putFsItem E fs filter n path db = (.ok k, db')) (hc : NoColl E.H db') (hlater : db'.data <+: later.data)
    (hd : fs.metadata path = .ok .dir) (fuel : Nat) (hf : n ≤ fuel) :
    ∃ m m', walkItems later fuel k = .ok m ∧ walkReal fs filter fuel path = .ok m' ∧ m.map (fun e => (e.1, e.2.2)) = m' ∧
      (m'.map (·.1)).Nodup ∧
      ∀ p b, (p, b) ∈ m' ↔ ∃ rel, rel ≠ [] ∧ p = relPath rel ∧ Visible fs filter path rel ∧ KindAt fs (loc fs.cwd path ++ rel) b := by
  obtain ⟨ps, hst, hl, hpa⟩ := putFsItem_ok hi hp hc
  refine ⟨_, _, walkItems_stored hw (hst.mono hlater) hl hpa hf, walkReal_listed hw hl hd hf, ?_, ?_, listed_entries hw hl hd⟩
  · have hk : ∀ p ∈ ps, (decide (p.1.node.rel = [] ∧ p.1.node.content = none)) = decide (p.2.rel = [] ∧ p.2.content = none) := by
      intro p hp
      have h1 := (hpa p hp).1
      have h2 := paired_isNone hpa hp
      rw [h1]
      simp only [← Option.isNone_iff_eq_none, h2]
    clear hst hl hp
    induction ps with
    | nil => rfl
    | cons p ps ih =>
      have ih' := ih (fun x hx => hpa x (by simp [hx])) (fun x hx => hk x (by simp [hx]))
      simp only [List.map_cons, List.filter_cons]
      rw [hk p (by simp)]
      split
      · simp only [List.map_cons]
        rw [ih', (hpa p (by simp)).1, paired_isNone hpa (by simp)]
      · exact ih'
  · have h1 := hl.nodup hw
    rw [List.map_map]
    have h2 : ((((ps.map (·.2)).filter fun x => !(x.rel = [] ∧ x.content = none))).map Node.rel).Nodup := h1.sublist (List.Sublist.map _ List.filter_sublist)
    unfold List.Nodup at h2 ⊢
    rw [List.pairwise_map] at h2 ⊢
    refine h2.imp_of_mem ?_
    intro a b ha hb hab h
    have hok : ∀ x ∈ ps.map (·.2), ∀ m ∈ x.rel, okComp m := fun x hx m hm => (hl.okNames hw x hx m hm).comp
    exact hab (relPath_inj (hok a (List.mem_filter.mp ha).1) (hok b (List.mem_filter.mp hb).1) h)

/-- Every file of a stored tree is an item of its own. -/
theorem stored_file {db : Db} {n : Nat} {k : Key} {ns : List KNode} (hs : Snap.Stored db n k ns) {x : KNode} (hx : x ∈ ns) {c : Bytes} (hc : x.node.content = some c) :
    ∃ sz nm ck m, getItem db x.key = .ok ⟨sz, .file, nm, [ck]⟩ ∧ m ≤ 5 ∧ Den db m ck c := by
  induction n generalizing k ns x with
  | zero => exact hs.elim
  | succ n ih =>
    rcases hs with ⟨sz, nm, ck, c', m, h1, h2, h3, rfl⟩ | ⟨sz, es, _, rfl, h3⟩
    · simp at hx
      subst hx
      simp at hc
      subst hc
      exact ⟨sz, nm, ck, m, h1, h2, h3⟩
    · rcases List.mem_cons.mp hx with rfl | hx
      · simp at hc
      · obtain ⟨e, he, hx⟩ := List.mem_flatMap.mp hx
        obtain ⟨y, hy, rfl⟩ := List.mem_map.mp hx
        exact ih (x := y) (h3 e he) hy hc

theorem den_readsBack {db : Db} {m : Nat} {k : Key} {c : Bytes} (hm : m ≤ 5) (h : Den db m k c) : ReadsBack db k c := by
  intro fuel hf
  simpa using h.read fuel (by omega) []

/-- Every file is listed in the stored tree with the key `put_fs_item` gives it: a key under which its contents are. -/
theorem C32_file_keys (E : Env) (fs : Fs) (hw : fs.Wf) (filter : Filter) (n : Nat) (path : Path) (db db' later : Db) (k : Key)
    (hi : Inv E.H db) (hp : putFsItem E fs filter n path db = (.ok k, db')) (hc : NoColl E.H db') (hlater : db'.data <+: later.data)
    (rel : List Bytes) (c : Bytes) (hv : VisFile fs filter path rel c) (fuel : Nat) (hf : n ≤ fuel) :
    ∃ m kf, walkItems later fuel k = .ok m ∧ (relPath rel, kf, false) ∈ m ∧
      ∃ sz nm ck c', getItem later kf = .ok ⟨sz, .file, nm, [ck]⟩ ∧ ReadsBack later ck c' ∧ ReadBackAs E (joins path rel) c c' := by
  obtain ⟨ps, hst, hl, hpa⟩ := putFsItem_ok hi hp hc
  obtain ⟨md, ha⟩ := content_some.mp hv.2
  have hm := (hl.mem hw ⟨rel, some c⟩).mpr ⟨hv.1, md, ha⟩
  obtain ⟨p, hp, hpe⟩ := List.mem_map.mp hm
  obtain ⟨h1, h2⟩ := hpa p hp
  rw [hpe] at h1 h2
  cases hc : p.1.node.content with
  | none => rw [hc] at h2; exact h2.elim
  | some c' =>
    rw [hc] at h2
    obtain ⟨sz, nm, ck, m, g1, g2, g3⟩ := stored_file (hst.mono hlater) (List.mem_map.mpr ⟨p, hp, rfl⟩) hc
    refine ⟨_, p.1.key, walkItems_stored hw (hst.mono hlater) hl hpa hf, List.mem_map.mpr ⟨p.1, List.mem_filter.mpr ⟨List.mem_map.mpr ⟨p, hp, rfl⟩, ?_⟩, ?_⟩, sz, nm, ck, c', g1, den_readsBack g2 g3, h2⟩
    · simp [hc]
    · rw [h1, hc]; rfl

/-- On a regular file the two walks differ: the stored one lists the file under the empty path, the one over the file system fails. -/
theorem C32_single_file (fs : Fs) (filter : Filter) (path : Path) (fuel : Nat) (m : PMap Bool) (hw : fs.Wf) (hne : path ≠ [])
    (h : walkReal fs filter fuel path = .ok m) : fs.metadata path = .ok .dir := by
  exact (walkRealFrom_ok hw hne (pre := []) (by simp) h).2 rfl

/-- the example tree: both walks list `a` and the empty directory `e` -/
example : walkReal exFs (fun _ _ => .ok true) 3 [47, 115] = .ok [([97], false), ([101], true)] := by decide +kernel
example : (match putFsItem exEnv exFs (fun _ _ => .ok true) 3 [47, 115] {} with
    | (.ok k, db) => (@walkItems Subset.serde db 3 k).isOk && (match @walkItems Subset.serde db 3 k with | .ok m => m.map (fun e => (e.1, e.2.2)) == [([97], false), ([101], true)] | _ => false)
    | _ => false) = true := by
  decide +kernel

/-! ### C33 -/

theorem canonicalize_ok {fs : Fs} {p : Path} {q : List Bytes} : fs.canonicalize p = .ok q ↔ q = loc fs.cwd p ∧ ∃ e, fs.metadata p = .ok e := by
  constructor
  · intro h
    unfold Fs.canonicalize at h
    obtain ⟨x, h1, h2⟩ := Res.bind_eq_ok h
    have hx := locate_loc h1
    subst hx
    cases ha : fs.at (loc fs.cwd p) with
    | none => rw [ha] at h2; simp at h2
    | some e =>
      rw [ha] at h2
      cases e with
      | broken => simp at h2
      | dir => simp at h2; exact ⟨h2.symm, _, metadata_of h1 ha (by simp)⟩
      | special => simp at h2; exact ⟨h2.symm, _, metadata_of h1 ha (by simp)⟩
      | file c md => simp at h2; exact ⟨h2.symm, _, metadata_of h1 ha (by simp)⟩
  · rintro ⟨rfl, e, h⟩
    obtain ⟨h1, h2, h3⟩ := metadata_ok h
    unfold Fs.canonicalize
    rw [h1, Res.ok_bind, h2]
    cases e <;> first | rfl | exact absurd rfl h3

/-- What the filter of `make_filter_fn` accepts: existing paths outside the database folder that match no exclude pattern; on a path that does not exist it panics. -/
theorem makeFilter_spec (glob : Path → Bool) (dbPath : Path) (fs : Fs) (d : Ent) (hdb : fs.metadata dbPath = .ok d) (p : Path) :
    (makeFilter glob dbPath fs p = .ok true ↔ (∃ e, fs.metadata p = .ok e) ∧ ¬ loc fs.cwd dbPath <+: loc fs.cwd p ∧ glob (stripDot p) = false) ∧
    (makeFilter glob dbPath fs p = .panic ↔ ¬ ∃ e, fs.metadata p = .ok e) ∧ (makeFilter glob dbPath fs p = .panic ∨ ∃ b, makeFilter glob dbPath fs p = .ok b) := by
  have h1 : fs.canonicalize dbPath = .ok (loc fs.cwd dbPath) := canonicalize_ok.mpr ⟨rfl, d, hdb⟩
  unfold makeFilter
  by_cases he : ∃ e, fs.metadata p = .ok e
  · have h2 : fs.canonicalize p = .ok (loc fs.cwd p) := canonicalize_ok.mpr ⟨rfl, he⟩
    rw [h1, h2]
    simp only [Res.unwrap, Res.ok_bind, List.isPrefixOf_iff_prefix, he, true_and, not_true, iff_false]
    split
    · rename_i h; simp [h]
    · rename_i h; simp [h]
  · have h2 : (fs.canonicalize p).unwrap = .panic := by
      cases hc : fs.canonicalize p with
      | ok q => exact absurd (canonicalize_ok.mp hc).2 he
      | err e => rfl
      | panic => rfl
      | fuel =>
        exfalso
        unfold Fs.canonicalize at hc
        cases hlo : fs.locate p with
        | ok q =>
          rw [hlo, Res.ok_bind] at hc
          cases ha : fs.at q with
          | none => rw [ha] at hc; simp at hc
          | some e => rw [ha] at hc; cases e <;> simp at hc
        | err e => rw [hlo] at hc; simp at hc
        | panic => rw [hlo] at hc; simp at hc
        | fuel =>
          unfold Fs.locate at hlo
          split at hlo
          · simp at hlo
          · split at hlo
            · simp at hlo
            · have : ∀ (l : List Bytes) (cur : List Bytes), fs.walk cur l ≠ .fuel := by
                intro l
                induction l with
                | nil => intro cur; simp [Fs.walk]
                | cons s l ih =>
                  intro cur
                  unfold Fs.walk
                  cases ha : fs.at cur with
                  | none => simp
                  | some e =>
                    cases e with
                    | dir => exact ih _
                    | file _ _ => simp
                    | special => simp
                    | broken => simp
              exact this _ _ hlo
    rw [h2]
    simp [he]


/-- An entry of the tree at `path` exists under its joined path. -/
theorem metadata_joins {fs : Fs} (hw : fs.Wf) {path : Path} (hl : fs.locate path = .ok (loc fs.cwd path)) {rel : List Bytes} {e : Ent}
    (ha : fs.at (loc fs.cwd path ++ rel) = some e) (hb : e ≠ .broken) : fs.metadata (joins path rel) = .ok e := by
  induction rel generalizing path with
  | nil => simp at ha; exact metadata_of hl ha hb
  | cons n r ih =>
    have hd : fs.at (loc fs.cwd path) = some .dir := hw.above (r := n :: r) (by simp) (by rw [ha]; simp)
    have hne : fs.at (loc fs.cwd path ++ [n]) ≠ none := by
      by_cases hr : r = []
      · subst hr; rw [ha]; simp
      · rw [hw.above (r := r) hr (by simp [ha])]; simp
    have hn := hw.okNames (mem_names.mpr hne)
    refine ih (path := Path.join path n) ?_ ?_
    · rw [locate_join_ok hn hl hd, loc_join _ _ hn]
    · rw [loc_join _ _ hn]; simpa using ha

theorem okName_rel {fs : Fs} (hw : fs.Wf) {q rel : List Bytes} (ha : fs.at (q ++ rel) ≠ none) : ∀ m ∈ rel, okName m := by
  induction rel generalizing q with
  | nil => simp
  | cons n r ih =>
    have h2 : fs.at ((q ++ [n]) ++ r) ≠ none := by simpa using ha
    have hne : fs.at (q ++ [n]) ≠ none := by
      by_cases hr : r = []
      · subst hr; simpa using h2
      · rw [hw.above hr h2]; simp
    intro m hm
    rcases List.mem_cons.mp hm with rfl | hm
    · exact hw.okNames (mem_names.mpr hne)
    · exact ih h2 m hm

/-- The paths of the stored tree are exactly the entries below `path` that the filter accepts together with everything on the way to them. -/
theorem C33_stored_iff_accepted (E : Env) (fs : Fs) (hw : fs.Wf) (filter : Filter) (n : Nat) (path : Path) (db db' later : Db) (k : Key)
    (hi : Inv E.H db) (hp : putFsItem E fs filter n path db = (.ok k, db')) (hc : NoColl E.H db') (hlater : db'.data <+: later.data)
    (hd : fs.metadata path = .ok .dir) (fuel : Nat) (hf : n ≤ fuel) :
    ∃ m, walkItems later fuel k = .ok m ∧ ∀ p, (∃ v, (p, v) ∈ m) ↔
      ∃ rel, rel ≠ [] ∧ p = relPath rel ∧ fs.at (loc fs.cwd path ++ rel) ≠ none ∧ ∀ r, r ≠ [] → r <+: rel → filter fs (joins path r) = .ok true := by
  obtain ⟨ps, hst, hl, hpa⟩ := putFsItem_ok hi hp hc
  obtain ⟨m, m', h1, h2, h3, h4, h5⟩ := C32_same_listing E fs hw filter n path db db' later k hi hp hc hlater hd fuel hf
  refine ⟨m, h1, fun p => ⟨?_, ?_⟩⟩
  · rintro ⟨⟨kk, b⟩, hv⟩
    have : (p, b) ∈ m' := by rw [← h3]; exact List.mem_map.mpr ⟨_, hv, rfl⟩
    obtain ⟨rel, g1, g2, g3, g4⟩ := (h5 p b).mp this
    refine ⟨rel, g1, g2, ?_, g3⟩
    rcases g4 with ⟨_, ha⟩ | ⟨_, c, ha⟩
    · rw [ha]; simp
    · obtain ⟨md, ha⟩ := content_some.mp ha; rw [ha]; simp
  · rintro ⟨rel, g1, g2, g3, g4⟩
    have : ∃ b, (p, b) ∈ m' := by
      cases ha : fs.at (loc fs.cwd path ++ rel) with
      | none => exact absurd ha g3
      | some e =>
        rcases hl.complete hw g4 ha with rfl | ⟨c, md, rfl⟩
        · exact ⟨true, (h5 p _).mpr ⟨rel, g1, g2, g4, Or.inl ⟨rfl, ha⟩⟩⟩
        · exact ⟨false, (h5 p _).mpr ⟨rel, g1, g2, g4, Or.inr ⟨rfl, c, content_some.mpr ⟨md, ha⟩⟩⟩⟩
    obtain ⟨b, hb⟩ := this
    rw [← h3] at hb
    obtain ⟨e, he, hee⟩ := List.mem_map.mp hb
    simp at hee
    exact ⟨e.2, by rw [← hee.1]; exact he⟩

/-- With the filter of `make_filter_fn`: an existing entry is stored iff neither it nor anything on the way to it is the database folder, inside it, or matched
by an exclude pattern. -/
theorem C33_make_filter (fs : Fs) (hw : fs.Wf) (glob : Path → Bool) (dbPath : Path) (d : Ent) (hdb : fs.metadata dbPath = .ok d)
    (path : Path) (hm : fs.metadata path = .ok .dir) (rel : List Bytes) (e : Ent) (ha : fs.at (loc fs.cwd path ++ rel) = some e) (he : e ≠ .broken) :
    Visible fs (makeFilter glob dbPath) path rel ↔
      ∀ r, r ≠ [] → r <+: rel → ¬ loc fs.cwd dbPath <+: loc fs.cwd path ++ r ∧ glob (stripDot (joins path r)) = false := by
  obtain ⟨hl, _, _⟩ := metadata_ok hm
  have hok := okName_rel hw (q := loc fs.cwd path) (rel := rel) (by rw [ha]; simp)
  have hex : ∀ r, r <+: rel → ∃ e, fs.metadata (joins path r) = .ok e := by
    rintro r ⟨t, rfl⟩
    by_cases ht : t = []
    · subst ht; exact ⟨e, metadata_joins hw hl (by simpa using ha) he⟩
    · exact ⟨.dir, metadata_joins hw hl (hw.above (r := t) ht (by simp [ha])) (by simp)⟩
  constructor
  · intro hv r h0 hr
    obtain ⟨h1, h2, h3⟩ := ((makeFilter_spec glob dbPath fs d hdb _).1).mp (hv r h0 hr)
    rw [loc_joins _ _ (fun x hx => hok x (hr.subset hx))] at h2
    exact ⟨h2, h3⟩
  · intro h r h0 hr
    obtain ⟨h2, h3⟩ := h r h0 hr
    refine ((makeFilter_spec glob dbPath fs d hdb _).1).mpr ⟨hex r hr, ?_, h3⟩
    rw [loc_joins _ _ (fun x hx => hok x (hr.subset hx))]
    exact h2

/-- Nothing in the stored tree is the database folder or inside it, and nothing is, or is below, something that matches an exclude pattern. -/
theorem C33_never_stored (E : Env) (fs : Fs) (hw : fs.Wf) (glob : Path → Bool) (dbPath : Path) (d : Ent) (hdb : fs.metadata dbPath = .ok d)
    (n : Nat) (path : Path) (db db' later : Db) (k : Key)
    (hi : Inv E.H db) (hp : putFsItem E fs (makeFilter glob dbPath) n path db = (.ok k, db')) (hc : NoColl E.H db') (hlater : db'.data <+: later.data)
    (hd : fs.metadata path = .ok .dir) (fuel : Nat) (hf : n ≤ fuel) :
    ∃ m, walkItems later fuel k = .ok m ∧ ∀ p v, (p, v) ∈ m → ∃ rel, p = relPath rel ∧ ¬ loc fs.cwd dbPath <+: loc fs.cwd path ++ rel ∧
      ∀ r, r ≠ [] → r <+: rel → glob (stripDot (joins path r)) = false := by
  obtain ⟨m, h1, h2⟩ := C33_stored_iff_accepted E fs hw _ n path db db' later k hi hp hc hlater hd fuel hf
  refine ⟨m, h1, fun p v hv => ?_⟩
  obtain ⟨rel, g1, g2, g3, g4⟩ := (h2 p).mp ⟨v, hv⟩
  obtain ⟨ps, hst, hl, hpa⟩ := putFsItem_ok hi hp hc
  cases ha : fs.at (loc fs.cwd path ++ rel) with
  | none => exact absurd ha g3
  | some e =>
    have he : e ≠ .broken := by
      rcases hl.complete hw g4 ha with rfl | ⟨c, md, rfl⟩ <;> simp
    have := (C33_make_filter fs hw glob dbPath d hdb path hd rel e ha he).mp g4
    exact ⟨rel, g2, (this rel g1 (List.prefix_refl _)).1, fun r hr hpr => (this r hr hpr).2⟩

theorem stripDot_dot {r : List Bytes} (h0 : r ≠ []) (h : ∀ m ∈ r, okComp m) : stripDot (joins sDot r) = relPath r := by
  have hc : Path.comps (joins sDot r) = sDot :: r := by
    unfold joins; rw [comps_foldl_join h, comps_dot]; rfl
  unfold stripDot Path.startsWith
  rw [hc, show Path.comps [46, 47] = [sDot] by decide]
  simp only [List.isPrefixOf, beq_self_eq_true, Bool.true_and, if_true, List.drop_succ_cons, List.drop_zero]
  conv => lhs; rw [← comps_relPath h]
  exact norm_relPath h

/-- For the directory `.`, exclude patterns see the path relative to it; for any path that does not begin with `.`, they see that path joined with the entry: with
an absolute path, absolute ones. -/
theorem C33_what_patterns_see (path : Path) (r : List Bytes) (h0 : r ≠ []) (h : ∀ m ∈ r, okComp m) :
    (path = sDot → stripDot (joins path r) = relPath r) ∧ (path.comps.head? ≠ some sDot → path ≠ [] → stripDot (joins path r) = joins path r) := by
  refine ⟨by rintro rfl; exact stripDot_dot h0 h, fun hh hn => ?_⟩
  unfold stripDot Path.startsWith
  rw [show Path.comps [46, 47] = [sDot] by decide]
  split
  · rename_i hp
    exfalso
    have hc : Path.comps (joins path r) = path.comps ++ r := by unfold joins; rw [comps_foldl_join h]
    rw [hc] at hp
    cases hpc : path.comps with
    | nil =>
      rw [hpc] at hp
      cases r with
      | nil => exact h0 rfl
      | cons x r =>
        simp [List.isPrefixOf] at hp
        exact (h x (by simp)).2.1 hp.symm
    | cons c cs =>
      rw [hpc] at hp hh
      simp [List.isPrefixOf] at hp hh
      exact hh hp.symm
  · rfl

/-- `/s` has the database folder `d` and files `a`, `x`; `x` is excluded when the directory is given as `.`, but not when it is given as `/s` -/
def exFsDb : Fs := { ents := [([[115]], .dir), ([[115], [100]], .dir), ([[115], [100], [97]], .file [] ⟨1, 1⟩), ([[115], [97]], .file [1, 2] ⟨7, 8⟩), ([[115], [120]], .file [3] ⟨9, 8⟩)], cwd := [[115]] }
theorem exFsDb_wf : exFsDb.Wf := wf_of_list (by decide) (by decide) (by decide) (by decide)
example : exFsDb.metadata [100] = .ok .dir := by decide +kernel
example : walkReal exFsDb (makeFilter (fun p => p == [120]) [100]) 3 sDot = .ok [([97], false)] := by decide +kernel
example : walkReal exFsDb (makeFilter (fun p => p == [120]) [100]) 3 [47, 115] = .ok [([97], false), ([120], false)] := by decide +kernel
example : (putFsItem exEnv exFsDb (makeFilter (fun p => p == [120]) [100]) 3 sDot {}).1.isOk = true := by decide +kernel

/-! ### C34 -/

/-- What is at a location, without inode and times. -/
def Fs.shape (fs : Fs) (q : List Bytes) : Option (Option Bytes) :=
  match fs.at q with
  | some .dir => some none
  | some (.file c _) => some (some c)
  | _ => none

/-- The visible parts of two directories are equal: same kinds and contents, and every directory lists its accepted entries in the same order. -/
structure Alike (E : Env) (fs : Fs) (filter : Filter) (path : Path) (fs' : Fs) (filter' : Filter) (path' : Path) : Prop where
  shapes : ∀ rel, Visible fs filter path rel → Visible fs' filter' path' rel → Fs.shape fs (loc fs.cwd path ++ rel) = Fs.shape fs' (loc fs'.cwd path' ++ rel)
  order : ∀ rel, Visible fs filter path rel → Visible fs' filter' path' rel →
    (fs.names (loc fs.cwd path ++ rel)).filter (fun m => filter fs (joins path (rel ++ [m])) == .ok true) =
      (fs'.names (loc fs'.cwd path' ++ rel)).filter (fun m => filter' fs' (joins path' (rel ++ [m])) == .ok true)
  reads : ∀ rel c, E.rd (joins path rel) c = E.rd (joins path' rel) c

theorem isPuts_same {α} {H : Bytes → Key} {x : M α} (h : IsPuts H x) {db db' d d' : Db} {a b : α} (h1 : x db = (.ok a, d)) (h2 : x db' = (.ok b, d')) : a = b := by
  obtain ⟨ws, r, hx⟩ := h
  rw [hx] at h1 h2
  have e1 := execPuts_result H ws r db
  have e2 := execPuts_result H ws r db'
  rw [h1] at e1
  rw [h2] at e2
  simp at e1 e2
  rw [← e1] at e2
  simpa using e2.symm

theorem putEntries_run {fs : Fs} {filter : Filter} {rec : Path → M Key} {path : Path} {l : List Bytes} {db db' : Db} {r : List (Bytes × Key)}
    (h : putEntries fs filter rec path l db = (.ok r, db')) :
    r.map (·.1) = l.filter (fun m => filter fs (Path.join path m) == .ok true) ∧ ∀ e ∈ r, ∃ d d', rec (Path.join path e.1) d = (.ok e.2, d') := by
  induction l generalizing db r with
  | nil =>
    unfold putEntries at h
    obtain ⟨rfl, rfl⟩ : r = [] ∧ db = db' := by
      have h' : ((Res.ok [] : Res (List (Bytes × Key))), db) = (.ok r, db') := h
      simp at h'
      exact ⟨h'.1.symm ▸ rfl, h'.2⟩
    simp
  | cons x l ih =>
    unfold putEntries at h
    obtain ⟨b, d1, h1, h2⟩ := bind_ok h
    simp only [SM.lift_apply, Prod.mk.injEq] at h1
    obtain ⟨h1, rfl⟩ := h1
    cases b with
    | false =>
      obtain ⟨g1, g2⟩ := ih h2
      refine ⟨?_, g2⟩
      rw [g1, List.filter_cons, if_neg (by rw [h1]; decide)]
    | true =>
      simp only [if_true] at h2
      obtain ⟨k, d2, h3, h4⟩ := bind_ok h2
      obtain ⟨r', d3, h5, h6⟩ := bind_ok h4
      have h6' : ((Res.ok ((x, k) :: r') : Res (List (Bytes × Key))), d3) = (.ok r, db') := h6
      simp at h6'
      obtain ⟨rfl, rfl⟩ := h6'
      obtain ⟨g1, g2⟩ := ih h5
      refine ⟨?_, ?_⟩
      · rw [List.map_cons, g1, List.filter_cons, if_pos (by rw [h1]; decide)]
      · intro e he
        rcases List.mem_cons.mp he with rfl | he
        · exact ⟨_, _, h3⟩
        · exact g2 e he

theorem pairs_eq {α β} {r r' : List (α × β)} (h : r.map (·.1) = r'.map (·.1)) (hv : ∀ a b b', (a, b) ∈ r → (a, b') ∈ r' → b = b') : r = r' := by
  induction r generalizing r' with
  | nil => cases r' with
    | nil => rfl
    | cons _ _ => simp at h
  | cons x r ih => cases r' with
    | nil => simp at h
    | cons y r' =>
      simp at h
      have hxy : x = y := by
        obtain ⟨a, b⟩ := x
        obtain ⟨a', b'⟩ := y
        obtain ⟨rfl, _⟩ := h
        rw [hv a b b' (by simp) (by simp)]
      subst hxy
      rw [ih h.2 fun a b b' h1 h2 => hv a b b' (by simp [h1]) (by simp [h2])]

/-- Equal directories get equal keys: whatever was stored before, wherever the directories are, whatever their hidden parts, inodes and times. -/
theorem C34_equal_keys (E : Env) (fs fs' : Fs) (hw : fs.Wf) (hw' : fs'.Wf) (filter filter' : Filter) (n n' : Nat) (path path' : Path)
    (hal : Alike E fs filter path fs' filter' path') (db d db' d' : Db) (k k' : Key)
    (hp : putFsItem E fs filter n path db = (.ok k, d)) (hp' : putFsItem E fs' filter' n' path' db' = (.ok k', d')) : k = k' := by
  induction n generalizing n' path path' db d db' d' k k' with
  | zero => unfold putFsItem at hp; simp [SM.lift_apply] at hp
  | succ n ih =>
    cases n' with
    | zero => unfold putFsItem at hp'; simp [SM.lift_apply] at hp'
    | succ n' =>
    unfold putFsItem at hp hp'
    obtain ⟨e, d1, h1, h2⟩ := bind_ok hp
    obtain ⟨e', d1', h1', h2'⟩ := bind_ok hp'
    simp only [SM.lift_apply, Prod.mk.injEq] at h1 h1'
    obtain ⟨h1, rfl⟩ := h1
    obtain ⟨h1', rfl⟩ := h1'
    obtain ⟨hl, ha, _⟩ := metadata_ok h1
    obtain ⟨hl', ha', _⟩ := metadata_ok h1'
    have hs := hal.shapes [] (visible_nil _ _ _) (visible_nil _ _ _)
    unfold Fs.shape at hs
    simp only [List.append_nil, ha, ha'] at hs
    cases e with
    | special => simp [SM.panic] at h2
    | broken => simp [SM.panic] at h2
    | file c md =>
      cases e' with
      | special => simp at hs
      | broken => simp at hs
      | dir => simp at hs
      | file c' md' =>
        simp at hs
        subst hs
        simp only at h2 h2'
        have hr : putFile E path c = putFile E path' c := by
          unfold putFile; rw [show E.rd path c = E.rd path' c from hal.reads [] c]
        rw [hr] at h2
        exact isPuts_same (isPuts_putFile E path' c) h2 h2'
    | dir =>
      cases e' with
      | special => simp at hs
      | broken => simp at hs
      | file c' md' => simp at hs
      | dir =>
        simp only at h2 h2'
        obtain ⟨l, d2, h3, h4⟩ := bind_ok h2
        obtain ⟨l', d2', h3', h4'⟩ := bind_ok h2'
        simp only [SM.lift_apply, Prod.mk.injEq] at h3 h3'
        obtain ⟨h3, rfl⟩ := h3
        obtain ⟨h3', rfl⟩ := h3'
        obtain ⟨_, _, rfl⟩ := readDir_ok h3
        obtain ⟨_, _, rfl⟩ := readDir_ok h3'
        obtain ⟨r, d3, h5, h6⟩ := bind_ok h4
        obtain ⟨r', d3', h5', h6'⟩ := bind_ok h4'
        obtain ⟨g1, g2⟩ := putEntries_run h5
        obtain ⟨g1', g2'⟩ := putEntries_run h5'
        have ho := hal.order [] (visible_nil _ _ _) (visible_nil _ _ _)
        simp only [List.append_nil, List.nil_append, joins_cons, joins_nil] at ho
        have hrr : r = r' := by
          refine pairs_eq (by rw [g1, g1', ho]) ?_
          intro m k k' hm hm'
          have hmem : m ∈ r.map (·.1) := List.mem_map_of_mem hm
          have hmem' : m ∈ r'.map (·.1) := List.mem_map_of_mem hm'
          rw [g1] at hmem
          rw [g1'] at hmem'
          obtain ⟨n1, f1⟩ := List.mem_filter.mp hmem
          obtain ⟨n1', f1'⟩ := List.mem_filter.mp hmem'
          have hok := hw.okNames n1
          obtain ⟨_, _, q1⟩ := g2 _ hm
          obtain ⟨_, _, q1'⟩ := g2' _ hm'
          have f2 : filter fs (Path.join path m) = .ok true := by simpa using f1
          have f2' : filter' fs' (Path.join path' m) = .ok true := by simpa using f1'
          refine ih n' (Path.join path m) (Path.join path' m) ⟨?_, ?_, ?_⟩ _ _ _ _ _ _ q1 q1'
          · intro rel hv hv'
            have := hal.shapes (m :: rel) (visible_cons.mpr ⟨f2, hv⟩) (visible_cons.mpr ⟨f2', hv'⟩)
            rw [loc_join _ _ hok, loc_join _ _ hok]
            simpa using this
          · intro rel hv hv'
            have := hal.order (m :: rel) (visible_cons.mpr ⟨f2, hv⟩) (visible_cons.mpr ⟨f2', hv'⟩)
            rw [loc_join _ _ hok, loc_join _ _ hok]
            simpa using this
          · intro rel c
            simpa using hal.reads (m :: rel) c
        subst hrr
        exact isPuts_same (isPuts_bind (isPuts_lift E.H _) fun o => isPuts_putObj E.H o) h6 h6'


/-- two directories at different places, with different inodes and times and different hidden entries, that are alike -/
def exFs2 : Fs := { ents := [([[116]], .dir), ([[116], [104]], .special), ([[116], [97]], .file [1, 2] ⟨1, 2⟩), ([[116], [101]], .dir)] }
example : (match putFsItem exEnv exFs (fun _ _ => .ok true) 3 [47, 115] {}, putFsItem exEnv exFs2 (fun _ p => .ok (p != [47, 116, 47, 104])) 3 [47, 116] {} with
    | (.ok k, _), (.ok k', _) => k == k'
    | _, _ => false) = true := by decide +kernel

def exAB : Fs := { ents := [([[115]], .dir), ([[115], [97]], .file [] ⟨7, 8⟩), ([[115], [98]], .file [] ⟨7, 8⟩)] }
def exBA : Fs := { ents := [([[115]], .dir), ([[115], [98]], .file [] ⟨7, 8⟩), ([[115], [97]], .file [] ⟨7, 8⟩)] }
theorem exAB_wf : exAB.Wf := wf_of_list (by decide) (by decide) (by decide) (by decide)
theorem exBA_wf : exBA.Wf := wf_of_list (by decide) (by decide) (by decide) (by decide)

/-- The listing order changes the key: two file systems with the same entries (in different order) give different keys, for every hash function, as long as
no two of the byte strings hashed in the two runs have the same hash. -/
theorem C34_order_counterexample (H : Bytes → Key) (table : UInt8 → BitVec 64) : ∃ fs fs' : Fs, fs.Wf ∧ fs'.Wf ∧ fs.cwd = fs'.cwd ∧ (∀ q, fs.at q = fs'.at q) ∧
    ∃ k k' db db', putFsItem ⟨H, table, fun _ c => [.data c]⟩ fs (fun _ _ => .ok true) 2 [47, 115] {} = (.ok k, db) ∧
      putFsItem ⟨H, table, fun _ c => [.data c]⟩ fs' (fun _ _ => .ok true) 2 [47, 115] db = (.ok k', db') ∧ (NoColl H db' → k ≠ k') := by
  refine ⟨exAB, exBA, exAB_wf, exBA_wf, rfl, ?_, ?_⟩
  · intro q
    unfold Fs.at exAB exBA
    by_cases h0 : q = []
    · simp [h0]
    · by_cases h1 : q = [[115]]
      · subst h1; rfl
      · by_cases h2 : q = [[115], [97]]
        · subst h2; rfl
        · by_cases h3 : q = [[115], [98]]
          · subst h3; rfl
          · have e1 : ([[115]] == q) = false := by simpa using fun h => h1 h.symm
            have e2 : ([[115], [97]] == q) = false := by simpa using fun h => h2 h.symm
            have e3 : ([[115], [98]] == q) = false := by simpa using fun h => h3 h.symm
            simp [List.find?, e1, e2, e3]
  · have hput : ∀ fs : Fs, fs = exAB ∨ fs = exBA → ∀ db : Db, db.faults = [] →
        ∃ k db', putFsItem ⟨H, table, fun _ c => [.data c]⟩ fs (fun _ _ => .ok true) 2 [47, 115] db = (.ok k, db') ∧ db'.faults = [] := by
      intro fs hfs db hf
      have hw : fs.Wf := by
        rcases hfs with rfl | rfl
        · exact exAB_wf
        · exact exBA_wf
      have hl : Listed fs (fun _ _ => .ok true) 2 [47, 115]
          (⟨[], none⟩ :: (if fs.names [[115]] = [[97], [98]] then [⟨[[97]], some []⟩, ⟨[[98]], some []⟩] else [⟨[[98]], some []⟩, ⟨[[97]], some []⟩])) := by
        rcases hfs with rfl | rfl
        · refine Or.inr ⟨by decide +kernel, [[97], [98]], by decide +kernel, [([97], [⟨[], some []⟩]), ([98], [⟨[], some []⟩])], ?_, by decide +kernel, ?_⟩
          · exact Or.inl ⟨rfl, _, rfl, Or.inl ⟨rfl, _, rfl, rfl⟩⟩
          · intro e he
            simp at he
            rcases he with rfl | rfl <;> exact Or.inl ⟨[], ⟨7, 8⟩, by decide +kernel, rfl⟩
        · refine Or.inr ⟨by decide +kernel, [[98], [97]], by decide +kernel, [([98], [⟨[], some []⟩]), ([97], [⟨[], some []⟩])], ?_, by decide +kernel, ?_⟩
          · exact Or.inl ⟨rfl, _, rfl, Or.inl ⟨rfl, _, rfl, rfl⟩⟩
          · intro e he
            simp at he
            rcases he with rfl | rfl <;> exact Or.inl ⟨[], ⟨7, 8⟩, by decide +kernel, rfl⟩
      have hst : Storables ⟨H, table, fun _ c => [.data c]⟩ fs [47, 115]
          (⟨[], none⟩ :: (if fs.names [[115]] = [[97], [98]] then [⟨[[97]], some []⟩, ⟨[[98]], some []⟩] else [⟨[[98]], some []⟩, ⟨[[97]], some []⟩])) := by
        have hm : ∀ x ∈ ((⟨[], none⟩ :: (if fs.names [[115]] = [[97], [98]] then [⟨[[97]], some []⟩, ⟨[[98]], some []⟩] else [⟨[[98]], some []⟩, ⟨[[97]], some []⟩])) : List Node),
            x = ⟨[], none⟩ ∨ x = ⟨[[97]], some []⟩ ∨ x = ⟨[[98]], some []⟩ := by
          intro x hx
          split at hx <;> simp at hx <;> rcases hx with h | h | h <;> simp [h]
        refine ⟨?_, ?_, ?_⟩
        · intro x hx c hc
          rcases hm x hx with rfl | rfl | rfl <;> simp at hc <;> subst hc <;> simp [Spec.readFails, Spec.delivered]
        · intro x hx m hm'
          rcases hm x hx with rfl | rfl | rfl <;> simp at hm' <;> subst hm' <;> decide
        · intro x hx hc
          rcases hm x hx with rfl | rfl | rfl <;> simp at hc
          rcases hfs with rfl | rfl <;> decide +kernel
      obtain ⟨k, db', h1, h2, _⟩ := putFsItem_tot hw hl hst db hf
      exact ⟨k, db', h1, h2⟩
    obtain ⟨k, db1, h1, h1f⟩ := hput exAB (Or.inl rfl) {} rfl
    obtain ⟨k', db2, h2, _⟩ := hput exBA (Or.inr rfl) db1 h1f
    refine ⟨k, k', db1, db2, h1, h2, fun hc hkk => ?_⟩
    subst hkk
    have g1 := (isPuts_putFsItem ⟨H, table, fun _ c => [.data c]⟩ exAB (fun _ _ => .ok true) 2 [47, 115]).grow {}
    rw [h1] at g1
    have g2 := (isPuts_putFsItem ⟨H, table, fun _ c => [.data c]⟩ exBA (fun _ _ => .ok true) 2 [47, 115]).grow db1
    rw [h2] at g2
    have hi0 : Inv H {} := inv_empty H []
    obtain ⟨m, m', a1, a2, a3, _⟩ := C32_same_listing _ exAB exAB_wf _ 2 _ _ _ db2 k hi0 h1 (hc.mono g2.hashed) g2.data (by decide +kernel) 2 (Nat.le_refl _)
    obtain ⟨n, n', b1, b2, b3, _⟩ := C32_same_listing _ exBA exBA_wf _ 2 _ _ _ db2 k (g1.inv hi0) h2 hc (List.prefix_refl _) (by decide +kernel) 2 (Nat.le_refl _)
    rw [a1] at b1
    simp at b1
    subst b1
    rw [a3] at b3
    subst b3
    rw [show walkReal exAB (fun _ _ => .ok true) 2 [47, 115] = .ok [([97], false), ([98], false)] by decide +kernel] at a2
    rw [show walkReal exBA (fun _ _ => .ok true) 2 [47, 115] = .ok [([98], false), ([97], false)] by decide +kernel] at b2
    rw [← b2] at a2
    simp at a2

/-! ### C35 -/

theorem putFsItem_listed {E : Env} {fs : Fs} {filter : Filter} {n : Nat} {path : Path} {db db' : Db} {k : Key}
    (hp : putFsItem E fs filter n path db = (.ok k, db')) : ∃ ns, Listed fs filter n path ns := by
  induction n generalizing path db db' k with
  | zero => simp [putFsItem] at hp
  | succ n ih =>
    unfold putFsItem at hp
    obtain ⟨e, db1, h1, h2⟩ := bind_ok hp
    simp only [SM.lift_apply, Prod.mk.injEq] at h1
    obtain ⟨h1, rfl⟩ := h1
    cases e with
    | special => simp [SM.panic] at h2
    | broken => simp [SM.panic] at h2
    | file c md => exact ⟨_, Or.inl ⟨c, md, h1, rfl⟩⟩
    | dir =>
      obtain ⟨all, db2, h3, h4⟩ := bind_ok h2
      simp only [SM.lift_apply, Prod.mk.injEq] at h3
      obtain ⟨h3, rfl⟩ := h3
      obtain ⟨r, db3, h5, h6⟩ := bind_ok h4
      have key : ∀ (l : List Bytes) (d d' : Db) (r : List (Bytes × Key)), putEntries fs filter (putFsItem E fs filter n) path l d = (.ok r, d') →
          ∃ es : List (Bytes × List Node), acceptAll fs filter path l (es.map (·.1)) ∧ ∀ e ∈ es, Listed fs filter n (Path.join path e.1) e.2 := by
        intro l
        induction l with
        | nil => intro d d' r _; exact ⟨[], rfl, by simp⟩
        | cons x l ihl =>
          intro d d' r h
          unfold putEntries at h
          obtain ⟨b, d1, g1, g2⟩ := bind_ok h
          simp only [SM.lift_apply, Prod.mk.injEq] at g1
          obtain ⟨g1, rfl⟩ := g1
          cases b with
          | false =>
            obtain ⟨es, e1, e2⟩ := ihl _ _ _ g2
            exact ⟨es, Or.inr ⟨g1, e1⟩, e2⟩
          | true =>
            simp only [if_true] at g2
            obtain ⟨k, d2, g3, g4⟩ := bind_ok g2
            obtain ⟨r', d3, g5, g6⟩ := bind_ok g4
            obtain ⟨ns, hns⟩ := ih g3
            obtain ⟨es, e1, e2⟩ := ihl _ _ _ g5
            refine ⟨(x, ns) :: es, Or.inl ⟨g1, _, rfl, e1⟩, ?_⟩
            intro e he
            rcases List.mem_cons.mp he with rfl | he
            · exact hns
            · exact e2 e he
      obtain ⟨es, e1, e2⟩ := key _ _ _ _ h5
      exact ⟨_, Or.inr ⟨h1, all, h3, es, e1, rfl, e2⟩⟩

/-- Something accepted that is neither a regular file nor a directory (a fifo, a socket, a device, a dangling link): no key is returned. -/
theorem C35_put_no_key (E : Env) (fs : Fs) (hw : fs.Wf) (filter : Filter) (n : Nat) (path : Path) (rel : List Bytes) (e : Ent)
    (hv : Visible fs filter path rel) (ha : fs.at (loc fs.cwd path ++ rel) = some e) (he : e = .special ∨ e = .broken)
    (db db' : Db) (k : Key) : putFsItem E fs filter n path db ≠ (.ok k, db') := by
  intro h
  obtain ⟨ns, hns⟩ := putFsItem_listed h
  rcases hns.complete hw hv ha with rfl | ⟨c, md, rfl⟩ <;> simp at he

/-- … and walking the directory gives no listing. -/
theorem C35_walk_no_listing (fs : Fs) (hw : fs.Wf) (filter : Filter) (n : Nat) (path : Path) (rel : List Bytes) (e : Ent)
    (hv : Visible fs filter path rel) (ha : fs.at (loc fs.cwd path ++ rel) = some e) (he : e = .special ∨ e = .broken)
    (m : PMap Bool) : walkReal fs filter n path ≠ .ok m := by
  intro h
  have hb : path ≠ [] := by
    rintro rfl
    unfold walkReal at h
    cases n with
    | zero => simp [walkRealFrom] at h
    | succ n =>
      unfold walkRealFrom at h
      obtain ⟨x, h1, _⟩ := Res.bind_eq_ok h
      simp [Fs.metadata, Fs.locate, Path.join, Path.isAbs] at h1
  obtain ⟨⟨ns, hns⟩, _⟩ := walkRealFrom_ok hw hb (pre := []) (by simp) h
  rcases hns.complete hw hv ha with rfl | ⟨c, md, rfl⟩ <;> simp at he

/-- A value or an error: no panic, and the depth bound was not hit. -/
def Ends {α} (r : Res α) : Prop := (∃ a, r = .ok a) ∨ ∃ e, r = .err e

theorem Ends.bind {α β} {r : Res α} {f : α → Res β} (h : Ends r) (hf : ∀ a, r = .ok a → Ends (f a)) : Ends (r >>= f) := by
  rcases h with ⟨a, rfl⟩ | ⟨e, rfl⟩
  · exact hf a rfl
  · exact Or.inr ⟨e, rfl⟩

theorem ends_walk (fs : Fs) (cur l : List Bytes) : Ends (fs.walk cur l) := by
  induction l generalizing cur with
  | nil => exact Or.inl ⟨_, rfl⟩
  | cons s l ih =>
    unfold Fs.walk
    cases fs.at cur with
    | none => exact Or.inr ⟨_, rfl⟩
    | some e =>
      cases e with
      | dir => exact ih _
      | _ => exact Or.inr ⟨_, rfl⟩

theorem ends_locate (fs : Fs) (p : Path) : Ends (fs.locate p) := by
  unfold Fs.locate
  split
  · exact Or.inr ⟨_, rfl⟩
  · split
    · exact Or.inr ⟨_, rfl⟩
    · exact ends_walk _ _ _

theorem ends_metadata (fs : Fs) (p : Path) : Ends (fs.metadata p) := by
  refine (ends_locate fs p).bind fun q _ => ?_
  split <;> first | exact Or.inr ⟨_, rfl⟩ | exact Or.inl ⟨_, rfl⟩

theorem ends_readDir (fs : Fs) (p : Path) : Ends (fs.readDir p) := by
  refine (ends_locate fs p).bind fun q _ => ?_
  split <;> first | exact Or.inr ⟨_, rfl⟩ | exact Or.inl ⟨_, rfl⟩

theorem loc_currOf {fs : Fs} {base : Path} (hb : base ≠ []) {pre : List Bytes} (hp : ∀ m ∈ pre, okName m) {e : Ent} (h : fs.metadata (currOf base pre) = .ok e) :
    loc fs.cwd (currOf base pre) = loc fs.cwd base ++ pre := by
  by_cases h0 : pre = []
  · subst h0
    obtain ⟨hl, ha, _⟩ := metadata_ok h
    have hl' : fs.locate (Path.join base []) = .ok (loc fs.cwd (currOf base [])) := hl
    obtain ⟨b1, _⟩ := locate_of_join_empty hb hl' ha
    rw [List.append_nil]; exact locate_loc b1
  · rw [currOf_ne (fun m hm => (hp m hm).comp) h0, loc_joins _ _ hp]

theorem ends_walkRealFrom {fs : Fs} (hw : fs.Wf) {filter : Filter} {base : Path} (hb : base ≠ []) (hf : ∀ p, ∃ b, filter fs p = .ok b) {n : Nat} {pre : List Bytes}
    (hp : ∀ m ∈ pre, okName m) (hex : fs.at (loc fs.cwd base ++ pre) ≠ none) (hn : ∀ r, fs.at (loc fs.cwd base ++ pre ++ r) ≠ none → r.length < n) :
    Ends (walkRealFrom fs filter base n (relPath pre)) := by
  induction n generalizing pre with
  | zero => exact absurd (hn [] (by simpa using hex)) (by simp)
  | succ n ih =>
    unfold walkRealFrom
    refine (ends_metadata _ _).bind fun e he => ?_
    cases e with
    | file c md => exact Or.inl ⟨_, rfl⟩
    | special => exact Or.inr ⟨_, rfl⟩
    | broken => exact Or.inr ⟨_, rfl⟩
    | dir =>
      simp only
      refine (ends_readDir _ _).bind fun names hnm => ?_
      obtain ⟨_, _, rfl⟩ := readDir_ok hnm
      have hloc := loc_currOf hb hp he
      unfold currOf at hloc
      rw [hloc]
      have key : ∀ (l : List Bytes) (m : PMap Bool), (∀ x ∈ l, x ∈ fs.names (loc fs.cwd base ++ pre)) →
          Ends (walkRealEntries fs filter (walkRealFrom fs filter base n) (Path.join base (relPath pre)) (relPath pre) m l) := by
        intro l
        induction l with
        | nil => intro m _; exact Or.inl ⟨_, rfl⟩
        | cons x l ihl =>
          intro m hx
          unfold walkRealEntries
          obtain ⟨b, hb'⟩ := hf (Path.join (Path.join base (relPath pre)) x)
          rw [hb', Res.ok_bind]
          cases b with
          | false => exact ihl m fun y hy => hx y (by simp [hy])
          | true =>
            simp only [if_true]
            have hxn := hx x (by simp)
            have hxa := mem_names.mp hxn
            rw [← relPath_snoc]
            refine (ih (pre := pre ++ [x]) ?_ (by simpa using hxa) ?_).bind fun r _ => ihl _ fun y hy => hx y (by simp [hy])
            · intro y hy
              rcases List.mem_append.mp hy with hy | hy
              · exact hp y hy
              · simp at hy; subst hy; exact hw.okNames hxn
            · intro r hr
              have := hn (x :: r) (by simpa using hr)
              simpa using this
      exact key _ _ fun _ h => h

/-- The walk never panics by itself and ends: with a filter that answers and the depth of the tree as bound, it gives a listing or an error. -/
theorem C35_walk_is_error (fs : Fs) (hw : fs.Wf) (filter : Filter) (n : Nat) (path : Path) (rel : List Bytes) (e : Ent)
    (hv : Visible fs filter path rel) (ha : fs.at (loc fs.cwd path ++ rel) = some e) (he : e = .special ∨ e = .broken)
    (hf : ∀ p, ∃ b, filter fs p = .ok b) (hn : ∀ r, fs.at (loc fs.cwd path ++ r) ≠ none → r.length < n) :
    ∃ x, walkReal fs filter n path = .err x := by
  have hex : fs.at (loc fs.cwd path) ≠ none := by
    by_cases hr : rel = []
    · subst hr; rw [List.append_nil] at ha; rw [ha]; simp
    · rw [hw.above hr (by rw [ha]; simp)]; simp
  have hends : Ends (walkReal fs filter n path) := by
    by_cases hb : path = []
    · subst hb
      unfold walkReal
      cases n with
      | zero => exact absurd (hn [] (by simpa using hex)) (by simp)
      | succ n =>
        unfold walkRealFrom
        exact Or.inr ⟨.enoent, rfl⟩
    · exact ends_walkRealFrom hw hb hf (pre := []) (by simp) (by simpa using hex) (by simpa using hn)
  rcases hends with ⟨m, hm⟩ | h
  · exact absurd hm (C35_walk_no_listing fs hw filter n path rel e hv ha he m)
  · exact h

/-- a directory with a fifo -/
example : exFs2.at (loc exFs2.cwd [47, 116] ++ [[104]]) = some .special := by decide +kernel
example : walkReal exFs2 (fun _ _ => .ok true) 3 [47, 116] = .err .unimplementedFileType := by decide +kernel
example : (putFsItem exEnv exFs2 (fun _ _ => .ok true) 3 [47, 116] {}).1 = .panic := by decide +kernel

end Snap.Props
