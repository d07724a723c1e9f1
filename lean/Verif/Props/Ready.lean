import Verif.Props.Settle
import Verif.Props.PanicCheckout
/-! Property C86: when `checkout` ends well. -/
namespace Snap.Props
open Snap
set_option linter.unusedSectionVars false
variable [Serde] [LawfulSerde]

/-- What must be there for a checkout of `k` to the directory at `L`: each directory of the stored tree is a directory, without dangling links in it; at the place of each
file is nothing or a file. -/
structure Spec.Ready (db : Db) (k : Key) (a : AtFn) (L : List Bytes) : Prop where
  dirs : ∀ rel, Comes db k rel true → a (L ++ rel) = some .dir ∧ ∀ m, a (L ++ rel ++ [m]) ≠ some .broken
  files : ∀ rel, Comes db k rel false → a (L ++ rel) = none ∨ ∃ c md, a (L ++ rel) = some (.file c md)

/-- The same, for the nodes of a tree. -/
structure ReadyNodes (a : AtFn) (L : List Bytes) (ns : List KNode) : Prop where
  dirs : ∀ x ∈ ns, x.node.content = none → a (L ++ x.node.rel) = some .dir ∧ ∀ m, a (L ++ x.node.rel ++ [m]) ≠ some .broken
  files : ∀ x ∈ ns, x.node.content ≠ none → a (L ++ x.node.rel) = none ∨ ∃ c md, a (L ++ x.node.rel) = some (.file c md)

theorem ReadyNodes.congr {a b : AtFn} {L : List Bytes} {ns : List KNode} (h : ReadyNodes a L ns) (hab : ∀ q, L <+: q → b q = a q) : ReadyNodes b L ns := by
  refine ⟨fun x hx hc => ?_, fun x hx hc => ?_⟩
  · obtain ⟨h1, h2⟩ := h.dirs x hx hc
    refine ⟨by rw [hab _ (List.prefix_append _ _)]; exact h1, fun m => ?_⟩
    rw [hab _ (by rw [List.append_assoc]; exact List.prefix_append _ _)]
    exact h2 m
  · rw [hab _ (List.prefix_append _ _)]
    exact h.files x hx hc

theorem readyNodes_dir {a : AtFn} {L : List Bytes} {k : Key} {es : List (Bytes × Key × List KNode)} :
    ReadyNodes a L (⟨⟨[], none⟩, k⟩ :: es.flatMap fun e => e.2.2.map (KNode.under e.1)) ↔
      a L = some .dir ∧ (∀ m, a (L ++ [m]) ≠ some .broken) ∧ ∀ e ∈ es, ReadyNodes a (L ++ [e.1]) e.2.2 := by
  constructor
  · intro h
    have h0 := h.dirs _ List.mem_cons_self rfl
    simp only [List.append_nil] at h0
    refine ⟨h0.1, h0.2, fun e he => ⟨fun x hx hc => ?_, fun x hx hc => ?_⟩⟩
    · have := h.dirs (x.under e.1) (mem_under he hx) (by simpa using hc)
      simpa using this
    · have := h.files (x.under e.1) (mem_under he hx) (by simpa using hc)
      simpa using this
  · rintro ⟨h1, h2, h3⟩
    refine ⟨fun x hx hc => ?_, fun x hx hc => ?_⟩
    · rcases List.mem_cons.mp hx with rfl | hx
      · simp only [List.append_nil]; exact ⟨h1, h2⟩
      · obtain ⟨e, he, hy⟩ := List.mem_flatMap.mp hx
        obtain ⟨z, hz, rfl⟩ := List.mem_map.mp hy
        have := (h3 e he).dirs z hz (by simpa using hc)
        simpa using this
    · rcases List.mem_cons.mp hx with rfl | hx
      · exact absurd rfl hc
      · obtain ⟨e, he, hy⟩ := List.mem_flatMap.mp hx
        obtain ⟨z, hz, rfl⟩ := List.mem_map.mp hy
        have := (h3 e he).files z hz (by simpa using hc)
        simpa using this

/-- The paths of a stored tree are the paths of its nodes. -/
theorem stored_comes {db : Db} {n : Nat} {k : Key} {ns : List KNode} (hs : Snap.Stored db n k ns) (rel : List Bytes) (d : Bool) :
    Comes db k rel d ↔ ∃ x ∈ ns, x.node.rel = rel ∧ (x.node.content = none ↔ d = true) := by
  induction n generalizing k ns rel with
  | zero => exact hs.elim
  | succ n ih =>
    rcases hs with ⟨sz, nm, ck, c, m, h1, h2, h3, rfl⟩ | ⟨sz, es, h1, rfl, h3⟩
    · constructor
      · intro h
        cases h with
        | here hi =>
          rw [h1] at hi
          simp at hi
          subst hi
          exact ⟨_, List.mem_cons_self, rfl, by simp⟩
        | down hi hty => rw [h1] at hi; simp at hi; subst hi; simp at hty
      · rintro ⟨x, hx, rfl, hd⟩
        simp at hx
        subst hx
        have := Comes.here h1
        cases d with
        | false => exact this
        | true => simp at hd
    · constructor
      · intro h
        cases h with
        | here hi =>
          rw [h1] at hi
          simp at hi
          subst hi
          exact ⟨_, List.mem_cons_self, rfl, by simp⟩
        | down hi hty hc hr =>
          rw [h1] at hi
          simp at hi
          subst hi
          rw [zip_map] at hc
          obtain ⟨e, he, heq⟩ := List.mem_map.mp hc
          simp at heq
          obtain ⟨rfl, rfl⟩ := heq
          obtain ⟨x, hx, hxr, hxd⟩ := (ih (h3 e he) _).mp hr
          exact ⟨x.under e.1, mem_under he hx, by simp [hxr], by simpa using hxd⟩
      · rintro ⟨x, hx, rfl, hd⟩
        rcases List.mem_cons.mp hx with rfl | hx
        · have := Comes.here h1
          cases d with
          | true => exact this
          | false => simp at hd
        · obtain ⟨e, he, hy⟩ := List.mem_flatMap.mp hx
          obtain ⟨z, hz, rfl⟩ := List.mem_map.mp hy
          have := (ih (h3 e he) _).mpr ⟨z, hz, rfl, by simpa using hd⟩
          show Comes db k (e.1 :: z.node.rel) d
          exact .down h1 rfl (by rw [zip_map]; exact List.mem_map.mpr ⟨e, he, rfl⟩) this

theorem stored_ready {db : Db} {n : Nat} {k : Key} {ns : List KNode} (hs : Snap.Stored db n k ns) {a : AtFn} {L : List Bytes} : Spec.Ready db k a L ↔ ReadyNodes a L ns := by
  constructor
  · intro h
    exact ⟨fun x hx hc => h.dirs _ ((stored_comes hs _ _).mpr ⟨x, hx, rfl, by simp [hc]⟩), fun x hx hc => h.files _ ((stored_comes hs _ _).mpr ⟨x, hx, rfl, by simp [hc]⟩)⟩
  · intro h
    refine ⟨fun rel hr => ?_, fun rel hr => ?_⟩
    · obtain ⟨x, hx, rfl, hd⟩ := (stored_comes hs _ _).mp hr
      exact h.dirs x hx (by simpa using hd)
    · obtain ⟨x, hx, rfl, hd⟩ := (stored_comes hs _ _).mp hr
      exact h.files x hx (by simpa using hd)

/-! ## What happens to calls on a tree that is ready -/

theorem walk_dropTrailing {fs : Fs} {cur q : List Bytes} {l : List Bytes} (h : fs.walk cur l = .ok q) : fs.walk cur (dropTrailing l) = .ok q := by
  induction l generalizing cur with
  | nil => exact h
  | cons s l ih =>
    unfold Fs.walk at h
    split at h
    · rename_i hd
      have := ih h
      unfold dropTrailing
      cases hdt : dropTrailing l with
      | nil =>
        rw [hdt] at this
        simp only
        split
        · rename_i h0
          subst h0
          simpa using this
        · unfold Fs.walk; rw [hd]; exact this
      | cons b r =>
        rw [hdt] at this
        simp only
        unfold Fs.walk
        rw [hd]
        exact this
    · simp at h
    · simp at h
    · simp at h

/-- `create_dir_all` on a directory that is there. -/
theorem createDirAll_there {fs : Fs} (hf : fs.faults = []) {p : Path} (hl : fs.locate p = .ok (loc fs.cwd p)) (hd : fs.at (loc fs.cwd p) = some .dir) : Fs.createDirAll p fs = (.ok (), fs) := by
  have hm : Fs.mkdir p fs = (.err .io, fs) := by
    unfold Fs.mkdir
    refine (call_nofault hf).trans ?_
    unfold Fs.locate at hl
    split at hl
    · simp at hl
    · rename_i h0
      split at hl
      · simp at hl
      · rename_i h1
        rw [if_neg h0, if_neg h1, walk_dropTrailing hl]
        simp only [hd]
  unfold Fs.createDirAll Fs.createDirAllN
  split
  · rfl
  · rw [hm]
    simp only [isDir_of hl hd, if_true]

theorem removeExtra_done {fs : Fs} (hf : fs.faults = []) {path : Path} (hg : Path.startsWith path sGuard = true) {n : Bytes} (hn : okName n) (hl : fs.locate path = .ok (loc fs.cwd path))
    (hd : fs.at (loc fs.cwd path) = some .dir) (h1 : fs.at (loc fs.cwd path ++ [n]) ≠ none) (h2 : fs.at (loc fs.cwd path ++ [n]) ≠ some .broken) :
    ∃ fs', removeExtra path n fs = (.ok (), fs') ∧ fs'.faults = [] := by
  have hj := loc_join fs.cwd path hn
  have hl' := locate_join_ok hn hl hd
  cases ha : fs.at (loc fs.cwd path ++ [n]) with
  | none => exact absurd ha h1
  | some e =>
    have hm : fs.metadata (Path.join path n) = .ok e := metadata_of hl' (by rw [hj]; exact ha) (by rintro rfl; exact h2 ha)
    unfold removeExtra
    rw [if_pos hg]
    simp only [SM.bind_apply, SM.read_apply, hm]
    cases e with
    | dir =>
      refine ⟨Fs.prune (loc fs.cwd path ++ [n]) fs, ?_, hf⟩
      simp only
      unfold Fs.removeDirAll
      rw [hl', hj]
      refine (call_nofault hf).trans ?_
      rw [if_pos (by unfold Fs.isDirAt; rw [ha]; rfl)]
    | file c md =>
      refine ⟨{ fs with ents := fs.ents.filter fun e => e.1 ≠ loc fs.cwd path ++ [n] }, ?_, hf⟩
      simp only
      unfold Fs.removeFile
      refine (call_nofault hf).trans ?_
      rw [hl', hj]
      simp only [ha]
    | special => exact ⟨fs, rfl, hf⟩
    | broken => exact absurd ha h2

theorem create_done {fs : Fs} (hf : fs.faults = []) {p : Path} (hl : fs.locate p = .ok (loc fs.cwd p)) (hn : p.lastIsName = true)
    (h : fs.at (loc fs.cwd p) = none ∨ ∃ c md, fs.at (loc fs.cwd p) = some (.file c md)) : ∃ fs', Fs.create p fs = (.ok (loc fs.cwd p), fs') ∧ fs'.faults = [] := by
  rcases h with h | ⟨c, md, h⟩
  · refine ⟨{ fs.set (loc fs.cwd p) (.file [] fs.nextMeta) with metas := fs.metas.tail }, (call_nofault hf).trans ?_, hf⟩
    rw [hl]
    simp only [hn, if_true, h]
  · refine ⟨{ fs.set (loc fs.cwd p) (.file [] ⟨md.ino, fs.nextMeta.mtime⟩) with metas := fs.metas.tail }, (call_nofault hf).trans ?_, hf⟩
    rw [hl]
    simp only [hn, if_true, h]

theorem acceptedNames_all {fs : Fs} {filter : Filter} {path : Path} {l : List Bytes} (h : ∀ n ∈ l, ∃ b, filter fs (Path.join path n) = .ok b) : ∃ r, acceptedNames fs filter path l = .ok r ∧ r.Sublist l := by
  induction l with
  | nil => exact ⟨[], rfl, List.Sublist.refl _⟩
  | cons x l ih =>
    obtain ⟨b, hb⟩ := h x (by simp)
    obtain ⟨r, hr, hs⟩ := ih fun n hn => h n (by simp [hn])
    refine ⟨if b then x :: r else r, ?_, ?_⟩
    · unfold acceptedNames
      rw [hb, Res.ok_bind, hr, Res.ok_bind]; rfl
    · cases b with
      | true => exact hs.cons_cons x
      | false => exact hs.cons x

theorem acceptedNames_each {fs : Fs} {filter : Filter} {path : Path} {l r : List Bytes} (h : acceptedNames fs filter path l = .ok r) : ∀ n ∈ l, ∃ b, filter fs (Path.join path n) = .ok b := by
  induction l generalizing r with
  | nil => simp
  | cons x l ih =>
    unfold acceptedNames at h
    obtain ⟨b, h1, h2⟩ := Res.bind_eq_ok h
    obtain ⟨r', h3, _⟩ := Res.bind_eq_ok h2
    intro n hn
    rcases List.mem_cons.mp hn with rfl | hn
    · exact ⟨b, h1⟩
    · exact ih h3 n hn

theorem makeFilter_needs {fs : Fs} {glob : Path → Bool} {folder p : Path} {b : Bool} (h : makeFilter glob folder fs p = .ok b) : ∃ e, fs.metadata p = .ok e := by
  unfold makeFilter at h
  obtain ⟨x, h1, _⟩ := Res.bind_eq_ok h
  cases hc : fs.canonicalize p with
  | ok y => exact (canonicalize_ok.mp hc).2
  | _ => rw [hc] at h1; simp [Res.unwrap] at h1

theorem sane_atWf {fs : Fs} (h : fs.Sane) : AtWf fs.at := fun q n h' => h.parents q n h'
theorem sane_atNames {fs : Fs} (h : fs.Sane) : AtNames fs.at := fun q n h' => h.okLoc h' n (by simp)

theorem each_step {σ α} {f : α → SM σ Unit} {a : α} {l : List α} {s s1 : σ} (h : f a s = (.ok (), s1)) : SM.each f (a :: l) s = SM.each f l s1 :=
  (SM.bind_apply (f a) (fun _ => SM.each f l) s).trans (by rw [h])

theorem each_removeExtra_done {fs : Fs} (hf : fs.faults = []) (hsn : fs.Sane) {path : Path} (hp0 : path ≠ []) (hcl : Clean path) (hg : Path.startsWith path sGuard = true)
    (hd : fs.at (loc fs.cwd path) = some .dir) {l : List Bytes} (hnd : l.Nodup) (h1 : ∀ n ∈ l, fs.at (loc fs.cwd path ++ [n]) ≠ none)
    (h2 : ∀ n ∈ l, fs.at (loc fs.cwd path ++ [n]) ≠ some .broken) : ∃ fs', SM.each (removeExtra path) l fs = (.ok (), fs') ∧ fs'.faults = [] ∧ fs'.Sane := by
  induction l generalizing fs with
  | nil => exact ⟨fs, rfl, hf, hsn⟩
  | cons n l ih =>
    have hn : okName n := sane_atNames hsn _ _ (h1 n (by simp))
    obtain ⟨fs1, e1, f1⟩ := removeExtra_done hf hg hn (locate_clean (sane_atWf hsn) hp0 hcl hd) hd (h1 n (by simp)) (h2 n (by simp))
    have e1' : SM.each (removeExtra path) [n] fs = (.ok (), fs1) := each_step e1
    obtain ⟨r1, _, _, _, r5, _⟩ := each_removeExtra (by simpa using hn) (sane_atWf hsn) (sane_atNames hsn) e1'
    have s1 : fs1.Sane := by have := (sane_removeExtra path n fs hsn).1; rwa [e1] at this
    have hkeep : ∀ m ∈ l, fs1.at (loc fs1.cwd path ++ [m]) = fs.at (loc fs.cwd path ++ [m]) := by
      intro m hm
      rw [r1]
      refine r5 _ fun x hx hp => ?_
      simp only [List.mem_singleton] at hx
      subst hx
      have hp := (List.prefix_append_right_inj _).mp hp
      simp at hp
      subst hp
      exact (List.nodup_cons.mp hnd).1 hm
    obtain ⟨fs', e2, f2, s2⟩ := ih f1 s1 (by rw [r1, r5 _ (by intro x _ hp; have := hp.length_le; simp at this; omega)]; exact hd) (List.nodup_cons.mp hnd).2
      (fun m hm => by rw [hkeep m hm]; exact h1 m (by simp [hm])) (fun m hm => by rw [hkeep m hm]; exact h2 m (by simp [hm]))
    exact ⟨fs', (each_step e1).trans e2, f2, s2⟩

theorem readyNodes_root {db : Db} {n : Nat} {k : Key} {ns : List KNode} (hs : Snap.Stored db n k ns) {a : AtFn} {L : List Bytes} (h : ReadyNodes a L ns) (hd : a L = some .dir) :
    ∃ x ∈ ns, x.node.rel = [] ∧ x.node.content = none := by
  obtain ⟨x, hx, hr⟩ := stored_root hs
  refine ⟨x, hx, hr, ?_⟩
  cases hc : x.node.content with
  | none => rfl
  | some c =>
    have := h.files x hx (by rw [hc]; simp)
    rw [hr, List.append_nil, hd] at this
    simp at this

/-- On a tree that is ready, without faults, a checkout ends well. -/
theorem checkout_done {db : Db} {n : Nat} {k : Key} {ns : List KNode} (hs : Snap.Stored db n k ns) (ho : ∀ x ∈ ns, ∀ m ∈ x.node.rel, okName m)
    (hnd : (ns.map fun x => x.node.rel).Nodup) {fuel : Nat} (hfu : n + 6 ≤ fuel) {glob : Path → Bool} {folder : Path} (hf0 : folder ≠ []) (hfcl : Clean folder)
    {iter : List Bytes → List Bytes} (hiter : ∀ l, (iter l).Perm l) {path : Path} (hp0 : path ≠ []) (hcl : Clean path) (hg : Path.startsWith path sGuard = true) {fs : Fs}
    (hf : fs.faults = []) (hsn : fs.Sane) (hfold : fs.at (loc fs.cwd folder) = some .dir)
    (hS : ∀ m, (loc fs.cwd path ++ [m]) <+: loc fs.cwd folder → loc fs.cwd folder = loc fs.cwd path ++ [m])
    (hfile : fs.at (loc fs.cwd path) ≠ some .dir → path.lastIsName = true ∧ fs.locate path = .ok (loc fs.cwd path))
    (hr : ReadyNodes fs.at (loc fs.cwd path) ns) :
    ∃ fs', checkoutFsItem db (makeFilter glob folder) iter fuel k path fs = (.ok (), fs') ∧ fs'.faults = [] := by
  induction n generalizing k ns fuel path fs with
  | zero => exact hs.elim
  | succ n ih =>
    obtain ⟨fuel, rfl⟩ : ∃ f, fuel = f + 1 := ⟨fuel - 1, by omega⟩
    rcases hs with ⟨sz, nm, ck, c, m, h1, h2, h3, rfl⟩ | ⟨sz, es, h1, rfl, h3⟩
    · obtain ⟨ls, rfl, hrun⟩ := checkout_file (filter := makeFilter glob folder) (iter := iter) (path := path) h1 h3 (fuel := fuel) (by omega)
      have hat := hr.files _ List.mem_cons_self (by simp)
      simp only [List.append_nil] at hat
      obtain ⟨hl1, hl2⟩ := hfile (by intro h; rw [h] at hat; simp at hat)
      obtain ⟨fs1, e1, f1⟩ := create_done hf hl2 hl1 hat
      obtain ⟨_, _, _, ⟨md, a1⟩, _⟩ := create_ok hcl e1
      obtain ⟨fs2, e2, f2, _⟩ := each_writeAll f1 (loc fs.cwd path) [] md (by rw [a1]; simp [upd]) ls
      refine ⟨fs2, ?_, f2⟩
      rw [hrun, SM.bind_apply, e1]
      simp only [hg, if_true]
      exact e2
    · obtain ⟨hd, hbr, hch⟩ := readyNodes_dir.mp hr
      have heok : ∀ e ∈ es, okName e.1 := by
        intro e he
        obtain ⟨x, hx, hxr⟩ := stored_root (h3 e he)
        exact ho (x.under e.1) (mem_under he hx) e.1 (by simp)
      simp only [List.map_cons, List.nodup_cons] at hnd
      obtain ⟨hnames, hsub⟩ := stored_names_nodup h3 hnd.2
      have hl := locate_clean (sane_atWf hsn) hp0 hcl hd
      have hrd := readDir_of hl hd
      have hmeta : ∃ e, fs.metadata folder = .ok e := ⟨.dir, metadata_of (locate_clean (sane_atWf hsn) hf0 hfcl hfold) hfold (by simp)⟩
      obtain ⟨mine, hmine, hsubl⟩ := acceptedNames_all (fs := fs) (filter := makeFilter glob folder) (path := path) (l := fs.names (loc fs.cwd path)) (by
        intro m hm
        have hm' := mem_names.mp hm
        have hmo := sane_atNames hsn _ _ hm'
        refine makeFilter_answers hmeta ?_
        cases ha : fs.at (loc fs.cwd path ++ [m]) with
        | none => exact absurd ha hm'
        | some e => exact ⟨e, metadata_of (locate_join_ok hmo hl hd) (by rw [loc_join _ _ hmo]; exact ha) (by rintro rfl; exact hbr m ha)⟩)
      have hmem := acceptedNames_ok hmine
      let extra := iter (mine.filter fun x => !((es.map (·.1)).any fun y => Path.comps y == Path.comps x))
      have hex : ∀ x ∈ extra, x ∈ mine ∧ x ∉ es.map (·.1) := by
        intro x hx
        have := List.mem_filter.mp ((hiter _).mem_iff.mp hx)
        refine ⟨this.1, fun hxe => ?_⟩
        have h5 := this.2
        rw [Bool.not_eq_true', Bool.eq_false_iff] at h5
        refine h5 ?_
        simp only [List.any_eq_true, beq_iff_eq]
        exact ⟨x, hxe, rfl⟩
      have hexn : ∀ x ∈ extra, fs.at (loc fs.cwd path ++ [x]) ≠ none := fun x hx => mem_names.mp ((hmem x).mp (hex x hx).1).1
      obtain ⟨fs1, e1, f1, s1⟩ := each_removeExtra_done hf hsn hp0 hcl hg hd (l := extra)
        ((hiter _).nodup_iff.mpr (((names_nodup hsn.nodup _).sublist hsubl).sublist List.filter_sublist)) hexn (fun x _ => hbr x)
      obtain ⟨r1, _, _, _, r5, _⟩ := each_removeExtra (fun x hx => sane_atNames hsn _ _ (hexn x hx)) (sane_atWf hsn) (sane_atNames hsn) e1
      -- the loop over the stored children
      have loop : ∀ (es : List (Bytes × Key × List KNode)) (fs1 : Fs), (∀ e ∈ es, Snap.Stored db n e.2.1 e.2.2) → (∀ e ∈ es, okName e.1) → (∀ e ∈ es, ∀ x ∈ e.2.2, ∀ m ∈ x.node.rel, okName m) →
          (es.map (·.1)).Nodup → (∀ e ∈ es, (e.2.2.map fun x => x.node.rel).Nodup) → fs1.cwd = fs.cwd → fs1.faults = [] → fs1.Sane → fs1.at (loc fs.cwd path) = some .dir →
          fs1.at (loc fs.cwd folder) = some .dir → (∀ e ∈ es, ReadyNodes fs1.at (loc fs.cwd path ++ [e.1]) e.2.2) →
          ∃ fs', SM.each (fun (e : Bytes × Key × List KNode) => do
            Fs.createDirAll path
            checkoutFsItem db (makeFilter glob folder) iter fuel e.2.1 (Path.join path e.1)) es fs1 = (.ok (), fs') ∧ fs'.faults = [] := by
        intro es
        induction es with
        | nil => intro fs1 _ _ _ _ _ _ f _ _ _ _; exact ⟨fs1, rfl, f⟩
        | cons e es ihes =>
          intro fs1 q1 q2 q3 q4 q5 c f s d df hrr
          have hl1 := locate_clean (sane_atWf s) hp0 hcl (by rw [c]; exact d)
          have k1 := createDirAll_there f hl1 (by rw [c]; exact d)
          have heo := q2 e (by simp)
          have hloc : loc fs1.cwd (Path.join path e.1) = loc fs.cwd path ++ [e.1] := by rw [c, loc_join _ _ heo]
          have hre := hrr e (by simp)
          obtain ⟨fs2, k2, f2⟩ := ih (q1 e (by simp)) (q3 e (by simp)) (q5 e (by simp)) (fuel := fuel) (by omega) (path := Path.join path e.1)
            (join_ne_nil heo.comp.notAbs heo.1) (clean_joins (ns := [e.1]) hcl (by simpa using heo)) (startsWith_join heo hg) (fs := fs1) f s (by rw [c]; exact df)
            (by
              rw [hloc, c]
              intro m hp
              have h5 := hS e.1 ((List.prefix_append _ _).trans hp)
              rw [h5] at hp
              have := hp.length_le
              simp at this)
            (fun _ => ⟨lastIsName_joins (ns := [e.1]) (by simpa using heo) (by simp), locate_join_ok heo hl1 (by rw [c]; exact d)⟩)
            (by rw [hloc]; exact hre)
          obtain ⟨i1, _, _, i4, i5⟩ := checkout_ok (acc := accepts glob folder fs1.cwd) (q1 e (by simp)) (q3 e (by simp)) (q5 e (by simp)) (fuel := fuel) (by omega)
            (clean_joins (ns := [e.1]) hcl (by simpa using heo)) (fun l x => (hiter l).mem_iff) (fun f p b hc hb => by rw [← hc]; exact makeFilter_accepts hb)
            (sane_atWf s) (sane_atNames s) k2
          have hloc' : loc fs1.cwd (joins path [e.1]) = loc fs.cwd path ++ [e.1] := hloc
          rw [hloc'] at i4 i5
          have s2 : fs2.Sane := by have := (sane_checkoutFsItem db (makeFilter glob folder) iter fuel e.2.1 (Path.join path e.1) fs1 s).1; rwa [k2] at this
          simp only [List.map_cons, List.nodup_cons] at q4
          obtain ⟨fs3, k3, f3⟩ := ihes fs2 (fun x hx => q1 x (by simp [hx])) (fun x hx => q2 x (by simp [hx])) (fun x hx => q3 x (by simp [hx])) q4.2
            (fun x hx => q5 x (by simp [hx])) (i1.trans c) f2 s2 (by
              rw [i4 _ (by intro hp; have := hp.length_le; simp at this; omega)]; exact d)
            (by
              by_cases hp : (loc fs.cwd path ++ [e.1]) <+: loc fs.cwd folder
              · have h5 := hS e.1 hp
                rw [h5] at df ⊢
                obtain ⟨x, hx, hxr, hxc⟩ := readyNodes_root (q1 e (by simp)) hre df
                have := i5.nodes x.node (List.mem_map_of_mem hx)
                rw [hxc, hxr] at this
                simpa using this
              · rw [i4 _ hp]; exact df)
            (by
              intro x hx
              refine (hrr x (by simp [hx])).congr fun y hy => i4 y fun hp => ?_
              have : x.1 = e.1 := by
                obtain ⟨t, rfl⟩ := hy
                rw [List.append_assoc] at hp
                have := (List.prefix_append_right_inj _).mp hp
                obtain ⟨u, hu⟩ := this
                simp at hu
                exact hu.1.symm
              exact q4.1 (this ▸ List.mem_map_of_mem hx))
          refine ⟨fs3, (each_step ?_).trans k3, f3⟩
          rw [SM.bind_apply, k1]
          exact k2
      have hnx : ∀ u, (∀ x ∈ extra, ¬ (loc fs.cwd path ++ [x]) <+: u) → fs1.at u = fs.at u := r5
      obtain ⟨fs', e2, f2⟩ := loop es fs1 h3 heok (fun e he x hx m hm => ho (x.under e.1) (mem_under he hx) m (by simp [hm])) hnames hsub r1 f1 s1
        (by rw [hnx _ (by intro x _ hp; have := hp.length_le; simp at this; omega)]; exact hd)
        (by
          rw [hnx]
          · exact hfold
          · intro x hx hp
            have h5 := hS x hp
            have hac := makeFilter_accepts ((hmem x).mp (hex x hx).1).2
            unfold accepts at hac
            rw [loc_join _ _ (sane_atNames hsn _ _ (hexn x hx)), h5] at hac
            rw [List.isPrefixOf_iff_prefix.mpr (List.prefix_refl _)] at hac
            simp at hac)
        (by
          intro e he
          refine (hch e he).congr fun y hy => hnx y fun x hx hp => ?_
          have : e.1 = x := by
            obtain ⟨t, rfl⟩ := hy
            rw [List.append_assoc] at hp
            have := (List.prefix_append_right_inj _).mp hp
            obtain ⟨u, hu⟩ := this
            simp at hu
            exact hu.1.symm
          exact (hex x hx).2 (this ▸ List.mem_map_of_mem he))
      refine ⟨fs', ?_, f2⟩
      rw [checkout_dir h1]
      simp only [SM.bind_apply, SM.read_apply, hrd, hmine]
      have e1' : SM.each (removeExtra path) (iter (mine.filter fun x => !((es.map (·.1)).any fun y => Path.comps y == Path.comps x))) fs = (.ok (), fs1) := e1
      rw [e1']
      exact e2

/-- A checkout that ends well was ready. -/
theorem checkout_needs {db : Db} {n : Nat} {k : Key} {ns : List KNode} (hs : Snap.Stored db n k ns) (ho : ∀ x ∈ ns, ∀ m ∈ x.node.rel, okName m)
    (hnd : (ns.map fun x => x.node.rel).Nodup) {fuel : Nat} (hf : n + 6 ≤ fuel) {glob : Path → Bool} {folder : Path} {iter : List Bytes → List Bytes} {path : Path} (hcl : Clean path)
    (hiter : ∀ l x, x ∈ iter l ↔ x ∈ l) {fs fs' : Fs} (hw : AtWf fs.at) (hn : AtNames fs.at) (h : checkoutFsItem db (makeFilter glob folder) iter fuel k path fs = (.ok (), fs')) :
    ReadyNodes fs.at (loc fs.cwd path) ns := by
  induction n generalizing k ns fuel path fs fs' with
  | zero => exact hs.elim
  | succ n ih =>
    obtain ⟨fuel, rfl⟩ : ∃ f, fuel = f + 1 := ⟨fuel - 1, by omega⟩
    rcases hs with ⟨sz, nm, ck, c, m, h1, h2, h3, rfl⟩ | ⟨sz, es, h1, rfl, h3⟩
    · obtain ⟨ls, rfl, hrun⟩ := checkout_file (filter := makeFilter glob folder) (iter := iter) (path := path) h1 h3 (fuel := fuel) (by omega)
      rw [hrun] at h
      obtain ⟨f, fs1, g1, g2⟩ := bind_ok h
      obtain ⟨rfl, c1, hfile, _⟩ := create_ok hcl g1
      refine ⟨fun x hx hc => ?_, fun x hx hc => ?_⟩
      · simp at hx; subst hx; simp at hc
      · simp at hx; subst hx; simpa using hfile
    · rw [checkout_dir h1] at h
      obtain ⟨all, fsA, g1, h⟩ := bind_ok h
      have g1' : (fs.readDir path, fs) = (.ok all, fsA) := g1
      simp at g1'
      obtain ⟨g1', rfl⟩ := g1'
      obtain ⟨mine, fsA, g2, h⟩ := bind_ok h
      have g2' : (acceptedNames fs (makeFilter glob folder) path all, fs) = (.ok mine, fsA) := g2
      simp at g2'
      obtain ⟨g2', rfl⟩ := g2'
      obtain ⟨_, fs1, g3, g4⟩ := bind_ok h
      obtain ⟨hl, hd, rfl⟩ := readDir_ok g1'
      have hmine := acceptedNames_ok g2'
      have heok : ∀ e ∈ es, okName e.1 := by
        intro e he
        obtain ⟨x, hx, hxr⟩ := stored_root (h3 e he)
        exact ho (x.under e.1) (mem_under he hx) e.1 (by simp)
      simp only [List.map_cons, List.nodup_cons] at hnd
      obtain ⟨hnames, hsub⟩ := stored_names_nodup h3 hnd.2
      have hmok : ∀ x ∈ mine, okName x := fun x hx => hn _ _ (mem_names.mp ((hmine x).mp hx).1)
      obtain ⟨r1, r2, r3, r4, r5, r6⟩ := each_removeExtra (by
        intro x hx
        rw [hiter] at hx
        exact hmok x (List.mem_filter.mp hx).1) hw hn g3
      refine readyNodes_dir.mpr ⟨hd, fun m hm => ?_, ?_⟩
      · have hmo := hn _ _ (by rw [hm]; simp)
        obtain ⟨b, hb⟩ := acceptedNames_each g2' m (mem_names.mpr (by rw [hm]; simp))
        obtain ⟨e, he⟩ := makeFilter_needs hb
        obtain ⟨_, h5, h6⟩ := metadata_ok he
        rw [loc_join _ _ hmo, hm] at h5
        simp at h5
        exact h6 h5.symm
      -- the loop over the stored children
      have loop : ∀ (es : List (Bytes × Key × List KNode)) (fs1 : Fs), (∀ e ∈ es, Snap.Stored db n e.2.1 e.2.2) → (∀ e ∈ es, okName e.1) → (∀ e ∈ es, ∀ x ∈ e.2.2, ∀ m ∈ x.node.rel, okName m) →
          (es.map (·.1)).Nodup → (∀ e ∈ es, (e.2.2.map fun x => x.node.rel).Nodup) → fs1.cwd = fs.cwd → AtWf fs1.at → AtNames fs1.at → fs1.at (loc fs.cwd path) = some .dir →
          SM.each (fun (e : Bytes × Key × List KNode) => do
            Fs.createDirAll path
            checkoutFsItem db (makeFilter glob folder) iter fuel e.2.1 (Path.join path e.1)) es fs1 = (.ok (), fs') →
          ∀ e ∈ es, ReadyNodes fs1.at (loc fs.cwd path ++ [e.1]) e.2.2 := by
        intro es
        induction es with
        | nil => simp
        | cons e es ihes =>
          intro fs1 q1 q2 q3 q4 q5 c w nn hd h
          obtain ⟨_, fs3, k1, k2⟩ := bind_ok (x := do
            Fs.createDirAll path
            checkoutFsItem db (makeFilter glob folder) iter fuel e.2.1 (Path.join path e.1)) (f := fun _ => SM.each (fun (e : Bytes × Key × List KNode) => do
            Fs.createDirAll path
            checkoutFsItem db (makeFilter glob folder) iter fuel e.2.1 (Path.join path e.1)) es) h
          obtain ⟨_, fs2, k3, k4⟩ := bind_ok k1
          have hsame := createDirAll_same (fs := fs1) w hcl.2 (by rw [c]; exact hd)
          rw [k3] at hsame
          obtain ⟨sa, sc⟩ := hsame
          have heo := q2 e (by simp)
          have hloc : loc fs2.cwd (Path.join path e.1) = loc fs.cwd path ++ [e.1] := by rw [sc, c, loc_join _ _ heo]
          have hcl' : Clean (Path.join path e.1) := clean_joins (ns := [e.1]) hcl (by simpa using heo)
          obtain ⟨i1, i2, i3, i4, i5⟩ := checkout_ok (acc := accepts glob folder fs2.cwd) (q1 e (by simp)) (q3 e (by simp)) (q5 e (by simp)) (fuel := fuel) (by omega) hcl' hiter
            (fun f p b hc hb => by rw [← hc]; exact makeFilter_accepts hb) (by rw [sa]; exact w) (by rw [sa]; exact nn) k4
          have hre := ih (q1 e (by simp)) (q3 e (by simp)) (q5 e (by simp)) (fuel := fuel) (by omega) hcl' (by rw [sa]; exact w) (by rw [sa]; exact nn) k4
          rw [hloc] at hre i4
          rw [sc, c] at i1
          rw [sa] at hre i4
          simp only [List.map_cons, List.nodup_cons] at q4
          have hrest := ihes fs3 (fun x hx => q1 x (by simp [hx])) (fun x hx => q2 x (by simp [hx])) (fun x hx => q3 x (by simp [hx])) q4.2
            (fun x hx => q5 x (by simp [hx])) i1 i2 i3 (by
              rw [i4 _ (by intro hp; have := hp.length_le; simp at this; omega)]; exact hd) k2
          intro x hx
          rcases List.mem_cons.mp hx with rfl | hx
          · exact hre
          · refine (hrest x hx).congr fun y hy => (i4 y fun hp => ?_).symm
            have : x.1 = e.1 := by
              obtain ⟨t, rfl⟩ := hy
              rw [List.append_assoc] at hp
              have := (List.prefix_append_right_inj _).mp hp
              obtain ⟨u, hu⟩ := this
              simp at hu
              exact hu.1.symm
            exact q4.1 (this ▸ List.mem_map_of_mem hx)
      have hd1 : fs1.at (loc fs.cwd path) = some .dir := by
        rw [r5 _ (by intro x _ hp; have := hp.length_le; simp at this; omega)]; exact hd
      have hfin := loop es fs1 h3 heok (fun e he x hx m hm => ho (x.under e.1) (mem_under he hx) m (by simp [hm])) hnames hsub r1 r2 r3 hd1 g4
      intro e he
      refine (hfin e he).congr fun y hy => (r5 y fun x hx hp => ?_).symm
      have : e.1 = x := by
        obtain ⟨t, rfl⟩ := hy
        rw [List.append_assoc] at hp
        have := (List.prefix_append_right_inj _).mp hp
        obtain ⟨u, hu⟩ := this
        simp at hu
        exact hu.1.symm
      rw [hiter] at hx
      have h5 := (List.mem_filter.mp hx).2
      rw [Bool.not_eq_true', Bool.eq_false_iff] at h5
      refine h5 ?_
      simp only [List.any_eq_true, beq_iff_eq]
      exact ⟨x, this ▸ List.mem_map_of_mem he, rfl⟩

/-! ## The command -/

/-- For a stored tree, below the built-in directory and without faults, `checkout` ends well iff the directory is ready. -/
theorem checkout_iff {X : Ctx} (hnames : ∀ l, (X.iterNames l).Perm l) (hplain : okName X.dbPath) {w : World} (hw : w.fs.Wf) {R : Repo} {q : List Bytes} (ho : Opens X w R q)
    (hg : Path.startsWith R.root sGuard = true) (hf : w.fs.faults = []) (hcf : w.cache.faults = []) {ck : Key} {c : Commit} (h1 : getHeadKey (w.dbs q) = .ok ck)
    (h2 : Commit.fromKey (w.dbs q) ck = .ok c) {n : Nat} {ns : List KNode} (hs : Snap.Stored (w.dbs q) n c.tree ns) (hok : ∀ x ∈ ns, ∀ m ∈ x.node.rel, okName m)
    (hnd : (ns.map fun x => x.node.rel).Nodup) (hn : n + 6 ≤ X.depth) :
    (mainRun X .checkout w).1 = .success ↔ Spec.Ready (w.dbs q) c.tree w.fs.at (loc w.fs.cwd R.root) := by
  obtain ⟨up, down, _, e2, e3, hu, hl1, hl2, hcr, hup⟩ := opens_plain hw ho hplain
  rw [stored_ready hs]
  have hrun := checkout_run X R (startOf w q) (ck := ck) (c := c) h1 h2
  rw [finish_exit (by simp) ho (by intro s h; rw [hrun] at h; simp only [Prod.mk.injEq] at h; rw [← h.2]; exact hcf), hrun]
  show (checkoutFsItem (w.dbs q) (makeFilter X.glob R.folder) X.iterNames X.depth c.tree R.root w.fs).1 = _ ↔ _
  constructor
  · intro h
    exact checkout_needs hs hok hnd hn hcr (fun l x => (hnames l).mem_iff) (wf_atWf hw) (wf_atNames hw) (Prod.ext h rfl)
  · intro h
    have hfcl : Clean R.folder := by
      rw [e2]
      refine clean_abs fun n hn => ?_
      rcases List.mem_append.mp hn with h | h
      · exact hu n h
      · simp only [List.mem_singleton] at h; rw [h]; exact hplain
    have hf0 : R.folder ≠ [] := by obtain ⟨e, he⟩ := opens_folder ho; exact locate_ne_nil (metadata_ok he).1
    obtain ⟨fs', h3, _⟩ := checkout_done (glob := X.glob) hs hok hnd hn hf0 hfcl hnames (path := R.root) (fs := w.fs) (by intro h0; rw [h0] at hg; revert hg; decide) hcr hg hf hw.sane (folder_dir hw ho)
      (by
        intro m hp
        rw [hl1, hl2] at hp ⊢
        rw [hp.eq_of_length (by simp)])
      (fun h => absurd (by rw [hl1]; exact hup) h) h
    rw [h3]

/-- **C86**: in a repository below the built-in directory, without faults of the file system and of the cache, `checkout` ends well exactly if the repository's directory is
ready for the commit: where the commit has a directory there is a directory, and no dangling link in it; where the commit has a file there is a file or nothing. (The
database folder has a plain name; the tree of HEAD's newest commit is a file or a directory.) -/
theorem C86_checkout (X : Ctx) (hnames : ∀ l, (X.iterNames l).Perm l) (hplain : okName X.dbPath) (w : World) (hs : w.Sound X.E.H) (hw : w.fs.Wf) (R : Repo) (q : List Bytes)
    (hc : NoColl X.E.H (w.dbs q)) (ho : Opens X w R q) (hg : Path.startsWith R.root sGuard = true) (hf : w.fs.faults = []) (hcf : w.cache.faults = [])
    (hdepth : (w.dbs q).data.length + 6 ≤ X.depth) (ck : Key) (c : Commit) (h1 : getHeadKey (w.dbs q) = .ok ck) (h2 : Commit.fromKey (w.dbs q) ck = .ok c)
    (hitem : LeadsTo (w.dbs q) c.tree IsItem) :
    (mainRun X .checkout w).1 = .success ↔ Spec.Ready (w.dbs q) c.tree w.fs.at (loc w.fs.cwd R.root) := by
  obtain ⟨o, g1, g2⟩ := hitem
  obtain ⟨ns, g3, g4, g5, _⟩ := (whole_trees hs q hc g1).2 g2
  exact checkout_iff hnames hplain hw ho hg hf hcf h1 h2 (g3 _ (Nat.le_refl _)) g4 g5 hdepth

/-- **C86**, a missing directory: where the commit has a directory and there is none, `checkout` does not end well. -/
theorem C86_missing (X : Ctx) (hnames : ∀ l, (X.iterNames l).Perm l) (hplain : okName X.dbPath) (w : World) (hs : w.Sound X.E.H) (hw : w.fs.Wf) (R : Repo) (q : List Bytes)
    (hc : NoColl X.E.H (w.dbs q)) (ho : Opens X w R q) (hdepth : (w.dbs q).data.length + 6 ≤ X.depth) (ck : Key) (c : Commit) (h1 : getHeadKey (w.dbs q) = .ok ck)
    (h2 : Commit.fromKey (w.dbs q) ck = .ok c) (hitem : LeadsTo (w.dbs q) c.tree IsItem) (rel : List Bytes) (hr : Comes (w.dbs q) c.tree rel true)
    (hno : w.fs.at (loc w.fs.cwd R.root ++ rel) ≠ some .dir) : (mainRun X .checkout w).1 ≠ .success := by
  intro h
  obtain ⟨o, g1, g2⟩ := hitem
  obtain ⟨ns, g3, g4, g5, _⟩ := (whole_trees hs q hc g1).2 g2
  rw [mainRun_open (by simp) ho] at h
  have h := exit_success h
  rw [checkout_run X R (startOf w q) (ck := ck) (c := c) h1 h2] at h
  obtain ⟨_, _, _, _, _, _, _, _, hcr, _⟩ := opens_plain hw ho hplain
  have := checkout_needs (g3 _ (Nat.le_refl _)) g4 g5 hdepth hcr (fun l x => (hnames l).mem_iff) (wf_atWf hw) (wf_atNames hw)
    (Prod.ext h rfl : checkoutFsItem (w.dbs q) (makeFilter X.glob R.folder) X.iterNames X.depth c.tree R.root w.fs = (.ok (), _))
  exact hno (((stored_ready (g3 _ (Nat.le_refl _))).mpr this).dirs rel hr).1

/-- **C86**, twice: after a `checkout` that ended well, as long as nobody touches the files or what is recorded, another `checkout` ends well. -/
theorem C86_again (X : Ctx) (hnames : ∀ l, (X.iterNames l).Perm l) (hplain : okName X.dbPath) (w : World) (hs : w.Sound X.E.H) (hw : w.fs.Wf) (R : Repo) (q : List Bytes)
    (hc : NoColl X.E.H (w.dbs q)) (ho : Opens X w R q) (hg : Path.startsWith R.root sGuard = true) (hf : (w.dbs q).faults = [])
    (hdepth : (w.dbs q).data.length + 6 ≤ X.depth) (ck : Key) (c : Commit) (h1 : getHeadKey (w.dbs q) = .ok ck) (h2 : Commit.fromKey (w.dbs q) ck = .ok c)
    (hitem : LeadsTo (w.dbs q) c.tree IsItem) (hok : (mainRun X .checkout w).1 = .success)
    (w2 : World) (hat : w2.fs.at = (mainRun X .checkout w).2.2.fs.at) (hcwd : w2.fs.cwd = w.fs.cwd) (hdb : SameDb (w2.dbs q) ((mainRun X .checkout w).2.2.dbs q))
    (hw2 : w2.fs.Wf) (ho2 : Opens X w2 R q) (hf2 : w2.fs.faults = []) (hcf2 : w2.cache.faults = []) : (mainRun X .checkout w2).1 = .success := by
  obtain ⟨o, g1, g2⟩ := hitem
  obtain ⟨ns, g3, g4, g5, _⟩ := (whole_trees hs q hc g1).2 g2
  have g3 := g3 _ (Nat.le_refl _)
  obtain ⟨up, down, _, e2, e3, hu, hl1, hl2, hcr, hup⟩ := opens_plain hw ho hplain
  have hrun : ∃ fs', checkoutFsItem (w.dbs q) (makeFilter X.glob R.folder) X.iterNames X.depth c.tree R.root w.fs = (.ok (), fs') := by
    rw [mainRun_open (by simp) ho] at hok
    have := exit_success hok
    rw [checkout_run X R (startOf w q) (ck := ck) (c := c) h1 h2] at this
    exact ⟨_, Prod.ext this rfl⟩
  obtain ⟨fs', hrun⟩ := hrun
  obtain ⟨hsdb, hfs'⟩ := checkout_sameDb ho hf h1 h2 hrun
  rw [hfs'] at hat
  have hst := (hdb.trans hsdb).1
  have hready := checkout_needs g3 g4 g5 hdepth hcr (fun l x => (hnames l).mem_iff) (wf_atWf hw) (wf_atNames hw) hrun
  obtain ⟨_, _, _, _, hm⟩ := checkout_ok (acc := accepts X.glob R.folder w.fs.cwd) g3 g4 g5 hdepth hcr (fun l x => (hnames l).mem_iff)
    (fun f p b hc hb => by rw [← hc]; exact makeFilter_accepts hb) (wf_atWf hw) (wf_atNames hw) hrun
  have hfcl : Clean R.folder := by
    rw [e2]
    refine clean_abs fun n hn => ?_
    rcases List.mem_append.mp hn with h | h
    · exact hu n h
    · simp only [List.mem_singleton] at h; rw [h]; exact hplain
  have hf0 : R.folder ≠ [] := by obtain ⟨e, he⟩ := opens_folder ho; exact locate_ne_nil (metadata_ok he).1
  have htame := (checkout_only (typed_of hs q hc) (glob := X.glob) hf0 hfcl (fun l x => (hnames l).mem_iff.mp) X.depth c.tree R.root hcr (cwd := w.fs.cwd) (a0 := w.fs.at)
    (S := fun u => u = loc w.fs.cwd R.folder) rfl (by
      rintro u rfl n hp
      rw [hl1, hl2] at hp ⊢
      rw [hp.eq_of_length (by simp)]
      exact List.prefix_refl _) w.fs ⟨rfl, wf_atWf hw, wf_atNames hw, fun u hu => hu ▸ folder_dir hw ho, fun _ h => h⟩).1
  rw [hrun] at htame
  have hpre : (w.dbs q).data <+: (w2.dbs q).data := by rw [hst.1]; exact List.prefix_refl _
  have h1' : getHeadKey (w2.dbs q) = .ok ck := by
    rw [← h1]
    unfold getHeadKey headName getHead rawGetState reflogGet refRows
    rw [hst.2.1, hst.2.2]
  rw [checkout_iff hnames hplain hw2 ho2 hg hf2 hcf2 h1' (fromKey_mono hpre h2) (g3.mono hpre) g4 g5 (by simpa using hdepth), stored_ready (g3.mono hpre), hcwd, hat]
  refine ⟨fun x hx hc => ⟨?_, fun m hb => ?_⟩, fun x hx hc => ?_⟩
  · have := hm.nodes x.node (List.mem_map_of_mem hx)
    rw [hc] at this
    exact this
  · exact (hready.dirs x hx hc).2 m (htame.2.links _ hb)
  · have := hm.nodes x.node (List.mem_map_of_mem hx)
    cases hx' : x.node.content with
    | none => exact absurd hx' hc
    | some c =>
      rw [hx'] at this
      obtain ⟨md, h⟩ := this
      exact .inr ⟨c, md, h⟩

/-- **C86**, after a commit: while the files are those of HEAD's newest commit, `checkout` ends well. -/
theorem C86_committed (X : Ctx) (hnames : ∀ l, (X.iterNames l).Perm l) (hplain : okName X.dbPath) (w : World) (R : Repo) (q : List Bytes) (ho : Opens X w R q)
    (hg : Path.startsWith R.root sGuard = true) (hf : w.fs.faults = []) (hcf : w.cache.faults = []) (ck : Key) (c : Commit) (h1 : getHeadKey (w.dbs q) = .ok ck)
    (h2 : Commit.fromKey (w.dbs q) ck = .ok c) (n : Nat) (hn : n + 6 ≤ X.depth) (hs : Snapshot X.E (w.dbs q) c.tree w.fs (makeFilter X.glob R.folder) n R.root) :
    (mainRun X .checkout w).1 = .success := by
  obtain ⟨d, d', hi, hput, hnc, hpre⟩ := hs.put
  obtain ⟨ns, g1, g2, g3, g4, g5, g6⟩ := put_nodes hs.wf hi hput hnc
  obtain ⟨nds, hl⟩ := putFsItem_listed hput
  rw [checkout_iff hnames hplain hs.wf ho hg hf hcf h1 h2 (g1.mono hpre) g2 g3 hn, stored_ready (g1.mono hpre)]
  refine ⟨fun x hx hc => ⟨(g5 x hx).mp hc, fun m hb => ?_⟩, fun x hx hc => ?_⟩
  · have hv := ((g4 x.node.rel).mp ⟨x, hx, rfl⟩).1
    obtain ⟨b, hb'⟩ : ∃ b, makeFilter X.glob R.folder w.fs (joins R.root (x.node.rel ++ [m])) = .ok b := by
      rcases hl.filtered hs.wf hv (m := m) (by rw [hb]; simp) with h | h <;> exact ⟨_, h⟩
    obtain ⟨e, he⟩ := makeFilter_needs hb'
    obtain ⟨_, h5, h6⟩ := metadata_ok he
    have hnm : ∀ y ∈ x.node.rel ++ [m], okName y := by
      intro y hy
      rcases List.mem_append.mp hy with hy | hy
      · exact g2 x hx y hy
      · simp only [List.mem_singleton] at hy
        subst hy
        exact wf_atNames hs.wf _ _ (by rw [hb]; simp)
    rw [loc_joins _ _ hnm, ← List.append_assoc, hb] at h5
    simp at h5
    exact h6 h5.symm
  · have hv := (g4 x.node.rel).mp ⟨x, hx, rfl⟩
    cases ha : w.fs.at (loc w.fs.cwd R.root ++ x.node.rel) with
    | none => exact .inl rfl
    | some e =>
      rcases hl.complete hs.wf hv.1 ha with rfl | ⟨c, md, rfl⟩
      · exact absurd ((g5 x hx).mpr ha) hc
      · exact .inr ⟨c, md, rfl⟩

end Snap.Props
