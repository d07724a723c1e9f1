import Verif.Props.Status
/-! Property C68: when `insert` and `commit` succeed. -/
namespace Snap.Props
open Snap
set_option linter.unusedSectionVars false
variable [Serde] [LawfulSerde]

/-- What `put_fs_item` needs of a directory or file: all that the filter is asked about exists (no dangling link, even if it is excluded), all that is not excluded is a
directory or a regular file, has a UTF-8 name, and can be read. -/
structure Readable (E : Env) (fs : Fs) (filter : Filter) (path : Path) : Prop where
  there : ∃ e, fs.metadata path = .ok e
  links : ∀ rel m, Visible fs filter path rel → fs.at (loc fs.cwd path ++ rel ++ [m]) ≠ some .broken
  types : ∀ rel, Visible fs filter path rel → fs.at (loc fs.cwd path ++ rel) ≠ some .special
  names : ∀ rel, Visible fs filter path rel → fs.at (loc fs.cwd path ++ rel) ≠ none → ∀ m ∈ rel, utf8 m = true
  reads : ∀ rel c, VisFile fs filter path rel c → Spec.readFails (E.rd (joins path rel) c) = false

theorem putData_reads {table : UInt8 → BitVec 64} {H : Bytes → Key} {evs : List ReadEv} {db db' : Db} {k : Key} (h : putData table H evs db = (.ok k, db')) :
    Spec.readFails evs = false := by
  rw [putData_eq] at h
  obtain ⟨kb, db1, _, h⟩ := bind_ok h
  have := scan_fails table 0#64 [] [] evs
  unfold chunks at h
  rw [this] at h
  cases hf : Spec.readFails evs with
  | false => rfl
  | true => rw [hf] at h; simp at h

theorem putEntries_needs {fs : Fs} {filter : Filter} {rec : Path → M Key} {path : Path} {l : List Bytes} {db db' : Db} {r : List (Bytes × Key)}
    (h : putEntries fs filter rec path l db = (.ok r, db')) :
    ∀ x ∈ l, filter fs (Path.join path x) = .ok false ∨
      (filter fs (Path.join path x) = .ok true ∧ x ∈ r.map (·.1) ∧ ∃ k d d', rec (Path.join path x) d = (.ok k, d')) := by
  induction l generalizing db db' r with
  | nil => simp
  | cons a l ih =>
    unfold putEntries at h
    obtain ⟨b, d1, h1, h2⟩ := bind_ok h
    simp only [SM.lift_apply, Prod.mk.injEq] at h1
    obtain ⟨h1, rfl⟩ := h1
    cases b with
    | false =>
      simp only [Bool.false_eq_true, if_false] at h2
      intro x hx
      rcases List.mem_cons.mp hx with rfl | hx
      · exact Or.inl h1
      · exact ih h2 x hx
    | true =>
      simp only [if_true] at h2
      obtain ⟨k, d2, h3, h4⟩ := bind_ok h2
      obtain ⟨r', d3, h5, h6⟩ := bind_ok h4
      simp at h6
      obtain ⟨rfl, _⟩ := h6
      intro x hx
      rcases List.mem_cons.mp hx with rfl | hx
      · exact Or.inr ⟨h1, by simp, k, _, _, h3⟩
      · rcases ih h5 x hx with g | ⟨g1, g2, g3⟩
        · exact Or.inl g
        · exact Or.inr ⟨g1, by simp at g2 ⊢; exact Or.inr g2, g3⟩

theorem below_ne {fs : Fs} (hw : fs.Wf) {q : List Bytes} {x : Bytes} {rel : List Bytes} (h : fs.at (q ++ x :: rel) ≠ none) : fs.at (q ++ [x]) ≠ none := by
  by_cases h0 : rel = []
  · rw [h0] at h; exact h
  · rw [hw.above (q := q ++ [x]) h0 (by simpa using h)]; simp

/-- A filter that says yes or no has found the file. -/
def Looks (filter : Filter) : Prop := ∀ fs p b, filter fs p = .ok b → ∃ e, fs.metadata p = .ok e

theorem looks_makeFilter (glob : Path → Bool) (dbPath : Path) : Looks (makeFilter glob dbPath) := by
  intro fs p b h
  unfold makeFilter at h
  obtain ⟨x, h1, _⟩ := Res.bind_eq_ok h
  cases hc : fs.canonicalize p with
  | ok y => exact (canonicalize_ok.mp hc).2
  | _ => rw [hc] at h1; simp [Res.unwrap] at h1

theorem putFsItem_needs {E : Env} {fs : Fs} (hw : fs.Wf) {filter : Filter} (hlook : Looks filter) {n : Nat} {path : Path} {db db' : Db} {k : Key}
    (h : putFsItem E fs filter n path db = (.ok k, db')) : Readable E fs filter path := by
  induction n generalizing path db db' k with
  | zero => simp [putFsItem] at h
  | succ n ih =>
    unfold putFsItem at h
    obtain ⟨e, d1, h1, h2⟩ := bind_ok h
    simp only [SM.lift_apply, Prod.mk.injEq] at h1
    obtain ⟨h1, rfl⟩ := h1
    obtain ⟨hl, ha, hb⟩ := metadata_ok h1
    cases e with
    | special => simp at h2
    | broken => simp at h2
    | file c md =>
      have hnone : ∀ x rel, fs.at (loc fs.cwd path ++ x :: rel) = none := fun x rel => Classical.byContradiction fun hne => by
        have := hw.above (by simp) hne
        rw [ha] at this
        simp at this
      refine ⟨⟨_, h1⟩, fun rel m _ => ?_, fun rel _ => ?_, fun rel _ hne => ?_, fun rel c' hv => ?_⟩
      · cases rel with
        | nil => have := hnone m []; simp only [List.append_nil]; rw [this]; simp
        | cons x rel => have := hnone x (rel ++ [m]); simp only [List.append_assoc, List.cons_append]; rw [this]; simp
      · cases rel with
        | nil => rw [List.append_nil, ha]; simp
        | cons x rel => rw [hnone]; simp
      · cases rel with
        | nil => simp
        | cons x rel => exact absurd (hnone x rel) hne
      · cases rel with
        | nil =>
          have := hv.2
          simp only [List.append_nil, Fs.content, ha, Option.some.injEq] at this
          subst this
          unfold putFile at h2
          obtain ⟨k', d2, h3, _⟩ := bind_ok h2
          exact putData_reads h3
        | cons x rel =>
          have := hv.2
          simp [Fs.content, hnone] at this
    | dir =>
      obtain ⟨all, d2, h3, h4⟩ := bind_ok h2
      simp only [SM.lift_apply, Prod.mk.injEq] at h3
      obtain ⟨h3, rfl⟩ := h3
      obtain ⟨_, _, rfl⟩ := readDir_ok h3
      obtain ⟨r, d3, h5, h6⟩ := bind_ok h4
      obtain ⟨o, d4, h7, h8⟩ := bind_ok h6
      simp only [SM.lift_apply, Prod.mk.injEq] at h7
      obtain ⟨h7, rfl⟩ := h7
      have hutf := (FsItem.toObject_ok h7).1.2.2
      have hent := putEntries_needs h5
      have step : ∀ x rel, fs.at (loc fs.cwd path ++ x :: rel) ≠ none → Visible fs filter path (x :: rel) →
          okName x ∧ utf8 x = true ∧ Readable E fs filter (Path.join path x) ∧ Visible fs filter (Path.join path x) rel := by
        intro x rel hne hv
        obtain ⟨hv1, hv2⟩ := visible_cons.mp hv
        have hx : x ∈ fs.names (loc fs.cwd path) := mem_names.mpr (below_ne hw hne)
        rcases hent x hx with g | ⟨g1, g2, k', d, d', g3⟩
        · rw [g] at hv1; simp at hv1
        · exact ⟨hw.okNames hx, (hutf x g2).2, ih g3, hv2⟩
      refine ⟨⟨_, h1⟩, fun rel m hv => ?_, fun rel hv => ?_, fun rel hv hne => ?_, fun rel c' hv => ?_⟩
      · cases rel with
        | nil =>
          intro hbr
          simp only [List.append_nil] at hbr
          have hx : m ∈ fs.names (loc fs.cwd path) := mem_names.mpr (by rw [hbr]; simp)
          have hok : ∃ b, filter fs (Path.join path m) = .ok b := by
            rcases hent m hx with g | ⟨g, _⟩ <;> exact ⟨_, g⟩
          obtain ⟨b, hok⟩ := hok
          obtain ⟨e, he⟩ := hlook _ _ _ hok
          obtain ⟨_, he2, he3⟩ := metadata_ok he
          rw [loc_join _ _ (hw.okNames hx), hbr] at he2
          simp at he2
          exact he3 he2.symm
        | cons x rel =>
          intro hbr
          have e1 : loc fs.cwd path ++ x :: rel ++ [m] = loc fs.cwd path ++ x :: (rel ++ [m]) := by simp
          rw [e1] at hbr
          have hne : fs.at (loc fs.cwd path ++ x :: (rel ++ [m])) ≠ none := by rw [hbr]; simp
          have hne' : fs.at (loc fs.cwd path ++ x :: rel) ≠ none := by
            have := hw.parents (loc fs.cwd path ++ x :: rel) m (by rw [e1]; exact hne)
            rw [this]; simp
          obtain ⟨s1, s2, s3, s4⟩ := step x rel hne' hv
          refine s3.links rel m s4 ?_
          rw [loc_join _ _ s1, ← hbr]
          simp
      · cases rel with
        | nil => rw [List.append_nil, ha]; simp
        | cons x rel =>
          intro hsp
          obtain ⟨s1, s2, s3, s4⟩ := step x rel (by rw [hsp]; simp) hv
          refine s3.types rel s4 ?_
          rw [loc_join _ _ s1, ← hsp]
          simp
      · cases rel with
        | nil => simp
        | cons x rel =>
          obtain ⟨s1, s2, s3, s4⟩ := step x rel hne hv
          intro m hm
          rcases List.mem_cons.mp hm with rfl | hm
          · exact s2
          · refine s3.names rel s4 ?_ m hm
            rw [loc_join _ _ s1]
            simpa using hne
      · cases rel with
        | nil => have := hv.2; simp [Fs.content, ha] at this
        | cons x rel =>
          have hc := hv.2
          obtain ⟨md, hat⟩ := content_some.mp hc
          obtain ⟨s1, s2, s3, s4⟩ := step x rel (by rw [hat]; simp) hv.1
          have := s3.reads rel c' ⟨s4, by rw [loc_join _ _ s1]; simpa using hc⟩
          simpa using this

/-- Depth of the tree and sizes are below the model's recursion depth and 2^64. -/
structure Bounded (E : Env) (fs : Fs) (filter : Filter) (n : Nat) (path : Path) : Prop where
  depth : ∀ rel, fs.at (loc fs.cwd path ++ rel) ≠ none → rel.length < n
  files : ∀ rel c, VisFile fs filter path rel c → (Spec.delivered (E.rd (joins path rel) c)).length < 2 ^ 64 ∧ c.length < 2 ^ 64
  dirs : ∀ q, ((fs.names q).map fun m => m.length + 9).sum + 100 < 2 ^ 64

theorem makeFilter_answers {fs : Fs} {glob : Path → Bool} {dbPath : Path} (hdb : ∃ e, fs.metadata dbPath = .ok e) {p : Path} (hp : ∃ e, fs.metadata p = .ok e) :
    ∃ b, makeFilter glob dbPath fs p = .ok b := by
  unfold makeFilter
  rw [canonicalize_ok.mpr ⟨rfl, hp⟩, canonicalize_ok.mpr ⟨rfl, hdb⟩]
  simp only [Res.unwrap, Res.ok_bind]
  split <;> exact ⟨_, rfl⟩

theorem readable_tot {E : Env} {fs : Fs} (hw : fs.Wf) {glob : Path → Bool} {dbPath : Path} (hdb : ∃ e, fs.metadata dbPath = .ok e) {n : Nat} {path : Path}
    (hb : Bounded E fs (makeFilter glob dbPath) n path) (hr : Readable E fs (makeFilter glob dbPath) path) :
    Tot (putFsItem E fs (makeFilter glob dbPath) n path) (fun _ => True) := by
  obtain ⟨e, he⟩ := hr.there
  obtain ⟨hl, ha, hnb⟩ := metadata_ok he
  have hnb' : ∀ rel, Visible fs (makeFilter glob dbPath) path rel → fs.at (loc fs.cwd path ++ rel) ≠ some .broken := by
    intro rel hv
    cases List.eq_nil_or_concat rel with
    | inl h => subst h; rw [List.append_nil, ha]; simpa using hnb
    | inr h =>
      obtain ⟨r, m, rfl⟩ := h
      have := hr.links r m (hv.prefix (by rw [List.concat_eq_append]; exact List.prefix_append r [m]))
      simpa using this
  obtain ⟨ns, hns⟩ := listed_exists hw n hl (by rw [ha]; simp) hb.depth (by
    intro rel e hv hat
    have h1 := hr.types rel hv
    have h2 := hnb' rel hv
    rw [hat] at h1 h2
    cases e with
    | dir => exact Or.inl rfl
    | file c md => exact Or.inr ⟨c, md, rfl⟩
    | special => exact absurd rfl h1
    | broken => exact absurd rfl h2) (by
    intro rel m hv hne
    have hd := hw.parents (loc fs.cwd path ++ rel) m hne
    have hok : ∀ x ∈ rel ++ [m], okName x := okName_rel hw (q := loc fs.cwd path) (by simpa using hne)
    refine makeFilter_answers hdb ?_
    have hl' : loc fs.cwd (joins path (rel ++ [m])) = loc fs.cwd path ++ (rel ++ [m]) := loc_joins _ _ hok
    have hloc : ∀ (r : List Bytes) (p : Path), (∀ x ∈ r, okName x) → fs.locate p = .ok (loc fs.cwd p) → fs.at (loc fs.cwd p ++ r) ≠ none →
        fs.locate (joins p r) = .ok (loc fs.cwd (joins p r)) := by
      intro r
      induction r with
      | nil => intro p _ h _; exact h
      | cons x r ih =>
        intro p hx h hne
        have hx1 := hx x (by simp)
        refine ih (Path.join p x) (fun y hy => hx y (by simp [hy])) (locate_join_ok hx1 h (hw.above (by simp) hne)) ?_
        rw [loc_join _ _ hx1]
        simpa using hne
    cases hat : fs.at (loc fs.cwd path ++ rel ++ [m]) with
    | none => exact absurd hat hne
    | some e =>
      refine ⟨e, metadata_of (hloc _ path hok hl (by simpa using hne)) (by rw [hl', ← hat]; simp) ?_⟩
      rintro rfl
      exact hr.links rel m hv hat)
  refine putFsItem_tot hw hns ⟨?_, ?_, ?_⟩
  · intro x hx c hc
    obtain ⟨h1, h2⟩ := (hns.mem hw x).mp hx
    unfold Node.isAt at h2
    rw [hc] at h2
    have hv : VisFile fs (makeFilter glob dbPath) path x.rel c := ⟨h1, content_some.mpr h2⟩
    exact ⟨hr.reads _ _ hv, hb.files _ _ hv⟩
  · intro x hx m hm'
    obtain ⟨h1, h2⟩ := (hns.mem hw x).mp hx
    refine hr.names x.rel h1 ?_ m hm'
    unfold Node.isAt at h2
    split at h2
    · obtain ⟨md, h2⟩ := h2; rw [h2]; simp
    · rw [h2]; simp
  · intro x _ _
    exact hb.dirs _

/-! ### The commands -/

theorem opens_folder {X : Ctx} {w : World} {R : Repo} {q : List Bytes} (ho : Opens X w R q) : ∃ e, w.fs.metadata R.folder = .ok e := by
  have key : ∀ (n : Nat) (d p : Path), findFrom w.fs X.dbPath n d = .ok (some p) → w.fs.exists p = true := by
    intro n
    induction n with
    | zero => intro d p h; simp [findFrom] at h
    | succ n ih =>
      intro d p h
      unfold findFrom at h
      split at h
      · rename_i he
        simp at h
        rw [← h]; exact he
      · split at h
        · exact ih _ _ h
        · simp at h
  have := key _ _ _ ho.1
  unfold Fs.exists at this
  cases hm : w.fs.metadata R.folder with
  | ok e => exact ⟨e, rfl⟩
  | _ => rw [hm] at this; simp [Res.isOk] at this

theorem parentsOf_total {db : Db} (h : Closed db) (n : Bytes) : ∃ ps, parentsOf db n = .ok ps ∧ ps.length ≤ 1 := by
  unfold parentsOf reflogGet
  cases hl : (refRows db n none).getLast? with
  | none => exact ⟨[], rfl, by simp⟩
  | some r =>
    obtain ⟨k, hk, _⟩ := h.refs r (List.mem_filter.mp (List.mem_of_getLast? hl)).1
    simp only [hk, fromDbKey_asDbKey]
    exact ⟨[k], rfl, by simp⟩

theorem finish_exit {X : Ctx} {w : World} {R : Repo} {q : List Bytes} {cmd : Command} (hc : cmd ≠ .init) (ho : Opens X w R q)
    (hcf : ∀ s, (cmd.inRepo X R (startOf w q)) = (.ok (), s) → s.cache.faults = []) :
    (mainRun X cmd w).1 = .success ↔ (cmd.inRepo X R (startOf w q)).1 = .ok () := by
  rw [mainRun_open hc ho, runIn_exit]
  cases hr : cmd.inRepo X R (startOf w q) with
  | mk r s =>
    cases r with
    | ok u => simp [Cache.finish, hcf s hr, exitOf]
    | _ => simp [exitOf]

theorem run_insert (X : Ctx) (R : Repo) (path : Path) (s : Sys) : (Command.insert path).inRepo X R s =
    match putFsItem X.E s.fs (makeFilter X.glob R.folder) X.depth path s.db with
    | (.ok k, d) => (.ok (), { s with db := d, out := s.out ++ [.key k] })
    | (.err e, d) => (.err e, { s with db := d })
    | (.panic, d) => (.panic, { s with db := d })
    | (.fuel, d) => (.fuel, { s with db := d }) := by
  show cmdInsert X R path s = _
  unfold cmdInsert
  refine (SM.bind_apply (σ := Sys) _ _ _).trans ?_
  rw [onDb_apply]
  cases putFsItem X.E s.fs (makeFilter X.glob R.folder) X.depth path s.db with
  | mk r d => cases r <;> rfl

/-- **C68**: `insert` without failing writes succeeds iff the path can be read. -/
theorem C68_insert (X : Ctx) (w : World) (hw : w.fs.Wf) (R : Repo) (q : List Bytes) (ho : Opens X w R q) (hf1 : (w.dbs q).faults = []) (hf2 : w.cache.faults = []) (path : Path)
    (hb : Bounded X.E w.fs (makeFilter X.glob R.folder) X.depth path) :
    (mainRun X (.insert path) w).1 = .success ↔ Readable X.E w.fs (makeFilter X.glob R.folder) path := by
  rw [finish_exit (by simp) ho, run_insert]
  · constructor
    · intro h
      show Readable X.E (startOf w q).fs _ _
      cases hp : putFsItem X.E (startOf w q).fs (makeFilter X.glob R.folder) X.depth path (startOf w q).db with
      | mk r d =>
        rw [hp] at h
        cases r with
        | ok k => exact putFsItem_needs hw (looks_makeFilter _ _) hp
        | _ => simp at h
    · intro h
      obtain ⟨k, d, hp, _⟩ := readable_tot hw (opens_folder ho) hb h (w.dbs q) hf1
      have hp : putFsItem X.E (startOf w q).fs (makeFilter X.glob R.folder) X.depth path (startOf w q).db = (.ok k, d) := hp
      rw [hp]
  · intro s hs
    rw [run_insert] at hs
    cases hp : putFsItem X.E (startOf w q).fs (makeFilter X.glob R.folder) X.depth path (startOf w q).db with
    | mk r d =>
      rw [hp] at hs
      cases r with
      | ok k => simp at hs; rw [← hs]; exact hf2
      | _ => simp at hs

theorem run_commit (X : Ctx) (R : Repo) (path : Option Path) (message : Bytes) (refname : Option Bytes) (s : Sys) {n : Bytes} {ps : List Key}
    (h1 : refOrHead s.db refname = .ok n) (h2 : parentsOf s.db n = .ok ps) : (Command.commit path message refname).inRepo X R s =
    onDb (do
      let key ← putFsItem X.E s.fs (makeFilter X.glob R.folder) X.depth (path.getD R.root)
      let ck ← Snap.commitTree X.E.H key ps { message := message }
      reflogPush n none ck) s := by
  show cmdCommit X R path message refname s = _
  unfold cmdCommit
  rw [readDb_bind, h1]
  simp only
  rw [readDb_bind, h2]
  simp only
  refine (SM.bind_apply (σ := Sys) _ _ _).trans ?_
  rw [onDb_apply, onDb_apply, SM.bind_apply]
  cases putFsItem X.E s.fs (makeFilter X.glob R.folder) X.depth (path.getD R.root) s.db with
  | mk r d =>
    cases r with
    | ok k =>
      simp only
      rw [SM.bind_apply, SM.bind_apply, onDb_apply]
      cases Snap.commitTree X.E.H k ps { message := message } d with
      | mk r d => cases r <;> rfl
    | _ => rfl

theorem commitTree_tot (H : Bytes → Key) (tree : Key) (ps : List Key) (message : Bytes) (hm : utf8 message = true) (hl : message.length + 100 < 2 ^ 64) (hp : ps.length ≤ 1) :
    Tot (Snap.commitTree H tree ps { message := message }) (fun _ => True) := by
  have ha : CommitAttrs.Storable { message := message } := ⟨⟨show message.length < 2 ^ 64 by omega, hm⟩, by simp, by simp⟩
  have ho : Commit.toObject ⟨tree, sortBy Key.le ps, { message := message }⟩ = .ok ⟨(CommitAttrs.toCbor { message := message }).enc, tree :: sortBy Key.le ps, .commit⟩ := by
    unfold Commit.toObject
    rw [if_pos ((CommitAttrs.toCbor_wf _).mpr ha)]
  have hlen : (CommitAttrs.toCbor { message := message }).enc.length ≤ message.length + 50 := by
    have h1 := cborHdr_length 3 message.length
    have h2 : (Cbor.text sMessage).enc.length ≤ 10 := by decide
    have h3 : (Cbor.text sExtra).enc.length ≤ 10 := by decide
    have h4 := cborHdr_length 5 2
    have h5 := cborHdr_length 5 0
    simp only [CommitAttrs.toCbor, Cbor.enc, Cbor.encList, List.length_append, List.length_nil, List.length_cons, Nat.reduceAdd, Nat.reduceDiv, List.flatMap_nil, Nat.zero_div] at *
    omega
  unfold Snap.commitTree
  refine Tot.bind (Tot.lift (p := fun o => o = ⟨(CommitAttrs.toCbor { message := message }).enc, tree :: sortBy Key.le ps, .commit⟩) ⟨_, ho, rfl⟩) ?_
  rintro o rfl
  exact tot_putObj H _ (by show (CommitAttrs.toCbor { message := message }).enc.length < _; omega) (by simp [(sortBy_perm Key.le ps).length_eq]; omega)

/-- **C68**: `commit` without failing writes succeeds iff there is a ref (the one given, or the one HEAD names) and the directory can be read. -/
theorem C68_commit (X : Ctx) (w : World) (hreach : w.Reachable X.E.H) (hw : w.fs.Wf) (R : Repo) (q : List Bytes) (ho : Opens X w R q) (hf1 : (w.dbs q).faults = []) (hf2 : w.cache.faults = [])
    (path : Option Path) (message : Bytes) (hm : utf8 message = true) (hl : message.length + 100 < 2 ^ 64) (refname : Option Bytes)
    (hb : Bounded X.E w.fs (makeFilter X.glob R.folder) X.depth (path.getD R.root)) :
    (mainRun X (.commit path message refname) w).1 = .success ↔
      (∃ n, refOrHead (w.dbs q) refname = .ok n) ∧ Readable X.E w.fs (makeFilter X.glob R.folder) (path.getD R.root) := by
  have hcl := World.Reachable.closed hreach q
  rw [finish_exit (by simp) ho]
  · constructor
    · intro h
      obtain ⟨n, ps, tree, d1, ck, d2, g1, g2, g3, g4, g5⟩ := cmdCommit_ok (X := X) (R := R) (s := startOf w q) (s' := ((Command.commit path message refname).inRepo X R (startOf w q)).2) (Prod.ext h rfl)
      exact ⟨⟨n, g1⟩, putFsItem_needs (fs := w.fs) hw (looks_makeFilter _ _) g3⟩
    · rintro ⟨⟨n, hn⟩, hr⟩
      obtain ⟨ps, hps, hlen⟩ := parentsOf_total hcl n
      rw [run_commit X R path message refname (startOf w q) hn hps, onDb_apply]
      have : Tot (do
          let key ← putFsItem X.E w.fs (makeFilter X.glob R.folder) X.depth (path.getD R.root)
          let ck ← Snap.commitTree X.E.H key ps { message := message }
          reflogPush n none ck) (fun _ => True) :=
        Tot.bind (readable_tot hw (opens_folder ho) hb hr) fun k _ => Tot.bind (commitTree_tot X.E.H k ps message hm hl hlen) fun ck _ => fun db hf => by
          refine ⟨(), { db with reflog := db.reflog ++ [⟨n, none, ck.asDbKey⟩] }, ?_, hf, trivial⟩
          unfold reflogPush write
          rw [hf]
          simp [hf]
      obtain ⟨u, d, e, _⟩ := this (w.dbs q) hf1
      have e : (do
          let key ← putFsItem X.E (startOf w q).fs (makeFilter X.glob R.folder) X.depth (path.getD R.root)
          let ck ← Snap.commitTree X.E.H key ps { message := message }
          reflogPush n none ck : M Unit) (startOf w q).db = (.ok u, d) := e
      rw [e]
  · intro s hs
    have : s.cache = w.cache := by
      have h : NoCache ((Command.commit path message refname).inRepo X R) :=
        noCache_bind (fun _ => rfl) fun _ => noCache_bind (fun _ => rfl) fun _ => noCache_bind (fun _ => rfl) fun _ => noCache_bind (fun _ => rfl) fun _ _ => rfl
      have := h (startOf w q)
      rw [hs] at this
      exact this
    rw [this]; exact hf2

/-! ### The working directory as it is -/

/-- **C67**, with conditions on the files only: `status` in a directory that can be read. -/
theorem C67_working (X : Ctx) (hit : IterOk X.iter) (w : World) (hreach : w.Reachable X.E.H) (hw : w.fs.Wf) (R : Repo) (q : List Bytes) (ho : Opens X w R q)
    (l : List Fs) (hu : World.Uses X.E l w) (hfa : FaithfulFs X.E (w.fs :: l)) (hf1 : (w.dbs q).faults = []) (hf2 : w.cache.faults = [])
    (head : Bytes) (ck : Key) (c : Commit) (hh : HeadCommit (w.dbs q) head ck c)
    (fs2 : Fs) (f2 : Filter) (n2 : Nat) (hn2 : n2 ≤ X.depth) (p2 : Path) (h2 : Snapshot X.E (w.dbs q) c.tree fs2 f2 n2 p2)
    (hcwd : loc w.fs.cwd R.root = w.fs.cwd) (hdir : w.fs.metadata R.root = .ok .dir)
    (hb : Bounded X.E w.fs (makeFilter X.glob R.folder) X.depth R.root) (hrd : Readable X.E w.fs (makeFilter X.glob R.folder) R.root)
    (hcoll : NoColl X.E.H (putFsItem X.E w.fs (makeFilter X.glob R.folder) X.depth R.root (w.dbs q)).2)
    (hr1 : ∀ rel c, VisFile w.fs (makeFilter X.glob R.folder) R.root rel c → FullyRead X.E (joins R.root rel) c ∧ FullyRead X.E (relPath rel) c)
    (hr2 : ∀ rel c, VisFile fs2 f2 p2 rel c → FullyRead X.E (joins p2 rel) c) :
    ((mainRun X .status w).1 = .panicked ↔ ∃ rel b, Shown fs2 f2 p2 rel b ∧ ∀ b', ¬ Shown w.fs (makeFilter X.glob R.folder) R.root rel b') ∧
    ((mainRun X .status w).1 ≠ .panicked → (mainRun X .status w).1 = .success ∧
      ∃ r, (mainRun X .status w).2.1 = [.headAt head (some (ck.asUserKey.take 8)), .result r] ∧ Reports w.fs (makeFilter X.glob R.folder) R.root fs2 f2 p2 r) := by
  obtain ⟨k, d, hp, _⟩ := readable_tot hw (opens_folder ho) hb hrd (w.dbs q) hf1
  rw [hp] at hcoll
  have hpre := ((isPuts_putFsItem X.E w.fs (makeFilter X.glob R.folder) X.depth R.root).grow (w.dbs q)).data
  rw [hp] at hpre
  have h1 : Snapshot X.E d k w.fs (makeFilter X.glob R.folder) X.depth R.root := ⟨hw, hdir, _, d, World.Reachable.inv hreach q, hp, hcoll, List.prefix_refl _⟩
  obtain ⟨g1, g2⟩ := C67_status X hit w R q ho l hu hfa hf1 hf2 head ck c hh d k fs2 f2 X.depth n2 (Nat.le_refl _) hn2 p2 h1 h2 hpre hcwd hr1 hr2
  have key : (∃ rel b, Shown fs2 f2 p2 rel b ∧ ∀ b', ¬ Shown w.fs (makeFilter X.glob R.folder) R.root rel b') ∨
      ∀ rel b, Shown fs2 f2 p2 rel b → ∃ b', Shown w.fs (makeFilter X.glob R.folder) R.root rel b' := by
    refine Classical.or_iff_not_imp_left.mpr fun h rel b hb => Classical.byContradiction fun hno => h ⟨rel, b, hb, fun b' hb' => hno ⟨b', hb'⟩⟩
  rcases key with h | h
  · exact ⟨⟨fun _ => h, g1⟩, fun hn => absurd (g1 h) hn⟩
  · obtain ⟨a1, r, a2, a3⟩ := g2 h
    refine ⟨⟨fun hp => ?_, g1⟩, fun _ => ⟨a1, r, a2, a3⟩⟩
    rw [a1] at hp
    simp at hp

end Snap.Props
