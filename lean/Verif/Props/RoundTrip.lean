import Verif.Props.Retrieve
import Verif.Props.SameKey
/-! Property C103: what was fetched, stored again. -/
namespace Snap.Props
open Snap
set_option linter.unusedSectionVars false
variable [Serde] [LawfulSerde]

namespace Spec
/-- What is read of the file is all of its contents, in pieces of at most 32768 bytes. -/
def ReadWhole (E : Env) (p : Path) (c : Bytes) : Prop := Spec.delivered (E.rd p c) = c ∧ Spec.readFails (E.rd p c) = false ∧ Spec.smallReads (E.rd p c)
/-- Every directory leads to a file. -/
def Filled (fs : Fs) (filter : Filter) (path : Path) : Prop :=
  ∀ rel, Visible fs filter path rel → fs.at (loc fs.cwd path ++ rel) = some .dir → ∃ r c, VisFile fs filter path (rel ++ r) c
/-- Whatever directory the two have in common lists its entries in the same order. -/
def SameOrder (fs : Fs) (filter : Filter) (path : Path) (fs' : Fs) (filter' : Filter) (path' : Path) : Prop :=
  ∀ rel, Visible fs filter path rel → Visible fs' filter' path' rel →
    (fs.names (loc fs.cwd path ++ rel)).filter (fun m => filter fs (joins path (rel ++ [m])) == .ok true) =
      (fs'.names (loc fs'.cwd path' ++ rel)).filter (fun m => filter' fs' (joins path' (rel ++ [m])) == .ok true)
/-- A directory entry without inode and time. -/
def bare : Ent → Ent
  | .file c _ => .file c ⟨0, 0⟩
  | e => e
/-- The files and directories at one place are a copy of those at another, regardless of inodes, times and the order in which they are listed. -/
def Copy (fs : Fs) (at_ : List Bytes) (fs' : Fs) (at' : List Bytes) : Prop := ∀ rel, (fs.at (at_ ++ rel)).map bare = (fs'.at (at' ++ rel)).map bare
end Spec

/-- Reading byte by byte. -/
def Env.bytewise (E : Env) : Env := { E with rd := fun _ c => c.map fun b => .data [b] }

theorem bytewise_whole (E : Env) (p : Path) (c : Bytes) : Spec.ReadWhole (Env.bytewise E) p c := by
  show Spec.delivered (c.map fun b => .data [b]) = c ∧ Spec.readFails (c.map fun b => .data [b]) = false ∧ Spec.smallReads (c.map fun b => .data [b])
  induction c with
  | nil => refine ⟨rfl, rfl, ?_⟩; simp [Spec.smallReads]
  | cons b c ih =>
    obtain ⟨h1, h2, h3⟩ := ih
    refine ⟨?_, ?_, ?_⟩
    · simp [Spec.delivered, h1]
    · simpa [Spec.readFails] using h2
    · simpa [Spec.smallReads] using h3

theorem putFile_whole {E : Env} {p : Path} {c : Bytes} (h : Spec.ReadWhole E p c) : putFile E p c = putFile (Env.bytewise E) p c := by
  have h' := bytewise_whole E p c
  unfold putFile
  rw [show putData E.table E.H (E.rd p c) = putData (Env.bytewise E).table (Env.bytewise E).H ((Env.bytewise E).rd p c) from
    funext fun db => C25_small_reads E.table E.H _ _ h.2.2 h'.2.2 (h.1.trans h'.1.symm) (h.2.1.trans h'.2.1.symm) db]
  rfl

theorem putEntries_congr {fs : Fs} {filter : Filter} {rec rec' : Path → M Key} {path : Path} {l : List Bytes}
    (h : ∀ m ∈ l, filter fs (Path.join path m) = .ok true → rec (Path.join path m) = rec' (Path.join path m)) :
    putEntries fs filter rec path l = putEntries fs filter rec' path l := by
  induction l with
  | nil => rfl
  | cons m l ih =>
    have ih := ih fun x hx => h x (List.mem_cons_of_mem _ hx)
    unfold putEntries
    rw [ih]
    funext db
    rw [SM.bind_apply, SM.bind_apply]
    simp only [SM.lift_apply]
    cases hf : filter fs (Path.join path m) with
    | ok b =>
      cases b with
      | true => simp only [if_true]; rw [h m (by simp) hf]
      | false => rfl
    | err e => rfl
    | panic => rfl
    | fuel => rfl

theorem putFsItem_whole {E : Env} {fs : Fs} (hw : fs.Wf) {filter : Filter} {n : Nat} {path : Path} (h : ∀ rel c, VisFile fs filter path rel c → Spec.ReadWhole E (joins path rel) c) :
    putFsItem E fs filter n path = putFsItem (Env.bytewise E) fs filter n path := by
  induction n generalizing path with
  | zero => rfl
  | succ n ih =>
    unfold putFsItem
    funext db
    rw [SM.bind_apply, SM.bind_apply]
    simp only [SM.lift_apply]
    cases hm : fs.metadata path with
    | err e => rfl
    | panic => rfl
    | fuel => rfl
    | ok e =>
      cases e with
      | special => rfl
      | broken => rfl
      | file c md =>
        simp only
        have hr : Spec.ReadWhole E path c := h [] c ⟨visible_nil _ _ _, content_some.mpr ⟨md, by simpa using (metadata_ok hm).2.1⟩⟩
        rw [putFile_whole hr]
      | dir =>
        simp only
        rw [SM.bind_apply, SM.bind_apply]
        simp only [SM.lift_apply]
        cases hr : fs.readDir path with
        | err e => rfl
        | panic => rfl
        | fuel => rfl
        | ok l =>
          simp only
          rw [putEntries_congr (rec := putFsItem E fs filter n) (rec' := putFsItem (Env.bytewise E) fs filter n)]
          · rfl
          · intro m hml hf
            obtain ⟨_, _, rfl⟩ := readDir_ok hr
            have hok : okName m := hw.okNames hml
            refine ih fun rel c hv => ?_
            have := h (m :: rel) c ⟨visible_cons.mpr ⟨hf, hv.1⟩, by
              have := hv.2
              rw [loc_join _ _ hok] at this
              simpa using this⟩
            simpa using this

theorem bytewise_eq {E E' : Env} (hH : E'.H = E.H) (ht : E'.table = E.table) : Env.bytewise E' = Env.bytewise E := by
  unfold Env.bytewise
  rw [hH, ht]

/-- **C103**: two directories with the same visible files, contents and directories, listed in the same order, get the same key, in whatever database and wherever they are, if their
files are read completely and in small pieces, however they are cut. -/
theorem C103_same (E E' : Env) (hH : E'.H = E.H) (ht : E'.table = E.table) (fs fs' : Fs) (hw : fs.Wf) (hw' : fs'.Wf) (filter filter' : Filter) (n n' : Nat) (path path' : Path)
    (hr : ∀ rel c, VisFile fs filter path rel c → Spec.ReadWhole E (joins path rel) c) (hr' : ∀ rel c, VisFile fs' filter' path' rel c → Spec.ReadWhole E' (joins path' rel) c)
    (hs : ∀ rel, Visible fs filter path rel → Visible fs' filter' path' rel → Fs.shape fs (loc fs.cwd path ++ rel) = Fs.shape fs' (loc fs'.cwd path' ++ rel))
    (ho : Spec.SameOrder fs filter path fs' filter' path') (db d db' d' : Db) (k k' : Key)
    (hp : putFsItem E fs filter n path db = (.ok k, d)) (hp' : putFsItem E' fs' filter' n' path' db' = (.ok k', d')) : k = k' := by
  rw [putFsItem_whole hw hr] at hp
  rw [putFsItem_whole hw' hr', bytewise_eq hH ht] at hp'
  exact C34_equal_keys (Env.bytewise E) fs fs' hw hw' filter filter' n n' path path' ⟨hs, ho, fun _ _ => rfl⟩ db d db' d' k k' hp hp'

theorem putFsItem_file {E : Env} {fs : Fs} {filter : Filter} {n : Nat} {path : Path} {c : Bytes} {md : FileMeta} (ha : fs.at (loc fs.cwd path) = some (.file c md)) {db d : Db} {k : Key}
    (hp : putFsItem E fs filter n path db = (.ok k, d)) : putFile E path c db = (.ok k, d) := by
  cases n with
  | zero => simp [putFsItem] at hp
  | succ n =>
    unfold putFsItem at hp
    obtain ⟨e, d1, h1, h2⟩ := bind_ok hp
    simp only [SM.lift_apply, Prod.mk.injEq] at h1
    obtain ⟨h1, rfl⟩ := h1
    rw [(metadata_ok h1).2.1] at ha
    obtain rfl := Option.some.inj ha
    exact h2

/-- What is at the destination of a fetch. -/
structure Arrived (fs : Fs) (filter : Filter) (path : Path) (fs' : Fs) (filter' : Filter) (path' : Path) : Prop where
  wf : fs.Wf
  wf' : fs'.Wf
  seen : ∀ rel, fs'.at (loc fs'.cwd path' ++ rel) ≠ none → Visible fs' filter' path' rel
  files : ∀ rel c, VisFile fs filter path rel c → fs'.content (loc fs'.cwd path' ++ rel) = some c
  nothing : ∀ rel, (∀ r c, ¬ VisFile fs filter path (rel ++ r) c) → fs'.at (loc fs'.cwd path' ++ rel) = none

theorem content_ne {fs : Fs} {q : List Bytes} {c : Bytes} (h : fs.content q = some c) : fs.at q ≠ none := by
  obtain ⟨md, h⟩ := content_some.mp h
  rw [h]; simp

theorem Arrived.onWay {fs fs' : Fs} {filter filter' : Filter} {path path' : Path} (h : Arrived fs filter path fs' filter' path') {rel : List Bytes}
    (ha : fs'.at (loc fs'.cwd path' ++ rel) ≠ none) : ∃ r c, VisFile fs filter path (rel ++ r) c :=
  Classical.byContradiction fun hn => ha (h.nothing rel fun r c hv => hn ⟨r, c, hv⟩)

theorem Arrived.visFile {fs fs' : Fs} {filter filter' : Filter} {path path' : Path} (h : Arrived fs filter path fs' filter' path') (rel : List Bytes) (c : Bytes) :
    VisFile fs filter path rel c ↔ VisFile fs' filter' path' rel c := by
  constructor
  · intro hv
    have := h.files rel c hv
    exact ⟨h.seen rel (content_ne this), this⟩
  · intro hv
    obtain ⟨r, c', hv'⟩ := h.onWay (content_ne hv.2)
    have hc' := h.files _ _ hv'
    by_cases hr : r = []
    · subst hr
      simp only [List.append_nil] at hv' hc'
      have e := hv.2
      rw [hc'] at e
      obtain rfl := Option.some.inj e
      exact hv'
    · have hc2 := content_ne hc'
      rw [← List.append_assoc] at hc2
      have := h.wf'.above hr hc2
      obtain ⟨md, e⟩ := content_some.mp hv.2
      rw [this] at e
      simp at e

theorem Arrived.filled {fs fs' : Fs} {filter filter' : Filter} {path path' : Path} (h : Arrived fs filter path fs' filter' path') : Spec.Filled fs' filter' path' := by
  intro rel _ hd
  obtain ⟨r, c, hv⟩ := h.onWay (rel := rel) (by rw [hd]; simp)
  exact ⟨r, c, (h.visFile _ _).mp hv⟩

theorem Arrived.shapes {fs fs' : Fs} {filter filter' : Filter} {path path' : Path} (h : Arrived fs filter path fs' filter' path') (hf : Spec.Filled fs filter path) (rel : List Bytes)
    (hv : Visible fs filter path rel) : Fs.shape fs (loc fs.cwd path ++ rel) = Fs.shape fs' (loc fs'.cwd path' ++ rel) := by
  have hdir : (∃ r c, r ≠ [] ∧ VisFile fs filter path (rel ++ r) c) → fs.at (loc fs.cwd path ++ rel) = some .dir ∧ fs'.at (loc fs'.cwd path' ++ rel) = some .dir := by
    rintro ⟨r, c, hr, hv'⟩
    have h1 := content_ne hv'.2
    have h2 := content_ne (h.files _ _ hv')
    rw [← List.append_assoc] at h1 h2
    exact ⟨h.wf.above hr h1, h.wf'.above hr h2⟩
  by_cases hd : ∃ r c, r ≠ [] ∧ VisFile fs filter path (rel ++ r) c
  · obtain ⟨h1, h2⟩ := hdir hd
    unfold Fs.shape
    rw [h1, h2]
  · by_cases hc : ∃ c, VisFile fs filter path rel c
    · obtain ⟨c, hc⟩ := hc
      obtain ⟨md, h1⟩ := content_some.mp hc.2
      obtain ⟨md', h2⟩ := content_some.mp (h.files _ _ hc)
      unfold Fs.shape
      rw [h1, h2]
    · have hn : ∀ r c, ¬ VisFile fs filter path (rel ++ r) c := by
        intro r c hx
        by_cases hr : r = []
        · subst hr; exact hc ⟨c, by simpa using hx⟩
        · exact hd ⟨r, c, hr, hx⟩
      have h2 := h.nothing rel hn
      have h1 : Fs.shape fs (loc fs.cwd path ++ rel) = none := by
        unfold Fs.shape
        cases ha : fs.at (loc fs.cwd path ++ rel) with
        | none => rfl
        | some e =>
          cases e with
          | dir =>
            obtain ⟨r, c, hx⟩ := hf rel hv ha
            exact (hn r c hx).elim
          | file c md => exact (hc ⟨c, hv, content_some.mpr ⟨md, ha⟩⟩).elim
          | special => rfl
          | broken => rfl
      rw [h1]
      unfold Fs.shape
      rw [h2]

/-- The key of a file of the tree. -/
theorem arrived_keys {E E' : Env} (hH : E'.H = E.H) (ht : E'.table = E.table) {fs fs' : Fs} {filter filter' : Filter} {path path' : Path} (h : Arrived fs filter path fs' filter' path')
    {n n' : Nat} {db d db' d' : Db} {k k' : Key} (hi : Inv E.H db) (hc : NoColl E.H d) (hp : putFsItem E fs filter n path db = (.ok k, d)) (hi' : Inv E'.H db') (hc' : NoColl E'.H d')
    (hp' : putFsItem E' fs' filter' n' path' db' = (.ok k', d')) (rel : List Bytes) (c : Bytes) (hv : VisFile fs filter path rel c) (hr : Spec.ReadWhole E (joins path rel) c)
    (hr' : Spec.ReadWhole E' (joins path' rel) c) {e e' : Db} (he : d.data <+: e.data) (he' : d'.data <+: e'.data) :
    ∃ m m' kf, walkItems e n k = .ok m ∧ walkItems e' n' k' = .ok m' ∧ (relPath rel, kf, false) ∈ m ∧ (relPath rel, kf, false) ∈ m' := by
  have main : ∀ {E : Env} {fs : Fs} {filter : Filter} {path : Path} {n : Nat} {db d e : Db} {k : Key}, fs.Wf → Inv E.H db → NoColl E.H d → putFsItem E fs filter n path db = (.ok k, d) →
      VisFile fs filter path rel c → Spec.ReadWhole E (joins path rel) c → d.data <+: e.data →
      ∃ m kf, walkItems e n k = .ok m ∧ (relPath rel, kf, false) ∈ m ∧ ∃ a b, putFile (Env.bytewise E) (joins path rel) c a = (.ok kf, b) := by
    intro E fs filter path n db d e k hw hi hc hp hv hr hde
    obtain ⟨ps, hst, hl, hpa, hmade⟩ := putFsItem_made hi hp hc
    obtain ⟨md, ha⟩ := content_some.mp hv.2
    have hm := (hl.mem hw ⟨rel, some c⟩).mpr ⟨hv.1, md, ha⟩
    obtain ⟨p, hp, hpe⟩ := List.mem_map.mp hm
    obtain ⟨h1, h2⟩ := hpa p hp
    rw [hpe] at h1 h2
    cases hc : p.1.node.content with
    | none => rw [hc] at h2; exact h2.elim
    | some c' =>
      refine ⟨_, p.1.key, walkItems_stored hw (hst.mono hde) hl hpa (Nat.le_refl _), List.mem_map.mpr ⟨p.1, List.mem_filter.mpr ⟨List.mem_map.mpr ⟨p, hp, rfl⟩, ?_⟩, ?_⟩, ?_⟩
      · simp [hc]
      · rw [h1, hc]; rfl
      · obtain ⟨⟨m, _, a, b, _, hput, _⟩, _⟩ := hmade p hp
        rw [hpe] at hput
        refine ⟨a, b, ?_⟩
        rw [← putFile_whole hr]
        have hok := hl.okNames hw _ hm
        exact putFsItem_file (md := md) (by rw [loc_joins _ _ hok]; exact ha) hput
  obtain ⟨m, kf, g1, g2, a, b, g3⟩ := main h.wf hi hc hp hv hr he
  obtain ⟨m', kf', g1', g2', a', b', g3'⟩ := main h.wf' hi' hc' hp' ((h.visFile _ _).mp hv) hr' he'
  rw [bytewise_eq hH ht] at g3'
  have : kf = kf' := isPuts_same (isPuts_putFile (Env.bytewise E) (joins path' rel) c) g3 g3'
  subst this
  exact ⟨m, m', kf, g1, g1', g2, g2'⟩

/-- From what C71 says about the destination, copied. -/
theorem arrived {fs dst dst' fs' : Fs} {filter filter' : Filter} {path to from_ : Path} (hw : fs.Wf) (hw' : fs'.Wf) (hdw : dst.Wf) (hfree : dst.at (loc dst.cwd to) = none)
    (h1 : ∀ rel c, VisFile fs filter path rel c → dst'.content (loc dst.cwd to ++ rel) = some c)
    (h2 : ∀ p, (∀ rel c, VisFile fs filter path rel c → ¬ p <+: loc dst.cwd to ++ rel) → dst'.at p = dst.at p)
    (hcopy : Spec.Copy dst' (loc dst.cwd to) fs' (loc fs'.cwd from_)) (hseen : ∀ rel, fs'.at (loc fs'.cwd from_ ++ rel) ≠ none → Visible fs' filter' from_ rel) :
    Arrived fs filter path fs' filter' from_ := by
  refine ⟨hw, hw', hseen, fun rel c hv => ?_, fun rel hn => ?_⟩
  · obtain ⟨md, e⟩ := content_some.mp (h1 rel c hv)
    have := hcopy rel
    rw [e] at this
    cases ha : fs'.at (loc fs'.cwd from_ ++ rel) with
    | none => rw [ha] at this; simp at this
    | some x =>
      rw [ha] at this
      cases x with
      | file c' md' =>
        simp [Spec.bare] at this
        subst this
        exact content_some.mpr ⟨md', ha⟩
      | _ => simp [Spec.bare] at this
  · have hnone : dst.at (loc dst.cwd to ++ rel) = none := by
      by_cases h0 : rel = []
      · subst h0; simpa using hfree
      · refine Classical.byContradiction fun h => ?_
        have := hdw.above h0 h
        rw [hfree] at this; simp at this
    have e := h2 (loc dst.cwd to ++ rel) (by
      intro rel' c hv ⟨t, ht⟩
      rw [List.append_assoc] at ht
      have := List.append_cancel_left ht
      subst this
      exact hn t c hv)
    rw [hnone] at e
    have := hcopy rel
    rw [e] at this
    cases ha : fs'.at (loc fs'.cwd from_ ++ rel) with
    | none => rfl
    | some x => rw [ha] at this; simp at this

/-- **C103**: `insert`, then anything, then `fetch` of the key, cut short, to a place where nothing is; then the files are copied to anywhere, and inserted there into whatever repository.
Each file gets the key it had. If every directory of the first tree led to a file and the entries are listed in the same order as they were, the key of the whole is the same.
The fetched tree has no directory that does not lead to a file; so from the second time on the order alone matters. -/
theorem C103_again (X : Ctx) (path : Path) (w : World) (hreach : w.Reachable X.E.H) (hw : w.fs.Wf) (R : Repo) (q : List Bytes) (h : Committed X (.insert path) w R q)
    (hcoll : NoColl X.E.H ((mainRun X (.insert path) w).2.2.dbs q))
    (hread : ∀ rel c, VisFile w.fs (makeFilter X.glob R.folder) path rel c → FullyRead X.E (joins path rel) c) :
    ∃ k, w.printed X (.insert path) = [.key k] ∧
    ∀ w2 : World, World.Steps X.E.H (mainRun X (.insert path) w).2.2 w2 → w2.fs.Wf → w2.fs.faults = [] → w2.cache.faults = [] →
    ∀ (Y : Ctx) (S : Repo) (arg : Bytes) (to : Path), Opens Y w2 S q → arg ≠ [] → Denotes (w2.dbs q) arg k → X.depth + 6 ≤ Y.depth → 0 ∉ to ∧ sDotDot ∉ to.comps →
      (w.fs.metadata path = .ok .dir ∨ to.lastIsName = true) → w2.fs.at (loc w2.fs.cwd to) = none → (∀ p, p <+: loc w2.fs.cwd to → w2.fs.at p = none ∨ w2.fs.at p = some .dir) →
      ∃ key, Keyish.fromStr arg = .ok key ∧ (mainRun Y (.fetch key to) w2).1 = .success ∧
      ∀ (v : World) (from_ : Path) (Z : Ctx) (T : Repo) (p : List Bytes), v.fs.Wf → Z.E.H = X.E.H → Z.E.table = X.E.table → Inv X.E.H (v.dbs p) →
        Spec.Copy (mainRun Y (.fetch key to) w2).2.2.fs (loc w2.fs.cwd to) v.fs (loc v.fs.cwd from_) →
        (∀ rel, v.fs.at (loc v.fs.cwd from_ ++ rel) ≠ none → Visible v.fs (makeFilter Z.glob T.folder) from_ rel) →
        (∀ rel c, VisFile v.fs (makeFilter Z.glob T.folder) from_ rel c → Spec.ReadWhole Z.E (joins from_ rel) c) →
        Committed Z (.insert from_) v T p → NoColl X.E.H ((mainRun Z (.insert from_) v).2.2.dbs p) →
        ∃ k', v.printed Z (.insert from_) = [.key k'] ∧
          (∀ rel c, VisFile w.fs (makeFilter X.glob R.folder) path rel c ↔ VisFile v.fs (makeFilter Z.glob T.folder) from_ rel c) ∧
          (∀ rel c, VisFile w.fs (makeFilter X.glob R.folder) path rel c → ∃ m m' kf, walkItems ((mainRun X (.insert path) w).2.2.dbs q) X.depth k = .ok m ∧
            walkItems ((mainRun Z (.insert from_) v).2.2.dbs p) Z.depth k' = .ok m' ∧ (relPath rel, kf, false) ∈ m ∧ (relPath rel, kf, false) ∈ m') ∧
          Spec.Filled v.fs (makeFilter Z.glob T.folder) from_ ∧
          (Spec.Filled w.fs (makeFilter X.glob R.folder) path →
            Spec.SameOrder w.fs (makeFilter X.glob R.folder) path v.fs (makeFilter Z.glob T.folder) from_ → k' = k) ∧
          (p = q → World.Steps X.E.H (mainRun X (.insert path) w).2.2 v → k' = k → Spec.Filled w.fs (makeFilter X.glob R.folder) path ∧
            Spec.SameOrder w.fs (makeFilter X.glob R.folder) path v.fs (makeFilter Z.glob T.folder) from_) := by
  obtain ⟨k, hk, hfetch⟩ := C71_insert_fetch X path w hreach hw R q h hcoll hread
  refine ⟨k, hk, ?_⟩
  intro w2 hs hw2 hf1 hf2 Y S arg to ho hne hden hdepth hto hname hnone hway
  obtain ⟨key, hkey, hgood, _⟩ := hfetch w2 hs hw2 hf1 hf2 Y S arg to ho hne hden.1
  obtain ⟨hok, hc1, hc2⟩ := hgood hden hdepth hto hname (by
    intro rel c _
    have hn : ∀ rel, w2.fs.at (loc w2.fs.cwd to ++ rel) = none := by
      intro rel
      by_cases h0 : rel = []
      · subst h0; simpa using hnone
      · refine Classical.byContradiction fun h => ?_
        have := hw2.above h0 h
        rw [hnone] at this; simp at this
    refine ⟨hn rel, fun p hp => ?_⟩
    rcases List.prefix_or_prefix_of_prefix hp (List.prefix_append (loc w2.fs.cwd to) rel) with h | ⟨t, h⟩
    · exact hway p h
    · exact .inl (h ▸ hn t))
  refine ⟨key, hkey, hok, ?_⟩
  intro v from_ Z T p hvw hH ht hvi hcopy hseen hwhole hcom hcoll'
  have harr := arrived (filter' := makeFilter Z.glob T.folder) hw hvw hw2 hnone hc1 hc2 hcopy hseen
  obtain ⟨k0, d, g1, g2, g3⟩ := insert_committed h
  obtain rfl : k0 = k := by
    rw [hk] at g1
    simpa using g1.symm
  obtain ⟨k', d', g1', g2', g3'⟩ := insert_committed hcom
  have hi := World.Reachable.inv hreach q
  have hcd : NoColl X.E.H d := g3.noColl hcoll
  have hcd' : NoColl X.E.H d' := g3'.noColl hcoll'
  have hvi' : Inv Z.E.H (v.dbs p) := hH ▸ hvi
  have hwhole0 : ∀ rel c, VisFile w.fs (makeFilter X.glob R.folder) path rel c → Spec.ReadWhole X.E (joins path rel) c := fun rel c hv => ⟨(hread rel c hv).1, (hread rel c hv).2.1, (hread rel c hv).2.2.1⟩
  refine ⟨k', g1', harr.visFile, ?_, harr.filled, ?_, ?_⟩
  · intro rel c hv
    exact arrived_keys hH ht harr hi hcd g2 hvi' (hH ▸ hcd') g2' rel c hv (hwhole0 rel c hv) (hwhole rel c ((harr.visFile rel c).mp hv)) (g3.1.1 ▸ List.prefix_refl _) (g3'.1.1 ▸ List.prefix_refl _)
  · intro hfill hord
    exact (C103_same X.E Z.E hH ht w.fs v.fs hw hvw _ _ X.depth Z.depth path from_ hwhole0 hwhole (fun rel hv _ => harr.shapes hfill rel hv) hord _ _ _ _ k0 k' g2 g2').symm
  · rintro rfl hsub rfl
    have hpre : d.data <+: (v.dbs p).data := by
      have := steps_data hsub p
      rwa [g3.1.1] at this
    have hgrow : (v.dbs p).data <+: d'.data := by
      have := (isPuts_putFsItem Z.E v.fs (makeFilter Z.glob T.folder) Z.depth from_).grow (v.dbs p)
      rw [g2'] at this
      exact this.data
    have hnot : ∀ rel c, VisFile w.fs (makeFilter X.glob R.folder) path rel c → ¬ Spec.Spilled ((Spec.cuts X.E.table 0#64 [] c).1.map Prod.snd) := fun rel c hv => (hread rel c hv).2.2.2
    have hfull : ∀ (b : Path) rel c, VisFile w.fs (makeFilter X.glob R.folder) path rel c → FullyRead (Env.bytewise X.E) (joins b rel) c := fun b rel c hv =>
      have hb := bytewise_whole X.E (joins b rel) c
      ⟨hb.1, hb.2.1, hb.2.2, hnot rel c hv⟩
    have a : PutIn (Env.bytewise X.E) d' k' w.fs (makeFilter X.glob R.folder) X.depth path :=
      ⟨hw, ⟨_, d, hi, by rw [← putFsItem_whole hw hwhole0]; exact g2, hcd, hpre.trans hgrow⟩, hfull path⟩
    have b : PutIn (Env.bytewise X.E) d' k' v.fs (makeFilter Z.glob T.folder) Z.depth from_ :=
      ⟨hvw, ⟨_, d', hvi, by rw [← bytewise_eq hH ht, ← putFsItem_whole hvw hwhole]; exact g2', hcd', List.prefix_refl _⟩, fun rel c hv => hfull from_ rel c ((harr.visFile rel c).mpr hv)⟩
    obtain ⟨_, c2, c3⟩ := C34_same_key (Env.bytewise X.E) d' k' _ _ _ _ _ _ _ _ a b
    refine ⟨fun rel hv hd => ?_, c3⟩
    obtain ⟨_, hd'⟩ := (c2 rel).mp ⟨hv, hd⟩
    exact harr.onWay (by rw [hd']; simp)

end Snap.Props
