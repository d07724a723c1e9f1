import Verif.Props.Restore
import Verif.Props.Clean
import Verif.Props.Progress
import Verif.Props.Types
/-! C85: a working directory that agrees with HEAD's commit is clean, whoever made it agree; so it is after a checkout. -/
namespace Snap.Props
open Snap
set_option linter.unusedSectionVars false
variable [Serde] [LawfulSerde]

/-! ### A directory that agrees with a snapshot -/

/-- Two directories, each seen through a filter, hold the same: the same paths of the same kind, with the same contents. -/
structure SameTree (fs : Fs) (f : Filter) (path : Path) (fs2 : Fs) (f2 : Filter) (p2 : Path) : Prop where
  shown : ∀ rel b, Shown fs f path rel b ↔ Shown fs2 f2 p2 rel b
  files : ∀ rel c, rel ≠ [] → VisFile fs f path rel c → VisFile fs2 f2 p2 rel c

/-- The directory can be walked: only files and directories, and no deeper than the model's bound. -/
structure Walkable (fs : Fs) (f : Filter) (n : Nat) (path : Path) : Prop where
  dir : fs.metadata path = .ok .dir
  links : ∀ rel m, Visible fs f path rel → fs.at (loc fs.cwd path ++ rel ++ [m]) ≠ some .broken
  types : ∀ rel, Visible fs f path rel → fs.at (loc fs.cwd path ++ rel) ≠ some .special
  depth : ∀ rel, fs.at (loc fs.cwd path ++ rel) ≠ none → rel.length < n

theorem Walkable.walk {fs : Fs} (hw : fs.Wf) {glob : Path → Bool} {dbPath : Path} (hdb : ∃ e, fs.metadata dbPath = .ok e) {n : Nat} {path : Path}
    (h : Walkable fs (makeFilter glob dbPath) n path) :
    ∃ m, walkReal fs (makeFilter glob dbPath) n path = .ok m ∧ ∀ p b, (p, b) ∈ m ↔ ∃ rel, p = relPath rel ∧ Shown fs (makeFilter glob dbPath) path rel b := by
  obtain ⟨hl, ha, _⟩ := metadata_ok h.dir
  have hnb : ∀ rel, Visible fs (makeFilter glob dbPath) path rel → fs.at (loc fs.cwd path ++ rel) ≠ some .broken := by
    intro rel hv
    cases List.eq_nil_or_concat rel with
    | inl e => subst e; rw [List.append_nil, ha]; simp
    | inr e =>
      obtain ⟨r, m, rfl⟩ := e
      have := h.links r m (hv.prefix (by rw [List.concat_eq_append]; exact List.prefix_append r [m]))
      simpa using this
  obtain ⟨ns, hns⟩ := listed_exists hw n hl (by rw [ha]; simp) h.depth (by
    intro rel e hv hat
    have h1 := h.types rel hv
    have h2 := hnb rel hv
    rw [hat] at h1 h2
    cases e with
    | dir => exact .inl rfl
    | file c md => exact .inr ⟨c, md, rfl⟩
    | special => simp at h1
    | broken => simp at h2) (by
    intro rel m hv hat
    refine makeFilter_answers hdb ?_
    cases hx : fs.at (loc fs.cwd path ++ rel ++ [m]) with
    | none => exact absurd hx hat
    | some e =>
      refine ⟨e, metadata_joins hw hl (by rw [← List.append_assoc]; exact hx) ?_⟩
      rintro rfl
      exact h.links rel m hv hx)
  refine ⟨_, walkReal_listed hw hns h.dir (Nat.le_refl _), fun p b => ?_⟩
  rw [listed_entries hw hns h.dir]
  constructor
  · rintro ⟨rel, h1, h2, h3, h4⟩; exact ⟨rel, h2, h1, h3, h4⟩
  · rintro ⟨rel, h2, h1, h3, h4⟩; exact ⟨rel, h1, h2, h3, h4⟩

/-- Comparing a directory with a snapshot it agrees with. -/
theorem compare_same {E : Env} {db : Db} {ca : Cache} {t : Key} {fs fs2 : Fs} {glob : Path → Bool} {dbPath : Path} {f2 : Filter} {n2 n : Nat} {path p2 : Path} (hw : fs.Wf)
    (hdb : ∃ e, fs.metadata dbPath = .ok e) (h1 : Walkable fs (makeFilter glob dbPath) n path) (h2 : Snapshot E db t fs2 f2 n2 p2) (hn : n2 ≤ n)
    (hs : SameTree fs (makeFilter glob dbPath) path fs2 f2 p2)
    (hr1 : ∀ rel c, VisFile fs (makeFilter glob dbPath) path rel c → FullyRead E (joins path rel) c) (hr2 : ∀ rel c, VisFile fs2 f2 p2 rel c → FullyRead E (joins p2 rel) c)
    (hf : db.faults = []) {L : List (Fs × Path)} (hh : CacheRight E L ca)
    (hfa : ∀ l, (∀ x ∈ l, x.1 = fs) → Faithful E (L ++ l)) {iter : Nat → List Path → List Path} (hi : IterOk iter) :
    ∃ s', compare E fs iter n (.fileSystem path glob dbPath) (some t) (db, ca) = (.ok ⟨[], [], []⟩, s') ∧ s'.1.faults = [] ∧ (ca.faults = [] → s'.2.faults = []) := by
  obtain ⟨m, hm, hmem⟩ := h1.walk hw hdb
  obtain ⟨B, hB⟩ := h2.walked_later hn
  obtain ⟨hB, wB⟩ := hB db (List.prefix_refl _)
  have okm := walkReal_okMap hm
  have hmB : ∀ p b, (p, b) ∈ m ↔ ∃ kf, (p, kf, b) ∈ B := by
    intro p b
    rw [hmem]
    constructor
    · rintro ⟨rel, rfl, h⟩
      exact wB.shown _ _ ((hs.shown rel b).mp h)
    · rintro ⟨kf, h⟩
      obtain ⟨rel, e, h'⟩ := wB.only _ _ _ h
      exact ⟨rel, e, (hs.shown rel b).mpr h'⟩
  have hkey : ∀ p kf, (p, kf, false) ∈ B → keyAt E fs (Path.join path p) = some kf := by
    intro p kf hp
    obtain ⟨rel, rfl, hsh⟩ := wB.only _ _ _ hp
    have hsh1 := (hs.shown rel false).mpr hsh
    have ok1 := hsh1.okNames hw
    obtain ⟨c, hc⟩ : ∃ c, fs.content (loc fs.cwd path ++ rel) = some c := by
      rcases hsh1.2.2 with ⟨h, _⟩ | ⟨_, h⟩
      · simp at h
      · exact h
    have hv2 := hs.files rel c hsh1.1 ⟨hsh1.2.1, hc⟩
    obtain ⟨⟨d, d', g1⟩, _⟩ := wB.file rel kf c hp ok1 hv2.2
    obtain ⟨md, ha⟩ := content_some.mp hc
    obtain ⟨hloc, _⟩ := metadata_ok h1.dir
    rw [join_relPath (fun m hm => (ok1 m hm).comp) hsh1.1]
    refine keyAt_some.mpr ⟨c, md, metadata_joins hw hloc ha (by simp), ?_⟩
    have := fileKey_of_put g1
    unfold fileKey at this ⊢
    rwa [putFile_alike (hr1 rel c ⟨hsh1.2.1, hc⟩) (hr2 rel c hv2)]
  have hlook : ∀ x ∈ looksAt fs path m, x.1 = fs := by
    intro x hx
    obtain ⟨e, _, he⟩ := List.mem_flatMap.mp hx
    simp at he
    rcases he with rfl | rfl <;> rfl
  have hcmp := (C50_exact E fs iter hi n path dbPath glob (some t) db ca m B hm hB hf L hh (hfa _ hlook)
    (fun x hx hno => by obtain ⟨kf, hk⟩ := (hmB _ _).mp hx; exact (hno _ hk).elim)
    (fun x v hx hv => by
      obtain ⟨kf, hk⟩ := (hmB _ _).mp hx
      exact ⟨kf, hkey _ _ hk⟩)).2 (fun e he => ⟨e.2.2, (hmB _ _).mpr ⟨e.2.1, he⟩⟩)
  obtain ⟨r, s', h1, h2, h3, h4, _⟩ := hcmp
  refine ⟨s', ?_, h3, h4⟩
  rw [h1]
  have ha : r.added = [] := by
    rw [List.eq_nil_iff_forall_not_mem]
    intro e he
    obtain ⟨e1, e2, _⟩ := (h2.added e).mp he
    obtain ⟨kf, hk⟩ := (hmB _ _).mp e1
    exact e2 _ hk
  have hmo : r.modified = [] := by
    rw [List.eq_nil_iff_forall_not_mem]
    intro e he
    obtain ⟨e1, ⟨d, e2⟩, e3, e4⟩ := (h2.modified e).mp he
    obtain ⟨kf, hk⟩ := (hmB _ _).mp e1
    rw [hkey _ _ hk] at e3
    simp at e3
    subst e3
    have hn := okm.key_norm (mem_keys.mpr ⟨_, e1⟩)
    have g1 := (PMap.get_iff wB.ok hn).mpr hk
    have g2 := (PMap.get_iff wB.ok hn).mpr e2
    rw [g1] at g2
    simp at g2
    exact e4 g2.1
  have := h2.deleted
  cases r
  simp only at ha hmo this
  subst ha; subst hmo; subst this
  rfl

/-- **C85**: whoever made the working directory agree with the tree of HEAD's newest commit — the same paths of the same kinds with the same contents, as seen by the
program — `status` finds no difference and ends well, and `checkout-head` sets HEAD. (The tree was stored from some directory at some time; files are read fully, at
either place; the cache has only seen trees in which equal inode, time and size mean equal contents; no write fails.) -/
theorem C85_agrees (X : Ctx) (hit : IterOk X.iter) (w : World) (hw : w.fs.Wf) (R : Repo) (q : List Bytes) (ho : Opens X w R q) (l : List Fs) (hu : World.Uses X.E l w)
    (hfa : FaithfulFs X.E (w.fs :: l)) (hf1 : (w.dbs q).faults = []) (hf2 : w.cache.faults = []) (head : Bytes) (ck : Key) (c : Commit)
    (hhead : HeadCommit (w.dbs q) head ck c) (fs2 : Fs) (f2 : Filter) (n2 : Nat) (p2 : Path) (hn : n2 ≤ X.depth) (hs : Snapshot X.E (w.dbs q) c.tree fs2 f2 n2 p2)
    (hwalk : Walkable w.fs (makeFilter X.glob R.folder) X.depth R.root) (hsame : SameTree w.fs (makeFilter X.glob R.folder) R.root fs2 f2 p2)
    (hr1 : ∀ rel c, VisFile w.fs (makeFilter X.glob R.folder) R.root rel c → FullyRead X.E (joins R.root rel) c)
    (hr2 : ∀ rel c, VisFile fs2 f2 p2 rel c → FullyRead X.E (joins p2 rel) c) :
    ((mainRun X .status w).1 = .success ∧ (mainRun X .status w).2.1 = [.headAt head (some (ck.asUserKey.take 8)), .result ⟨[], [], []⟩]) ∧
    ∀ n, (mainRun X (.checkoutHead n) w).1 = .success ∧ (mainRun X (.checkoutHead n) w).2.1 = [.text sNewHead] ∧
      rawGetState ((mainRun X (.checkoutHead n) w).2.2.dbs q) sHEAD = .ok (some n) := by
  obtain ⟨L, hL, hcr⟩ := uses_right hu
  have hfa' : ∀ l', (∀ x ∈ l', x.1 = w.fs) → Faithful X.E (L ++ l') := by
    intro l' hl'
    refine hfa.faithful fun x hx => ?_
    rcases List.mem_append.mp hx with hx | hx
    · exact List.mem_cons_of_mem _ (hL x hx)
    · rw [hl' x hx]; exact List.mem_cons_self
  obtain ⟨s', hcmp, hsf, hcf⟩ := compare_same hw (opens_folder ho) hwalk hs hn hsame hr1 hr2 hf1 hcr hfa' hit
  exact clean_run ho hhead.1 hhead.2.1 hhead.2.2 hcmp hsf (hcf hf2)

/-! ### After a checkout -/

theorem accepts_of {glob : Path → Bool} {dbPath : Path} {fs : Fs} (hdb : ∃ e, fs.metadata dbPath = .ok e) {p : Path} (hp : ∃ e, fs.metadata p = .ok e)
    (h : accepts glob dbPath fs.cwd p = true) : makeFilter glob dbPath fs p = .ok true := by
  obtain ⟨b, hb⟩ := makeFilter_answers (glob := glob) hdb hp
  rw [hb, makeFilter_accepts hb, h]

/-- What a successful checkout leaves agrees with what was stored. -/
theorem checkout_sameTree {E : Env} {db : Db} {k : Key} {src : Fs} {glob : Path → Bool} {dbPath : Path} {n : Nat} {to : Path}
    (hs : Snapshot E db k src (makeFilter glob dbPath) n to) (hr : ∀ rel c, VisFile src (makeFilter glob dbPath) to rel c → FullyRead E (joins to rel) c)
    {dst dst' : Fs} (hdw : dst.Wf) (hcwd : src.cwd = dst.cwd) (hto : 0 ∉ to ∧ sDotDot ∉ to.comps) {iter : List Bytes → List Bytes} (hiter : ∀ l, (iter l).Perm l) {fuel : Nat}
    (hfuel : n + 6 ≤ fuel) (h : checkoutFsItem db (makeFilter glob dbPath) iter fuel k to dst = (.ok (), dst')) (hw' : dst'.Wf) (hcwd' : dst'.cwd = dst.cwd)
    (hdb : ∃ e, dst'.metadata dbPath = .ok e)
    (hdir : dst'.metadata to = .ok .dir) : SameTree dst' (makeFilter glob dbPath) to src (makeFilter glob dbPath) to := by
  obtain ⟨d, d', hi, hput, hnc, hpre⟩ := hs.put
  obtain ⟨c1, c2, _⟩ := C37_restores E src hs.wf _ n to d d' db k hi hput hnc hpre dst dst' hdw to hto glob dbPath iter hiter fuel hfuel h
  obtain ⟨nds, hl⟩ := putFsItem_listed hput
  have hloc := (metadata_ok hdir).1
  -- what was there is there again
  have fwd : ∀ rel, Visible src (makeFilter glob dbPath) to rel → src.at (loc src.cwd to ++ rel) ≠ none →
      (src.at (loc src.cwd to ++ rel) = some .dir ∧ dst'.at (loc dst'.cwd to ++ rel) = some .dir) ∨
      ∃ c, VisFile src (makeFilter glob dbPath) to rel c ∧ dst'.content (loc dst'.cwd to ++ rel) = some c := by
    intro rel hv hat
    obtain ⟨e, he⟩ := Option.ne_none_iff_exists'.mp hat
    rcases hl.complete hs.wf hv he with rfl | ⟨c, md, rfl⟩
    · left; rw [hcwd']; exact ⟨he, (c2 rel hv he).1⟩
    · right
      have hvf : VisFile src (makeFilter glob dbPath) to rel c := ⟨hv, content_some.mpr ⟨md, he⟩⟩
      obtain ⟨c', h1, h2⟩ := c1 rel c hvf
      rw [readBack_full (hr rel c hvf) h2] at h1
      rw [hcwd']; exact ⟨c, hvf, h1⟩
  have fwdAt : ∀ rel, Visible src (makeFilter glob dbPath) to rel → src.at (loc src.cwd to ++ rel) ≠ none → dst'.at (loc dst'.cwd to ++ rel) ≠ none ∧ dst'.at (loc dst'.cwd to ++ rel) ≠ some .broken := by
    intro rel hv hat
    rcases fwd rel hv hat with ⟨_, h⟩ | ⟨c, _, h⟩
    · rw [h]; simp
    · obtain ⟨md, h⟩ := content_some.mp h; rw [h]; simp
  have fwdV : ∀ rel, Visible src (makeFilter glob dbPath) to rel → src.at (loc src.cwd to ++ rel) ≠ none → Visible dst' (makeFilter glob dbPath) to rel := by
    intro rel hv hat r hr0 hpr
    have hvr := hv.prefix hpr
    have har : src.at (loc src.cwd to ++ r) ≠ none := by
      obtain ⟨t, rfl⟩ := hpr
      by_cases ht : t = []
      · subst ht; simpa using hat
      · rw [← List.append_assoc] at hat
        rw [hs.wf.above ht hat]; simp
    obtain ⟨b1, b2⟩ := fwdAt r hvr har
    obtain ⟨e, he⟩ := Option.ne_none_iff_exists'.mp b1
    have h1 := hv r hr0 hpr
    refine accepts_of hdb ⟨e, metadata_joins hw' hloc he (by rintro rfl; exact b2 he)⟩ ?_
    rw [hcwd', ← hcwd]
    exact (makeFilter_accepts h1).symm
  -- and nothing else is
  have bwd : ∀ rel, Visible dst' (makeFilter glob dbPath) to rel → (∃ b, KindAt dst' (loc dst'.cwd to ++ rel) b) →
      Visible src (makeFilter glob dbPath) to rel ∧ src.at (loc src.cwd to ++ rel) ≠ none := by
    intro rel
    induction h : rel.length generalizing rel with
    | zero =>
      intro _ _
      rw [List.length_eq_zero_iff] at h
      subst h
      exact ⟨visible_nil _ _ _, by rw [List.append_nil, (metadata_ok hs.dir).2.1]; simp⟩
    | succ len ih =>
      intro hv hk
      cases List.eq_nil_or_concat rel with
      | inl e => subst e; simp at h
      | inr e =>
        obtain ⟨r, m, rfl⟩ := e
        rw [List.concat_eq_append] at hv hk h ⊢
        obtain ⟨e, he, hreg⟩ : ∃ e, dst'.at (loc dst'.cwd to ++ (r ++ [m])) = some e ∧ (e = .dir ∨ ∃ c md, e = .file c md) := by
          obtain ⟨b, hk⟩ := hk
          rcases hk with ⟨_, hk⟩ | ⟨_, c, hk⟩
          · exact ⟨_, hk, .inl rfl⟩
          · obtain ⟨md, hk⟩ := content_some.mp hk; exact ⟨_, hk, .inr ⟨c, md, rfl⟩⟩
        rw [← List.append_assoc] at he
        have hpar := hw'.parents _ _ (by rw [he]; simp)
        obtain ⟨i1, i2⟩ := ih r (by simpa using h) (hv.prefix (List.prefix_append _ _)) ⟨true, .inl ⟨rfl, hpar⟩⟩
        have hsd : src.at (loc src.cwd to ++ r) = some .dir := by
          rcases fwd r i1 i2 with ⟨h1, _⟩ | ⟨c, _, h2⟩
          · exact h1
          · obtain ⟨md, h2⟩ := content_some.mp h2; rw [hpar] at h2; simp at h2
        have hacc := makeFilter_accepts (hv (r ++ [m]) (by simp) (List.prefix_refl _))
        have hok : okName m := by
          have : dst'.at ((loc dst'.cwd to) ++ (r ++ [m])) ≠ none := by rw [← List.append_assoc, he]; simp
          exact okName_rel hw' this m (by simp)
        have hoks : ∀ x ∈ r ++ [m], okName x := by
          have : dst'.at ((loc dst'.cwd to) ++ (r ++ [m])) ≠ none := by rw [← List.append_assoc, he]; simp
          exact okName_rel hw' this
        unfold accepts at hacc
        rw [loc_joins _ _ hoks, hcwd'] at hacc
        have hacc := hacc.symm
        rw [Bool.and_eq_true, Bool.not_eq_true', Bool.not_eq_true'] at hacc
        rw [hcwd'] at he
        have := (c2 r i1 hsd).2 m e he hreg (by
          intro hp
          have hp' := List.isPrefixOf_iff_prefix.mpr hp
          rw [List.append_assoc] at hp'
          rw [hp'] at hacc
          simp at hacc) hacc.2
        rw [List.append_assoc] at this
        exact this
  have kinds : ∀ rel, Visible src (makeFilter glob dbPath) to rel → src.at (loc src.cwd to ++ rel) ≠ none → ∀ b, KindAt dst' (loc dst'.cwd to ++ rel) b ↔ KindAt src (loc src.cwd to ++ rel) b := by
    intro rel hv hat b
    rcases fwd rel hv hat with ⟨h1, h2⟩ | ⟨c, h1, h2⟩
    · unfold KindAt Fs.content; rw [h1, h2]
    · unfold KindAt
      obtain ⟨md, h3⟩ := content_some.mp h2
      obtain ⟨md', h4⟩ := content_some.mp h1.2
      rw [h1.2, h2, h3, h4]; simp
  refine ⟨fun rel b => ⟨fun ⟨h0, hv, hk⟩ => ?_, fun ⟨h0, hv, hk⟩ => ?_⟩, fun rel c h0 hv => ?_⟩
  · obtain ⟨b1, b2⟩ := bwd rel hv ⟨b, hk⟩
    exact ⟨h0, b1, (kinds rel b1 b2 b).mp hk⟩
  · have hat : src.at (loc src.cwd to ++ rel) ≠ none := by
      rcases hk with ⟨_, hk⟩ | ⟨_, c, hk⟩
      · rw [hk]; simp
      · obtain ⟨md, hk⟩ := content_some.mp hk; rw [hk]; simp
    exact ⟨h0, fwdV rel hv hat, (kinds rel hv hat b).mpr hk⟩
  · obtain ⟨b1, b2⟩ := bwd rel hv.1 ⟨false, .inr ⟨rfl, c, hv.2⟩⟩
    rcases fwd rel b1 b2 with ⟨_, h2⟩ | ⟨c', h1, h2⟩
    · obtain ⟨md, h3⟩ := content_some.mp hv.2; rw [h2] at h3; simp at h3
    · rw [hv.2] at h2; simp at h2; subst h2; exact h1

/-- A `checkout` that ends well leaves the database as it was. -/
theorem checkout_sameDb {X : Ctx} {w : World} {R : Repo} {q : List Bytes} (ho : Opens X w R q) (hf : (w.dbs q).faults = []) {ck : Key} {c : Commit}
    (h1 : getHeadKey (w.dbs q) = .ok ck) (h2 : Commit.fromKey (w.dbs q) ck = .ok c) {fs' : Fs}
    (h : checkoutFsItem (w.dbs q) (makeFilter X.glob R.folder) X.iterNames X.depth c.tree R.root w.fs = (.ok (), fs')) :
    SameDb ((mainRun X .checkout w).2.2.dbs q) (w.dbs q) ∧ (mainRun X .checkout w).2.2.fs = fs' := by
  have hrun := checkout_run X R (startOf w q) (ck := ck) (c := c) h1 h2
  rw [mainRun_open (by simp) ho]
  have hr : Command.checkout.inRepo X R (startOf w q) = (.ok (), { startOf w q with fs := fs' }) := by
    rw [hrun]
    show ((checkoutFsItem (w.dbs q) (makeFilter X.glob R.folder) X.iterNames X.depth c.tree R.root w.fs).1,
      { startOf w q with fs := (checkoutFsItem (w.dbs q) (makeFilter X.glob R.folder) X.iterNames X.depth c.tree R.root w.fs).2 }) = _
    rw [h]
  constructor
  · have := runIn_committed X R q .checkout w () (by rw [hr]) (by
      rw [hr]; intro fs; show (w.dbs q).faults ≠ _; rw [hf]; simp)
    rw [hr] at this
    exact this
  · show (Command.checkout.inRepo X R (startOf w q)).2.fs = fs'
    rw [hr]

theorem HeadCommit.same {a b : Db} {head : Bytes} {ck : Key} {c : Commit} (h : HeadCommit b head ck c) (hs : SameTables a b) : HeadCommit a head ck c := by
  obtain ⟨h1, h2, h3⟩ := h
  refine ⟨?_, ?_, fromKey_mono (by rw [hs.1]; exact List.prefix_refl _) h3⟩
  · unfold getHead rawGetState at h1 ⊢; rw [hs.2.1]; exact h1
  · unfold reflogGet refRows at h2 ⊢; rw [hs.2.2]; exact h2

theorem checkout_cwd {E : Env} {db : Db} {k : Key} {src : Fs} {glob : Path → Bool} {dbPath : Path} {filter : Filter} {n : Nat} {to p2 : Path}
    (hs : Snapshot E db k src filter n p2) {dst dst' : Fs} (hdw : dst.Wf) (hto : 0 ∉ to ∧ sDotDot ∉ to.comps) {iter : List Bytes → List Bytes} (hiter : ∀ l, (iter l).Perm l)
    {fuel : Nat} (hfuel : n + 6 ≤ fuel) (h : checkoutFsItem db (makeFilter glob dbPath) iter fuel k to dst = (.ok (), dst')) : dst'.cwd = dst.cwd := by
  obtain ⟨d, d', hi, hput, hnc, hpre⟩ := hs.put
  obtain ⟨ns, h1, h2, h3, _, _, _⟩ := put_nodes hs.wf hi hput hnc
  exact (checkout_ok (h1.mono hpre) h2 h3 hfuel hto (fun l x => (hiter l).mem_iff) (acc := accepts glob dbPath dst.cwd)
    (fun f p b hf hb => by rw [makeFilter_accepts hb, hf]) (wf_atWf hdw) (wf_atNames hdw) h).1

/-- **C85**, after a `checkout`: if HEAD's newest commit was made in the repository's directory at some time (from the same working directory and with the same exclude
patterns, all files being read fully), and `checkout` ends well, then the directory agrees with what was committed; and as long as nobody touches files or database, the
directory still holding only files and directories, `status` finds no difference and ends well, and `checkout-head` sets HEAD. -/
theorem C85_checkout (X : Ctx) (hit : IterOk X.iter) (hnames : ∀ l, (X.iterNames l).Perm l) (hplain : okName X.dbPath) (w : World) (hw : w.fs.Wf) (R : Repo) (q : List Bytes) (ho : Opens X w R q)
    (hf : (w.dbs q).faults = []) (head : Bytes) (ck : Key) (c : Commit) (hhead : HeadCommit (w.dbs q) head ck c)
    (fs2 : Fs) (n2 : Nat) (hn : n2 + 6 ≤ X.depth) (hs : Snapshot X.E (w.dbs q) c.tree fs2 (makeFilter X.glob R.folder) n2 R.root) (hcwd : fs2.cwd = w.fs.cwd)
    (hr : ∀ rel c, VisFile fs2 (makeFilter X.glob R.folder) R.root rel c → FullyRead X.E (joins R.root rel) c)
    (hok : (mainRun X .checkout w).1 = .success)
    (w2 : World) (hfs : w2.fs = (mainRun X .checkout w).2.2.fs) (hdb : SameDb (w2.dbs q) ((mainRun X .checkout w).2.2.dbs q)) (hw2 : w2.fs.Wf) (ho2 : Opens X w2 R q)
    (hwalk : Walkable w2.fs (makeFilter X.glob R.folder) X.depth R.root)
    (l : List Fs) (hu : World.Uses X.E l w2) (hfa : FaithfulFs X.E (w2.fs :: l)) (hf1 : (w2.dbs q).faults = []) (hf2 : w2.cache.faults = []) :
    SameTree w2.fs (makeFilter X.glob R.folder) R.root fs2 (makeFilter X.glob R.folder) R.root ∧
    ((mainRun X .status w2).1 = .success ∧ (mainRun X .status w2).2.1 = [.headAt head (some (ck.asUserKey.take 8)), .result ⟨[], [], []⟩]) ∧
    ∀ n, (mainRun X (.checkoutHead n) w2).1 = .success ∧ (mainRun X (.checkoutHead n) w2).2.1 = [.text sNewHead] ∧
      rawGetState ((mainRun X (.checkoutHead n) w2).2.2.dbs q) sHEAD = .ok (some n) := by
  have hrun : ∃ fs', checkoutFsItem (w.dbs q) (makeFilter X.glob R.folder) X.iterNames X.depth c.tree R.root w.fs = (.ok (), fs') := by
    rw [mainRun_open (by simp) ho] at hok
    have := exit_success hok
    rw [checkout_run X R (startOf w q) (ck := ck) (c := c) hhead.key hhead.2.2] at this
    exact ⟨_, Prod.ext this rfl⟩
  obtain ⟨fs', hrun⟩ := hrun
  obtain ⟨hsdb, hfs'⟩ := checkout_sameDb ho hf hhead.key hhead.2.2 hrun
  rw [hfs'] at hfs
  subst hfs
  obtain ⟨_, _, _, _, _, _, _, _, hcl, _⟩ := opens_plain hw ho hplain
  have hc' := checkout_cwd hs hw hcl hnames hn hrun
  have hsame := checkout_sameTree hs hr hw hcwd hcl hnames hn hrun hw2 hc' (opens_folder ho2) hwalk.dir
  have hst := hdb.trans hsdb
  refine ⟨hsame, ?_⟩
  refine C85_agrees X hit w2 hw2 R q ho2 l hu hfa hf1 hf2 head ck c (hhead.same hst.1) fs2 _ n2 R.root (by omega) ?_ hwalk hsame ?_ hr
  · exact hs.same (by rw [hst.1.1]; exact List.prefix_refl _)
  · intro rel c hv
    by_cases h0 : rel = []
    · subst h0
      have h1 := (metadata_ok hwalk.dir).2.1
      obtain ⟨md, h2⟩ := content_some.mp hv.2
      rw [List.append_nil, h1] at h2
      simp at h2
    · exact hr rel c (hsame.files rel c h0 hv)

end Snap.Props
