import Verif.Props.Effects
import Verif.Props.Simplify
/-! Property C67: what `status` and `compare` print. -/
namespace Snap.Props
open Snap
set_option linter.unusedSectionVars false
variable [Serde] [LawfulSerde]

/-- HEAD names a ref whose newest entry is the commit `c`. -/
def HeadCommit (db : Db) (head : Bytes) (ck : Key) (c : Commit) : Prop :=
  getHead db = .ok (some head) ∧ reflogGet db head none = .ok ck ∧ Commit.fromKey db ck = .ok c

/-- The key `compare` is given or takes from HEAD. -/
def compareKey (db : Db) : Option Keyish → Res Key
  | some k => canonicalize db k
  | none => do
    let c ← getHeadKey db
    let c ← Commit.fromKey db c
    pure c.tree

theorem HeadCommit.key {db : Db} {head : Bytes} {ck : Key} {c : Commit} (h : HeadCommit db head ck c) : getHeadKey db = .ok ck := by
  unfold getHeadKey
  rw [headName_eq h.1, Res.ok_bind]
  exact h.2.1

theorem HeadCommit.compareKey {db : Db} {head : Bytes} {ck : Key} {c : Commit} (h : HeadCommit db head ck c) : compareKey db none = .ok c.tree := by
  show (getHeadKey db >>= fun c => Commit.fromKey db c >>= fun c => pure c.tree) = _
  rw [h.key, Res.ok_bind, h.2.2]
  rfl

/-- After the key is known. -/
def compareTail (X : Ctx) (R : Repo) (path : Option Path) (stat : Bool) (k : Key) : C Unit := do
  let r ← compareWork X R (path.getD R.root) (some k)
  if stat then do
    let l ← readDb (fun db => printedStat X.lib db X.depth r)
    emit (.stats l)
  else emit (.result (simplify r))

theorem cmdCompare_eq (X : Ctx) (R : Repo) (path : Option Path) (key : Option Keyish) (stat : Bool) (s : Sys) {k : Key} (h : compareKey s.db key = .ok k) :
    (Command.compare path key stat).inRepo X R s = compareTail X R path stat k s := by
  show cmdCompare X R path key stat s = _
  cases key with
  | some a =>
    have : cmdCompare X R path (some a) stat s = _ := readDb_bind _ _ _
    rw [this]
    have h' : canonicalize s.db a = .ok k := h
    dsimp only
    rw [h']
    rfl
  | none =>
    have : cmdCompare X R path none stat s = _ := readDb_bind _ _ _
    rw [this]
    have h' : (getHeadKey s.db >>= fun c => Commit.fromKey s.db c >>= fun c => pure c.tree) = .ok k := h
    dsimp only
    rw [h']
    rfl

theorem compareWork_eq (X : Ctx) (R : Repo) (path : Path) (to : Option Key) (s : Sys) : compareWork X R path to s =
    ((compare X.E s.fs X.iter X.depth (.fileSystem path X.glob R.folder) to (s.db, s.cache)).1,
      { s with db := (compare X.E s.fs X.iter X.depth (.fileSystem path X.glob R.folder) to (s.db, s.cache)).2.1,
               cache := (compare X.E s.fs X.iter X.depth (.fileSystem path X.glob R.folder) to (s.db, s.cache)).2.2 }) := rfl

/-- The tail of `compare` without `--stat`. -/
theorem compareTail_eq (X : Ctx) (R : Repo) (path : Option Path) (k : Key) (s : Sys) : compareTail X R path false k s =
    match compare X.E s.fs X.iter X.depth (.fileSystem (path.getD R.root) X.glob R.folder) (some k) (s.db, s.cache) with
    | (.ok r, d) => (.ok (), { s with db := d.1, cache := d.2, out := s.out ++ [.result (simplify r)] })
    | (.err e, d) => (.err e, { s with db := d.1, cache := d.2 })
    | (.panic, d) => (.panic, { s with db := d.1, cache := d.2 })
    | (.fuel, d) => (.fuel, { s with db := d.1, cache := d.2 }) := by
  unfold compareTail
  rw [SM.bind_apply, compareWork_eq]
  cases hc : compare X.E s.fs X.iter X.depth (.fileSystem (path.getD R.root) X.glob R.folder) (some k) (s.db, s.cache) with
  | mk r d => cases r <;> rfl

theorem cmdStatus_eq (X : Ctx) (R : Repo) (s : Sys) {head : Bytes} {ck : Key} {c : Commit} (h : HeadCommit s.db head ck c) :
    Command.status.inRepo X R s = compareTail X R none false c.tree { s with out := s.out ++ [.headAt head (some (ck.asUserKey.take 8))] } := by
  show cmdStatus X R s = _
  unfold cmdStatus
  rw [readDb_bind, headName_eq h.1]
  simp only [SM.bind_apply, SM.read_apply, h.2.1, Res.toOption, emit, SM.modify_apply, readDb_apply, h.2.2]
  rfl

/-- **C67**: `compare` without a key is `compare` with any text for the tree of HEAD's newest commit, in every respect. -/
theorem C67_compare_head {X : Ctx} {w : World} {R : Repo} {q : List Bytes} (ho : Opens X w R q) {head : Bytes} {ck : Key} {c : Commit} (h : HeadCommit (w.dbs q) head ck c)
    (key : Keyish) (hk : canonicalize (w.dbs q) key = .ok c.tree) (path : Option Path) (stat : Bool) :
    mainRun X (.compare path none stat) w = mainRun X (.compare path (some key) stat) w := by
  rw [mainRun_open (by simp) ho, mainRun_open (by simp) ho]
  have e1 := cmdCompare_eq X R path none stat (startOf w q) h.compareKey
  have e2 := cmdCompare_eq X R path (some key) stat (startOf w q) (k := c.tree) hk
  show runIn X R q _ w = runIn X R q _ w
  unfold runIn
  have : ∀ cmd : Command, cmd.body X (some R) { db := (Conn.mk (w.dbs q) none).begin.2.view, cache := w.cache, fs := w.fs } = cmd.inRepo X R (startOf w q) := fun _ => rfl
  simp only [this, e1, e2]

/-- Adding to what has been printed before. -/
theorem compareTail_out (X : Ctx) (R : Repo) (path : Option Path) (k : Key) (s : Sys) (o : List Out) : compareTail X R path false k { s with out := o ++ s.out } =
    ((compareTail X R path false k s).1, { (compareTail X R path false k s).2 with out := o ++ (compareTail X R path false k s).2.out }) := by
  rw [compareTail_eq, compareTail_eq]
  show (match compare X.E s.fs X.iter X.depth (.fileSystem (path.getD R.root) X.glob R.folder) (some k) (s.db, s.cache) with | _ => _) = _
  cases hc : compare X.E s.fs X.iter X.depth (.fileSystem (path.getD R.root) X.glob R.folder) (some k) (s.db, s.cache) with
  | mk r d => cases r <;> simp

/-- **C67**: `status` prints HEAD's ref, the start of the commit's key, and then exactly what `compare` without arguments prints; it ends in the same way and leaves the same. -/
theorem C67_status_compare {X : Ctx} {w : World} {R : Repo} {q : List Bytes} (ho : Opens X w R q) {head : Bytes} {ck : Key} {c : Commit} (h : HeadCommit (w.dbs q) head ck c) :
    mainRun X .status w = ((mainRun X (.compare none none false) w).1, .headAt head (some (ck.asUserKey.take 8)) :: (mainRun X (.compare none none false) w).2.1,
      (mainRun X (.compare none none false) w).2.2) := by
  rw [mainRun_open (by simp) ho, mainRun_open (by simp) ho]
  have e1 := cmdCompare_eq X R none none false (startOf w q) h.compareKey
  have e2 := cmdStatus_eq X R (startOf w q) (c := c) h
  have e3 := compareTail_out X R none c.tree (startOf w q) [.headAt head (some (ck.asUserKey.take 8))]
  have e4 : ({ startOf w q with out := [.headAt head (some (ck.asUserKey.take 8))] ++ (startOf w q).out } : Sys) =
      { startOf w q with out := (startOf w q).out ++ [.headAt head (some (ck.asUserKey.take 8))] } := by simp [startOf]
  rw [e4] at e3
  rw [e3] at e2
  show runIn X R q _ w = _
  unfold runIn
  have : ∀ cmd : Command, cmd.body X (some R) { db := (Conn.mk (w.dbs q) none).begin.2.view, cache := w.cache, fs := w.fs } = cmd.inRepo X R (startOf w q) := fun _ => rfl
  simp only [this, e1, e2]
  rfl

/-! ### What is printed -/

/-- `r` shows how the directory `path` of `fs` differs from the directory `p2` of `fs2`: every new file and directory that is not inside another new directory, every file
that was a directory or had other contents, and nothing else. -/
def Reports (fs : Fs) (f : Filter) (path : Path) (fs2 : Fs) (f2 : Filter) (p2 : Path) (r : DiffResult) : Prop :=
  r.deleted = [] ∧
  (∀ p b, (∃ o, (⟨p, b, o⟩ : Added) ∈ r.added) ↔ ∃ rel, p = relPath rel ∧ Shown fs f path rel b ∧ (∀ b', ¬ Shown fs2 f2 p2 rel b') ∧
    ∀ up b', up <+: rel → up ≠ rel → Shown fs f path up b' → ∃ b'', Shown fs2 f2 p2 up b'') ∧
  (∀ p, (∃ e ∈ r.modified, e.path = p) ↔ ∃ rel c, p = relPath rel ∧ rel ≠ [] ∧ VisFile fs f path rel c ∧
    (Shown fs2 f2 p2 rel true ∨ ∃ c', VisFile fs2 f2 p2 rel c' ∧ c ≠ c'))

theorem simplify_reports {fs fs2 : Fs} (hw : fs.Wf) {f f2 : Filter} {path p2 : Path} {r : DiffResult} (hd : r.deleted = [])
    (ha : ∀ p b, (∃ o, (⟨p, b, o⟩ : Added) ∈ r.added) ↔ ∃ rel, p = relPath rel ∧ Shown fs f path rel b ∧ ∀ b', ¬ Shown fs2 f2 p2 rel b')
    (hm : ∀ p, (∃ e ∈ r.modified, e.path = p) ↔ ∃ rel c, p = relPath rel ∧ rel ≠ [] ∧ VisFile fs f path rel c ∧ (Shown fs2 f2 p2 rel true ∨ ∃ c', VisFile fs2 f2 p2 rel c' ∧ c ≠ c'))
    (s1 : (simplify r).added = r.added.filter (fun e => !r.added.any fun x => isAbove x.path e.path))
    (s2 : (simplify r).deleted = r.deleted.filter (fun e => !r.deleted.any fun x => isAbove x.path e.path)) (s3 : (simplify r).modified = r.modified) :
    Reports fs f path fs2 f2 p2 (simplify r) := by
  refine ⟨by rw [s2, hd]; rfl, fun p b => ?_, by rw [s3]; exact hm⟩
  have hc : ∀ {rel b}, Shown fs f path rel b → Path.comps (relPath rel) = rel := fun h => comps_relPath fun m hm => (h.okNames hw m hm).comp
  constructor
  · rintro ⟨o, h⟩
    rw [s1, List.mem_filter] at h
    obtain ⟨h, ht⟩ := h
    obtain ⟨rel, e, g1, g2⟩ := (ha p b).mp ⟨o, h⟩
    refine ⟨rel, e, g1, g2, fun up b' hup hne hs => Classical.byContradiction fun hno => ?_⟩
    obtain ⟨o', hx⟩ := (ha (relPath up) b').mpr ⟨up, rfl, hs, fun b'' hb => hno ⟨b'', hb⟩⟩
    simp only [Bool.not_eq_true', ← Bool.not_eq_true, List.any_eq_true, not_exists, not_and] at ht
    refine ht _ hx ?_
    rw [isAbove_iff, e]
    simp only [hc g1, hc hs]
    exact ⟨hup, hne⟩
  · rintro ⟨rel, e, g1, g2, g3⟩
    obtain ⟨o, h⟩ := (ha p b).mpr ⟨rel, e, g1, g2⟩
    refine ⟨o, ?_⟩
    rw [s1, List.mem_filter]
    refine ⟨h, ?_⟩
    simp only [Bool.not_eq_true', ← Bool.not_eq_true, List.any_eq_true, not_exists, not_and]
    intro x hx hab
    obtain ⟨px, bx, ox⟩ := x
    obtain ⟨up, e', u1, u2⟩ := (ha px bx).mp ⟨ox, hx⟩
    rw [isAbove_iff, e, e'] at hab
    simp only [hc g1, hc u1] at hab
    obtain ⟨b'', hb⟩ := g3 up bx hab.1 hab.2 u1
    exact u2 b'' hb

/-- **C67**: `compare` with a stored tree, of the directory the command is run in. The files read through the cache are as faithful as in C61; `later` is the store after
putting the directory. The command panics iff something of the stored tree is gone; otherwise it succeeds and prints exactly the new paths outside new directories and
the changed files. -/
theorem C67_compare (X : Ctx) (hit : IterOk X.iter) (w : World) (R : Repo) (q : List Bytes) (ho : Opens X w R q) (l : List Fs) (hu : World.Uses X.E l w)
    (hfa : FaithfulFs X.E (w.fs :: l)) (hf1 : (w.dbs q).faults = []) (hf2 : w.cache.faults = [])
    (key : Option Keyish) (t : Key) (hkey : compareKey (w.dbs q) key = .ok t) (path : Option Path)
    (later : Db) (k : Key) (fs2 : Fs) (f2 : Filter) (n1 n2 : Nat) (hn1 : n1 ≤ X.depth) (hn2 : n2 ≤ X.depth) (p2 : Path)
    (h1 : Snapshot X.E later k w.fs (makeFilter X.glob R.folder) n1 (path.getD R.root)) (h2 : Snapshot X.E (w.dbs q) t fs2 f2 n2 p2) (hl : (w.dbs q).data <+: later.data)
    (hcwd : loc w.fs.cwd (path.getD R.root) = w.fs.cwd)
    (hr1 : ∀ rel c, VisFile w.fs (makeFilter X.glob R.folder) (path.getD R.root) rel c → FullyRead X.E (joins (path.getD R.root) rel) c ∧ FullyRead X.E (relPath rel) c)
    (hr2 : ∀ rel c, VisFile fs2 f2 p2 rel c → FullyRead X.E (joins p2 rel) c) :
    ((∃ rel b, Shown fs2 f2 p2 rel b ∧ ∀ b', ¬ Shown w.fs (makeFilter X.glob R.folder) (path.getD R.root) rel b') →
      (mainRun X (.compare path key false) w).1 = .panicked ∧ (mainRun X (.compare path key false) w).2.1 = []) ∧
    ((∀ rel b, Shown fs2 f2 p2 rel b → ∃ b', Shown w.fs (makeFilter X.glob R.folder) (path.getD R.root) rel b') →
      (mainRun X (.compare path key false) w).1 = .success ∧
      ∃ r, (mainRun X (.compare path key false) w).2.1 = [.result r] ∧ Reports w.fs (makeFilter X.glob R.folder) (path.getD R.root) fs2 f2 p2 r) := by
  obtain ⟨L, hL, hcr⟩ := uses_right hu
  have hfa' : ∀ m, walkReal w.fs (makeFilter X.glob R.folder) X.depth (path.getD R.root) = .ok m → Faithful X.E (L ++ looksAt w.fs (path.getD R.root) m) := by
    intro m _
    refine hfa.faithful fun x hx => ?_
    rcases List.mem_append.mp hx with hx | hx
    · exact List.mem_cons_of_mem _ (hL x hx)
    · obtain ⟨e, _, he⟩ := List.mem_flatMap.mp hx
      simp at he
      rcases he with rfl | rfl <;> exact List.mem_cons_self
  obtain ⟨hp, hok⟩ := C50_snapshot X.E (w.dbs q) later w.cache k t w.fs fs2 X.glob R.folder f2 n1 n2 X.depth hn1 hn2 _ p2 h1 h2 hl hcwd hr1 hr2 hf1 L hcr hfa' X.iter hit
  have e1 := cmdCompare_eq X R path key false (startOf w q) hkey
  rw [compareTail_eq] at e1
  have e2 : compare X.E (startOf w q).fs X.iter X.depth (.fileSystem (path.getD R.root) X.glob R.folder) (some t) ((startOf w q).db, (startOf w q).cache) =
    compare X.E w.fs X.iter X.depth (.fileSystem (path.getD R.root) X.glob R.folder) (some t) (w.dbs q, w.cache) := rfl
  rw [e2] at e1
  rw [mainRun_open (by simp) ho, runIn_exit, runIn_out, e1]
  refine ⟨fun h => ?_, fun h => ?_⟩
  · have hp := hp h
    cases hc : compare X.E w.fs X.iter X.depth (.fileSystem (path.getD R.root) X.glob R.folder) (some t) (w.dbs q, w.cache) with
    | mk r d =>
      rw [hc] at hp
      cases (show r = .panic from hp)
      exact ⟨rfl, rfl⟩
  · obtain ⟨r, s', hc, _, hcf, g1, g2, g3⟩ := hok h
    rw [hc]
    have hcf := hcf hf2
    refine ⟨by simp [Cache.finish, hcf, exitOf], simplify r, rfl, ?_⟩
    obtain ⟨s1, s2, s3⟩ := C52_compare X.E w.fs X.iter hit X.depth _ (some t) _ s' r hc
    exact simplify_reports h1.wf g1 g2 g3 s1 s2 s3

/-- **C67** for `status`: HEAD's ref, the start of its commit's key, and how the directory differs from the commit. -/
theorem C67_status (X : Ctx) (hit : IterOk X.iter) (w : World) (R : Repo) (q : List Bytes) (ho : Opens X w R q) (l : List Fs) (hu : World.Uses X.E l w)
    (hfa : FaithfulFs X.E (w.fs :: l)) (hf1 : (w.dbs q).faults = []) (hf2 : w.cache.faults = [])
    (head : Bytes) (ck : Key) (c : Commit) (hh : HeadCommit (w.dbs q) head ck c)
    (later : Db) (k : Key) (fs2 : Fs) (f2 : Filter) (n1 n2 : Nat) (hn1 : n1 ≤ X.depth) (hn2 : n2 ≤ X.depth) (p2 : Path)
    (h1 : Snapshot X.E later k w.fs (makeFilter X.glob R.folder) n1 R.root) (h2 : Snapshot X.E (w.dbs q) c.tree fs2 f2 n2 p2) (hl : (w.dbs q).data <+: later.data)
    (hcwd : loc w.fs.cwd R.root = w.fs.cwd)
    (hr1 : ∀ rel c, VisFile w.fs (makeFilter X.glob R.folder) R.root rel c → FullyRead X.E (joins R.root rel) c ∧ FullyRead X.E (relPath rel) c)
    (hr2 : ∀ rel c, VisFile fs2 f2 p2 rel c → FullyRead X.E (joins p2 rel) c) :
    ((∃ rel b, Shown fs2 f2 p2 rel b ∧ ∀ b', ¬ Shown w.fs (makeFilter X.glob R.folder) R.root rel b') → (mainRun X .status w).1 = .panicked) ∧
    ((∀ rel b, Shown fs2 f2 p2 rel b → ∃ b', Shown w.fs (makeFilter X.glob R.folder) R.root rel b') →
      (mainRun X .status w).1 = .success ∧
      ∃ r, (mainRun X .status w).2.1 = [.headAt head (some (ck.asUserKey.take 8)), .result r] ∧ Reports w.fs (makeFilter X.glob R.folder) R.root fs2 f2 p2 r) := by
  obtain ⟨hp, hok⟩ := C67_compare X hit w R q ho l hu hfa hf1 hf2 none c.tree hh.compareKey none later k fs2 f2 n1 n2 hn1 hn2 p2 h1 h2 hl hcwd hr1 hr2
  rw [C67_status_compare ho hh]
  refine ⟨fun h => (hp h).1, fun h => ?_⟩
  obtain ⟨g1, r, g2, g3⟩ := hok h
  exact ⟨g1, r, by simp [g2], g3⟩

end Snap.Props
