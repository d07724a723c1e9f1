import Verif.Props.Commands
import Verif.Props.Checkout
/-! C62: what has been committed can be restored later, with `checkout` and with `fetch`. -/
namespace Snap.Props
open Snap
set_option linter.unusedSectionVars false
variable [Serde] [LawfulSerde]

theorem readBack_full {E : Env} {p : Path} {c c' : Bytes} (h : FullyRead E p c) (hr : ReadBackAs E p c c') : c' = c :=
  readBackAs_exact hr h.1 (Or.inl ⟨h.2.2.1, h.2.2.2⟩)

/-- Objects stay. -/
theorem steps_data {H : Bytes → Key} {w w' : World} (h : World.Steps H w w') (q : List Bytes) : (w.dbs q).data <+: (w'.dbs q).data := by
  induction h with
  | refl => exact List.prefix_refl _
  | tail h s ih =>
    rename_i b c
    obtain ⟨cs, _, ⟨h1, _, _⟩, _⟩ := step_calls s q
    rw [h1]
    exact ih.trans (runCalls_data_prefix H cs (b.dbs q))

theorem exit_success {X : Ctx} {R : Repo} {q : List Bytes} {cmd : Command} {w : World} (h : (runIn X R q cmd w).1 = .success) : (cmd.inRepo X R (startOf w q)).1 = .ok () := by
  have : (runIn X R q cmd w).1 = exitOf (cmd.inRepo X R (startOf w q)).1 (Cache.finish (cmd.inRepo X R (startOf w q)).1 w.cache (cmd.inRepo X R (startOf w q)).2.cache).1 := rfl
  rw [this] at h
  cases hr : (cmd.inRepo X R (startOf w q)).1 with
  | ok u => rfl
  | _ => rw [hr] at h; simp [exitOf] at h

/-- As C62_checkout, for any later database with the same rows. -/
theorem restored_checkout (X : Ctx) (path : Option Path) (message : Bytes) (refname : Option Bytes) (w : World) (hw : w.fs.Wf) (R : Repo) (q : List Bytes) (hi : Inv X.E.H (w.dbs q))
    (h : Committed X (.commit path message refname) w R q) (hcoll : NoColl X.E.H ((mainRun X (.commit path message refname) w).2.2.dbs q))
    (hread : ∀ rel c, VisFile w.fs (makeFilter X.glob R.folder) (path.getD R.root) rel c → FullyRead X.E (joins (path.getD R.root) rel) c) :
    ∃ n ck, refOrHead (w.dbs q) refname = .ok n ∧ reflogGet ((mainRun X (.commit path message refname) w).2.2.dbs q) n none = .ok ck ∧
    ∀ w2 : World, ((mainRun X (.commit path message refname) w).2.2.dbs q).data <+: (w2.dbs q).data → w2.fs.Wf →
    ∀ (Y : Ctx) (S : Repo), Opens Y w2 S q → X.depth + 6 ≤ Y.depth → (∀ l, (Y.iterNames l).Perm l) → 0 ∉ S.root ∧ sDotDot ∉ S.root.comps →
      getHeadKey (w2.dbs q) = .ok ck → (mainRun Y .checkout w2).1 = .success →
      let src := loc w.fs.cwd (path.getD R.root)
      let dst := loc w2.fs.cwd S.root
      let fs' := (mainRun Y .checkout w2).2.2.fs
      (∀ rel c, VisFile w.fs (makeFilter X.glob R.folder) (path.getD R.root) rel c → fs'.content (dst ++ rel) = some c) ∧
      (∀ rel, Visible w.fs (makeFilter X.glob R.folder) (path.getD R.root) rel → w.fs.at (src ++ rel) = some .dir → fs'.at (dst ++ rel) = some .dir ∧
        ∀ m e, fs'.at (dst ++ rel ++ [m]) = some e → (e = .dir ∨ ∃ c md, e = .file c md) → ¬ loc w2.fs.cwd S.folder <+: dst ++ rel ++ [m] →
          Y.glob (stripDot (joins S.root (rel ++ [m]))) = false → Visible w.fs (makeFilter X.glob R.folder) (path.getD R.root) (rel ++ [m]) ∧ w.fs.at (src ++ rel ++ [m]) ≠ none) ∧
      ∀ p, ¬ dst <+: p → fs'.at p = w2.fs.at p := by
  obtain ⟨n, ck, tree, ps, g1, g2, g3, _, ⟨d, g4, g5, g6⟩, _⟩ := C38_commit X path message refname w R q hi h hcoll
  refine ⟨n, ck, g1, g2, ?_⟩
  intro w2 hpre hw2 Y S ho hd hit hto hhead hex
  rw [mainRun_open (by simp) ho] at hex ⊢
  have hok := exit_success hex
  have hc := fromKey_mono hpre g3
  obtain ⟨fs', hfs⟩ : ∃ fs', checkoutFsItem (w2.dbs q) (makeFilter Y.glob S.folder) Y.iterNames Y.depth tree S.root w2.fs = (.ok (), fs') ∧
      (runIn Y S q .checkout w2).2.2.fs = fs' := by
    have he : Command.checkout.inRepo Y S (startOf w2 q) = cmdCheckout Y S (startOf w2 q) := rfl
    have hrun : cmdCheckout Y S (startOf w2 q) = ((checkoutFsItem (w2.dbs q) (makeFilter Y.glob S.folder) Y.iterNames Y.depth tree S.root w2.fs).1,
        { startOf w2 q with fs := (checkoutFsItem (w2.dbs q) (makeFilter Y.glob S.folder) Y.iterNames Y.depth tree S.root w2.fs).2 }) := by
      unfold cmdCheckout
      rw [SM.bind_apply, readDb_apply]
      have e1 : getHeadKey (startOf w2 q).db = .ok ck := hhead
      have e2 : Commit.fromKey (startOf w2 q).db ck = .ok ⟨tree, ps, { message := message }⟩ := hc
      rw [e1]
      simp only
      refine (SM.bind_apply (σ := Sys) _ _ _).trans ?_
      rw [readDb_apply, e2]
      rfl
    rw [he, hrun] at hok
    refine ⟨_, Prod.ext hok rfl, ?_⟩
    show (Command.checkout.inRepo Y S (startOf w2 q)).2.fs = _
    rw [he, hrun]
  obtain ⟨hfs, hres⟩ := hfs
  rw [hres]
  obtain ⟨r1, r2, r3⟩ := C37_restores X.E w.fs hw _ X.depth _ _ d (w2.dbs q) tree hi g4 g5 (g6.trans hpre) w2.fs fs' hw2 S.root hto Y.glob S.folder Y.iterNames hit Y.depth hd hfs
  refine ⟨fun rel c hv => ?_, r2, r3⟩
  obtain ⟨c', h1, h2⟩ := r1 rel c hv
  rw [readBack_full (hread rel c hv) h2] at h1
  exact h1

/-- **C62**: a commit, then anything (other commands with the same hash function, kills, changes of the files), then a `checkout` while the commit is the newest entry
of HEAD's ref, which ends well: the files below the root of the repository are those that were committed, with their contents; the directories are there; nothing
else is in them, except in the database folder and what is excluded by a pattern; nothing has changed elsewhere. The repository may be found at another place. -/
theorem C62_checkout (X : Ctx) (path : Option Path) (message : Bytes) (refname : Option Bytes) (w : World) (hw : w.fs.Wf) (R : Repo) (q : List Bytes) (hi : Inv X.E.H (w.dbs q))
    (h : Committed X (.commit path message refname) w R q) (hcoll : NoColl X.E.H ((mainRun X (.commit path message refname) w).2.2.dbs q))
    (hread : ∀ rel c, VisFile w.fs (makeFilter X.glob R.folder) (path.getD R.root) rel c → FullyRead X.E (joins (path.getD R.root) rel) c) :
    ∃ n ck, refOrHead (w.dbs q) refname = .ok n ∧ reflogGet ((mainRun X (.commit path message refname) w).2.2.dbs q) n none = .ok ck ∧
    ∀ w2 : World, World.Steps X.E.H (mainRun X (.commit path message refname) w).2.2 w2 → w2.fs.Wf →
    ∀ (Y : Ctx) (S : Repo), Opens Y w2 S q → X.depth + 6 ≤ Y.depth → (∀ l, (Y.iterNames l).Perm l) → 0 ∉ S.root ∧ sDotDot ∉ S.root.comps →
      getHeadKey (w2.dbs q) = .ok ck → (mainRun Y .checkout w2).1 = .success →
      let src := loc w.fs.cwd (path.getD R.root)
      let dst := loc w2.fs.cwd S.root
      let fs' := (mainRun Y .checkout w2).2.2.fs
      (∀ rel c, VisFile w.fs (makeFilter X.glob R.folder) (path.getD R.root) rel c → fs'.content (dst ++ rel) = some c) ∧
      (∀ rel, Visible w.fs (makeFilter X.glob R.folder) (path.getD R.root) rel → w.fs.at (src ++ rel) = some .dir → fs'.at (dst ++ rel) = some .dir ∧
        ∀ m e, fs'.at (dst ++ rel ++ [m]) = some e → (e = .dir ∨ ∃ c md, e = .file c md) → ¬ loc w2.fs.cwd S.folder <+: dst ++ rel ++ [m] →
          Y.glob (stripDot (joins S.root (rel ++ [m]))) = false → Visible w.fs (makeFilter X.glob R.folder) (path.getD R.root) (rel ++ [m]) ∧ w.fs.at (src ++ rel ++ [m]) ≠ none) ∧
      ∀ p, ¬ dst <+: p → fs'.at p = w2.fs.at p := by
  obtain ⟨n, ck, h1, h2, h3⟩ := restored_checkout X path message refname w hw R q hi h hcoll hread
  exact ⟨n, ck, h1, h2, fun w2 hs => h3 w2 (steps_data hs q)⟩

/-- As C62_fetch, for any later database with the same rows. -/
theorem restored_fetch (X : Ctx) (path : Option Path) (message : Bytes) (refname : Option Bytes) (w : World) (hw : w.fs.Wf) (R : Repo) (q : List Bytes) (hi : Inv X.E.H (w.dbs q))
    (h : Committed X (.commit path message refname) w R q) (hcoll : NoColl X.E.H ((mainRun X (.commit path message refname) w).2.2.dbs q))
    (hread : ∀ rel c, VisFile w.fs (makeFilter X.glob R.folder) (path.getD R.root) rel c → FullyRead X.E (joins (path.getD R.root) rel) c) :
    ∃ n ck c, refOrHead (w.dbs q) refname = .ok n ∧ reflogGet ((mainRun X (.commit path message refname) w).2.2.dbs q) n none = .ok ck ∧
    Commit.fromKey ((mainRun X (.commit path message refname) w).2.2.dbs q) ck = .ok c ∧
    ∀ w2 : World, ((mainRun X (.commit path message refname) w).2.2.dbs q).data <+: (w2.dbs q).data → w2.fs.Wf → w2.fs.faults = [] → w2.cache.faults = [] →
    ∀ (Y : Ctx) (S : Repo) (key : Keyish) (to : Path), Opens Y w2 S q → X.depth + 6 ≤ Y.depth → 0 ∉ to ∧ sDotDot ∉ to.comps →
      (w.fs.metadata (path.getD R.root) = .ok .dir ∨ to.lastIsName = true) →
      (∀ rel c, VisFile w.fs (makeFilter X.glob R.folder) (path.getD R.root) rel c → w2.fs.at (loc w2.fs.cwd to ++ rel) = none ∧
        ∀ p, p <+: loc w2.fs.cwd to ++ rel → w2.fs.at p = none ∨ w2.fs.at p = some .dir) →
      canonicalize (w2.dbs q) key = .ok c.tree →
      (mainRun Y (.fetch key to) w2).1 = .success ∧
      (∀ rel c, VisFile w.fs (makeFilter X.glob R.folder) (path.getD R.root) rel c → (mainRun Y (.fetch key to) w2).2.2.fs.content (loc w2.fs.cwd to ++ rel) = some c) ∧
      ∀ p, (∀ rel c, VisFile w.fs (makeFilter X.glob R.folder) (path.getD R.root) rel c → ¬ p <+: loc w2.fs.cwd to ++ rel) →
        (mainRun Y (.fetch key to) w2).2.2.fs.at p = w2.fs.at p := by
  obtain ⟨n, ck, tree, ps, g1, g2, g3, _, ⟨d, g4, g5, g6⟩, _⟩ := C38_commit X path message refname w R q hi h hcoll
  refine ⟨n, ck, _, g1, g2, g3, ?_⟩
  intro w2 hpre hw2 hf1 hf2 Y S key to ho hd hto hname hfree hkey
  obtain ⟨dst', r0, r1, _, r3⟩ := C29_fetch_restores X.E w.fs hw _ X.depth _ _ d tree hi g4 g5 (w2.dbs q) (g6.trans hpre) w2.fs hw2 hf1 to hto hname hfree Y.depth hd
  rw [mainRun_open (by simp) ho]
  have hrun : (Command.fetch key to).inRepo Y S (startOf w2 q) = (.ok (), { startOf w2 q with fs := dst' }) := by
    show cmdFetch Y key to (startOf w2 q) = _
    unfold cmdFetch
    have e1 : canonicalize (startOf w2 q).db key = .ok tree := hkey
    refine (SM.bind_apply (σ := Sys) _ _ _).trans ?_
    rw [readDb_apply, e1]
    show onFs (getFsItem (w2.dbs q) Y.depth tree to) (startOf w2 q) = _
    unfold onFs SM.on
    simp only [startOf, r0]
  have hfs : (runIn Y S q (.fetch key to) w2).2.2.fs = dst' := by
    show ((Command.fetch key to).inRepo Y S (startOf w2 q)).2.fs = _
    rw [hrun]
  have hex : (runIn Y S q (.fetch key to) w2).1 = .success := by
    have : (runIn Y S q (.fetch key to) w2).1 = exitOf ((Command.fetch key to).inRepo Y S (startOf w2 q)).1
      (Cache.finish ((Command.fetch key to).inRepo Y S (startOf w2 q)).1 w2.cache ((Command.fetch key to).inRepo Y S (startOf w2 q)).2.cache).1 := rfl
    rw [this, hrun]
    simp [startOf, Cache.finish, hf2, exitOf]
  refine ⟨hex, ?_, ?_⟩
  · intro rel c hv
    obtain ⟨c', h1, h2⟩ := r1 rel c hv
    rw [readBack_full (hread rel c hv) h2] at h1
    rw [hfs]
    exact h1
  · rw [hfs]
    exact r3

/-- **C62**: the same with `fetch` of the tree's key into a place where nothing is in the way; it succeeds if no system call fails. -/
theorem C62_fetch (X : Ctx) (path : Option Path) (message : Bytes) (refname : Option Bytes) (w : World) (hw : w.fs.Wf) (R : Repo) (q : List Bytes) (hi : Inv X.E.H (w.dbs q))
    (h : Committed X (.commit path message refname) w R q) (hcoll : NoColl X.E.H ((mainRun X (.commit path message refname) w).2.2.dbs q))
    (hread : ∀ rel c, VisFile w.fs (makeFilter X.glob R.folder) (path.getD R.root) rel c → FullyRead X.E (joins (path.getD R.root) rel) c) :
    ∃ n ck c, refOrHead (w.dbs q) refname = .ok n ∧ reflogGet ((mainRun X (.commit path message refname) w).2.2.dbs q) n none = .ok ck ∧
    Commit.fromKey ((mainRun X (.commit path message refname) w).2.2.dbs q) ck = .ok c ∧
    ∀ w2 : World, World.Steps X.E.H (mainRun X (.commit path message refname) w).2.2 w2 → w2.fs.Wf → w2.fs.faults = [] → w2.cache.faults = [] →
    ∀ (Y : Ctx) (S : Repo) (key : Keyish) (to : Path), Opens Y w2 S q → X.depth + 6 ≤ Y.depth → 0 ∉ to ∧ sDotDot ∉ to.comps →
      (w.fs.metadata (path.getD R.root) = .ok .dir ∨ to.lastIsName = true) →
      (∀ rel c, VisFile w.fs (makeFilter X.glob R.folder) (path.getD R.root) rel c → w2.fs.at (loc w2.fs.cwd to ++ rel) = none ∧
        ∀ p, p <+: loc w2.fs.cwd to ++ rel → w2.fs.at p = none ∨ w2.fs.at p = some .dir) →
      canonicalize (w2.dbs q) key = .ok c.tree →
      (mainRun Y (.fetch key to) w2).1 = .success ∧
      (∀ rel c, VisFile w.fs (makeFilter X.glob R.folder) (path.getD R.root) rel c → (mainRun Y (.fetch key to) w2).2.2.fs.content (loc w2.fs.cwd to ++ rel) = some c) ∧
      ∀ p, (∀ rel c, VisFile w.fs (makeFilter X.glob R.folder) (path.getD R.root) rel c → ¬ p <+: loc w2.fs.cwd to ++ rel) →
        (mainRun Y (.fetch key to) w2).2.2.fs.at p = w2.fs.at p := by
  obtain ⟨n, ck, c, h1, h2, h3, h4⟩ := restored_fetch X path message refname w hw R q hi h hcoll hread
  exact ⟨n, ck, c, h1, h2, h3, fun w2 hs => h4 w2 (steps_data hs q)⟩

end Snap.Props
