import Verif.Lemmas.Panics
import Verif.Props.Whole
import Verif.Props.Effects
/-! C76: which commands can panic, and why. -/
namespace Snap.Props
open Snap
set_option linter.unusedSectionVars false
variable [Serde] [LawfulSerde]

/-! ### Stored objects -/

/-- What is known of the databases of all worlds: `World.Reachable.closed` and C75. -/
structure Typed (db : Db) : Prop where
  closed : Closed db
  typed : ∀ k o, getObj db k = .ok o → WellTyped db o

theorem typed_of {H : Bytes → Key} {w : World} (hw : w.Sound H) (q : List Bytes) (hc : NoColl H (w.dbs q)) : Typed (w.dbs q) :=
  ⟨World.Reachable.closed hw.reachable q, fun k o => C75_types hw q hc k o⟩

theorem closed_shape {db : Db} (hc : Closed db) {k : Key} {o : Object} (h : getObj db k = .ok o) : Shape o := by
  simp only [getObj] at h
  obtain ⟨v, hv, hd⟩ := Res.bind_eq_ok h
  obtain ⟨o', h1, h2, _⟩ := hc.rows _ (assoc_some_mem (get_eq_ok.mp hv))
  have : o' = o := by have := Object.decode_encode h1; rw [hd] at this; simpa using this.symm
  exact this ▸ h2

theorem closed_getObj {db : Db} (hc : Closed db) {k : Key} (h : Stored db k) : ∃ o, getObj db k = .ok o := by
  obtain ⟨v, hv⟩ := h
  obtain ⟨o, h1, _⟩ := hc.rows _ (assoc_some_mem (get_eq_ok.mp hv))
  refine ⟨o, ?_⟩
  simp only [getObj]
  rw [hv, Res.ok_bind]
  exact Object.decode_encode h1

/-- A commit is not taken for a file or a directory. -/
theorem commit_not_item {c : Commit} {o : Object} (h : c.toObject = .ok o) (he : c.attrs.extra = []) (i : FsItem) : FsItem.ofObject o ≠ .ok i := by
  obtain ⟨hs, rfl⟩ := Commit.toObject_ok h
  have h := LawfulSerde.item_attrs c.attrs ((CommitAttrs.toCbor_wf _).mpr hs) he
  unfold FsItem.ofObject
  rw [h]
  simp

/-- What is read as a file or directory is one, or it is data that looks like one. -/
theorem item_shape {db : Db} (hc : Closed db) {k : Key} {i : FsItem} (h : getItem db k = .ok i) :
    ∃ o, getObj db k = .ok o ∧ FsItem.ofObject o = .ok i ∧ ((o.objtype = .fileBlob ∧ i.children = []) ∨ (o.objtype = .fsItemFile ∧ i.itemtype = .file ∧ ∃ ck, i.children = [ck] ∧ o.keys = [ck]) ∨
      (o.objtype = .fsItemDir ∧ i.itemtype = .dir ∧ i.children = o.keys)) := by
  obtain ⟨o, ho, hk⟩ := getItem_keys h
  simp only [getItem] at h
  rw [ho, Res.ok_bind] at h
  have hi := h
  clear h
  refine ⟨o, ho, hi, ?_⟩
  cases closed_shape hc ho with
  | blob d => exact .inl ⟨rfl, hk⟩
  | blobTree ks =>
    have he := LawfulSerde.item_nil
    unfold FsItem.ofObject at hi
    rw [he] at hi
    simp at hi
  | file n ck h =>
    have := FsItem.ofObject_toObject h
    rw [hi] at this
    simp only [Res.ok.injEq] at this
    subst this
    obtain ⟨_, rfl⟩ := FsItem.toObject_ok h
    exact .inr (.inl ⟨rfl, rfl, ck, rfl, rfl⟩)
  | dir r h =>
    have := FsItem.ofObject_toObject h
    rw [hi] at this
    simp only [Res.ok.injEq] at this
    subst this
    obtain ⟨_, rfl⟩ := FsItem.toObject_ok h
    exact .inr (.inr ⟨rfl, rfl, rfl⟩)
  | commit t ps hs m h => exact (commit_not_item h rfl i hi).elim

/-- `read_data` panics only for directories and commits. -/
theorem readDataTo_panic {σ : Type} {db : Db} (ht : Typed db) {sink : Bytes → SM σ Unit} (hs : ∀ d, Calm (sink d)) (n : Nat) (k : Key) (s : σ) (h : (readDataTo db sink n k s).1 = .panic) :
    LeadsTo db k (fun t => t = .fsItemDir ∨ t = .commit) := by
  have hdata : ∀ n k, LeadsTo db k IsData → Calm (readDataTo db sink n k) := by
    intro n
    induction n with
    | zero => intro k _ s; exact nofun
    | succ n ih =>
      intro k hk s
      obtain ⟨o, h1, h2⟩ := hk
      have ht' := ht.typed k o h1
      unfold readDataTo
      rw [h1]
      refine bind_panic (C := False) nofun fun o' s' e => ?_
      obtain ⟨rfl, rfl⟩ : o = o' ∧ s = s' := by simpa using e
      unfold WellTyped at ht'
      rcases h2 with h2 | h2 <;> rw [h2] at ht' ⊢
      · exact hs _ _
      · simp only at ht' ⊢
        intro e
        exact (only_each (I := fun _ => True) (C := False) (fun k hk => (ih k (ht' k hk)).only) s trivial).2 e
  cases n with
  | zero => simp [readDataTo] at h
  | succ n =>
    revert h
    unfold readDataTo
    refine bind_panic (fun h => (getObj_calm db k h).elim) fun o s' e => ?_
    obtain ⟨h1, rfl⟩ : getObj db k = .ok o ∧ s = s' := by simpa using e
    have ht' := ht.typed k o h1
    unfold WellTyped at ht'
    cases hty : o.objtype with
    | fileBlob =>
      intro e
      exact (hs _ _ e).elim
    | fileBlobTree =>
      rw [hty] at ht'
      intro e
      exact ((only_each (I := fun _ => True) (C := False) (fun k hk => (hdata n k (ht' k hk)).only) s trivial).2 e).elim
    | fsItemFile =>
      rw [hty] at ht'
      obtain ⟨ck, h2, h3⟩ := ht'
      rw [h2]
      intro e
      exact (hdata n ck h3 s e).elim
    | fsItemDir => exact fun _ => ⟨o, h1, .inl hty⟩
    | commit => exact fun _ => ⟨o, h1, .inr hty⟩
    | unknown => rw [hty] at ht'; exact ht'.elim

/-- Under the key is no file but data that, taken for the description of a file or directory, describe a file. -/
def FakeFile (db : Db) (k : Key) : Prop := ∃ o i, getObj db k = .ok o ∧ o.objtype = .fileBlob ∧ FsItem.ofObject o = .ok i ∧ i.itemtype = .file

theorem leads_unique {db : Db} {k : Key} {p r : ObjType → Prop} (h : LeadsTo db k p) (h' : LeadsTo db k r) : ∃ t, p t ∧ r t := by
  obtain ⟨o, h1, h2⟩ := h
  obtain ⟨o', h3, h4⟩ := h'
  rw [h1] at h3
  simp at h3
  exact ⟨o.objtype, h2, h3 ▸ h4⟩

theorem getFsItem_panic {db : Db} (ht : Typed db) (n : Nat) (k : Key) (p : Path) (fs : Fs) (h : (getFsItem db n k p fs).1 = .panic) : FakeFile db k := by
  revert h
  induction n generalizing k p fs with
  | zero => exact nofun
  | succ n ih =>
    unfold getFsItem
    refine bind_panic (fun h => (getItem_calm db k h).elim) fun i s' e => ?_
    obtain ⟨h1, rfl⟩ : getItem db k = .ok i ∧ fs = s' := by simpa using e
    obtain ⟨o, h2, h3, h4⟩ := item_shape ht.closed h1
    have ht' := ht.typed k o h2
    unfold WellTyped at ht'
    rcases h4 with ⟨h4, h5⟩ | ⟨h4, h5, ck, h6, h6'⟩ | ⟨h4, h5, h6⟩
    · cases hty : i.itemtype with
      | dir =>
        rw [h5]
        exact nofun
      | file => exact fun _ => ⟨o, i, h2, h4, h3, hty⟩
    · rw [h4] at ht'
      obtain ⟨ck', h7, h8⟩ := ht'
      have : ck = ck' := by rw [h6'] at h7; simpa using h7
      subst this
      rw [h5]
      have hrest : ∀ fs : Fs, ((do
          let f ← Fs.createNew p
          match i.children with
          | c :: _ => readDataTo db (Fs.writeAll f) n c
          | [] => SM.panic : SM Fs Unit) fs).1 = .panic → FakeFile db k := by
        intro fs
        refine bind_panic (fun h => (calm_createNew _ _ h).elim) fun f s _ => ?_
        rw [h6]
        intro e
        obtain ⟨t, ht1, ht2⟩ := leads_unique h8 (readDataTo_panic ht (fun d => calm_writeAll f d) n ck s e)
        rcases ht1 with rfl | rfl <;> rcases ht2 with ht2 | ht2 <;> simp at ht2
      cases hpar : Path.parent p with
      | some q => exact bind_panic (fun h => (calm_createDirAll q _ h).elim) fun _ s _ => hrest s
      | none => exact hrest fs
    · rw [h4] at ht'
      rw [h5]
      intro e
      refine ((only_each (I := fun _ => True) (C := False) (fun c hc => ?_) fs trivial).2 e).elim
      have hck : c.1 ∈ o.keys := by
        rw [← h6]
        exact (List.of_mem_zip hc).1
      obtain ⟨o', h7, h8⟩ := ht'.1 _ hck
      intro s _
      refine ⟨trivial, fun e => ?_⟩
      obtain ⟨o'', i'', g1, g2, _⟩ := ih c.1 (Path.join p c.2) s e
      rw [h7] at g1
      simp at g1
      subst g1
      rcases h8 with h8 | h8 <;> rw [h8] at g2 <;> simp at g2

/-! ### `main` -/

theorem findDbFolder_calm (fs : Fs) (name : Path) : findDbFolder fs name ≠ .panic := by
  unfold findDbFolder
  suffices ∀ n d, findFrom fs name n d ≠ .panic from this _ _
  intro n
  induction n with
  | zero => intro d; exact nofun
  | succ n ih =>
    intro d
    unfold findFrom
    split
    · exact nofun
    · split
      · exact ih _
      · exact nofun

theorem openDb_calm (fs : Fs) (p : Path) : openDb fs p ≠ .panic := by
  unfold openDb
  have := locate_calm fs (Path.join p sDbFile)
  split
  · exact nofun
  · exact nofun
  · rename_i h; exact (this h).elim
  · exact nofun

theorem runInit_calm (X : Ctx) (w : World) : (runInit X w).1 ≠ .panic := by
  unfold runInit
  have h1 := calm_createDirAll X.dbPath w.fs
  split
  · rename_i fs _
    have h2 := openDb_calm fs X.dbPath
    split
    · exact calm_write _ _
    · exact nofun
    · rename_i h; exact (h2 h).elim
    · exact nofun
  · exact nofun
  · rename_i h; rw [h] at h1; exact (h1 rfl).elim
  · exact nofun

theorem exitOf_panic {r : Res Unit} {b : Bool} : exitOf r b = .panicked ↔ r = .panic := by
  cases r <;> simp [exitOf]
  cases b <;> simp

theorem calm_walkFsTree (X : Ctx) (path : Path) : Calm (cmdWalkFsTree X path) :=
  calm_bind (calm_read fun _ => walkReal_calm _ _) fun _ => calm_emitAll _ _ _

/-- The folder that is found for the database is the root directory (it has no parent). -/
def RootIsDb (X : Ctx) (w : World) : Prop := ∃ f, findDbFolder w.fs X.dbPath = .ok (some f) ∧ Path.parent f = none

/-- **C76**: the process panics before it comes to the command (the database folder is the root directory), or in the command; never when it opens or makes the database,
when it ends the transactions, or in `init`. -/
theorem C76_main (X : Ctx) (cmd : Command) (w : World) :
    (mainRun X cmd w).1 = .panicked ↔ RootIsDb X w ∨ ∃ R q, Opens X w R q ∧ cmd ≠ .init ∧ (cmd.inRepo X R (startOf w q)).1 = .panic := by
  have hfind := findDbFolder_calm w.fs X.dbPath
  unfold mainRun RootIsDb Opens
  cases hf : findDbFolder w.fs X.dbPath with
  | err e => simp
  | panic => exact (hfind hf).elim
  | fuel => simp
  | ok found =>
    have hbody : ∀ cmd : Command, cmd ≠ .init → (runOut X cmd w).1 ≠ .panicked := by
      intro cmd hc e
      have := exitOf_panic.mp e
      cases cmd
      case init => exact hc rfl
      case walkFsTree p => exact calm_walkFsTree X p _ this
      all_goals simp [Command.body] at this
    have hinit : exitOf (runInit X w).1 (Cache.finish (runInit X w).1 w.cache w.cache).1 ≠ .panicked := fun e => runInit_calm X w (exitOf_panic.mp e)
    cases found with
    | none =>
      simp only [Res.ok.injEq, reduceCtorEq, false_and, exists_false, or_false, iff_false]
      cases cmd
      case init => exact hinit
      all_goals exact hbody _ (by simp)
    | some f =>
      simp only [Res.ok.injEq, Option.some.injEq]
      cases hp : Path.parent f with
      | none => simp [hp]
      | some root =>
        have hopen := openDb_calm w.fs f
        cases ho : openDb w.fs f with
        | panic => exact (hopen ho).elim
        | err e => exact ⟨nofun, by rintro (⟨_, rfl, h⟩ | ⟨_, _, ⟨rfl, _, h⟩, _⟩) <;> simp_all⟩
        | fuel => exact ⟨nofun, by rintro (⟨_, rfl, h⟩ | ⟨_, _, ⟨rfl, _, h⟩, _⟩) <;> simp_all⟩
        | ok q =>
          have hne : ¬ ∃ f_1, f = f_1 ∧ Path.parent f_1 = none := by rintro ⟨_, rfl, h⟩; rw [hp] at h; simp at h
          constructor
          · intro e
            refine .inr ⟨⟨f, root⟩, q, ⟨rfl, hp, ho⟩, ?_⟩
            cases cmd
            case init => exact (hinit e).elim
            all_goals exact ⟨by simp, exitOf_panic.mp e⟩
          · rintro (h | ⟨⟨f', root'⟩, q', ⟨h1, h2, h3⟩, hc, h4⟩)
            · exact (hne h).elim
            · simp only at h1 h2 h3
              subst h1
              rw [hp] at h2
              rw [ho] at h3
              simp only [Option.some.injEq, Res.ok.injEq] at h2 h3
              subst h2 h3
              cases cmd
              case init => exact (hc rfl).elim
              all_goals exact exitOf_panic.mpr h4

theorem panic_open {X : Ctx} {cmd : Command} (hc : cmd ≠ .init) {w : World} {R : Repo} {q : List Bytes} (ho : Opens X w R q) :
    (mainRun X cmd w).1 = .panicked ↔ (cmd.inRepo X R (startOf w q)).1 = .panic := by
  rw [mainRun_open hc ho]
  exact exitOf_panic

/-- **C76**: these commands never panic, unless the database folder is the root directory. -/
theorem C76_never (X : Ctx) (cmd : Command) (w : World)
    (hc : cmd = .init ∨ (∃ r m, cmd = .refLog r m) ∨ (∃ r m, cmd = .reflogGet r m) ∨ (∃ r, cmd = .setHead r) ∨ cmd = .getHead ∨ ∃ p, cmd = .walkFsTree p) :
    (mainRun X cmd w).1 = .panicked ↔ RootIsDb X w := by
  rw [C76_main]
  refine ⟨fun h => h.resolve_right ?_, .inl⟩
  rintro ⟨R, q, _, hi, h⟩
  revert h
  rcases hc with rfl | ⟨r, m, rfl⟩ | ⟨r, m, rfl⟩ | ⟨r, rfl⟩ | rfl | ⟨p, rfl⟩
  · exact (hi rfl).elim
  · exact readDb_bind_panic (refOrHead_calm _ _) fun r _ => readDb_bind_panic (reflogWalk_calm _ _ _) fun l _ => calm_each (fun _ => calm_emit _) _ _
  · exact readDb_bind_panic (reflogGet_calm _ _ _) fun k _ => calm_emit _ _
  · exact calm_onDb (calm_write _) _
  · exact readDb_bind_panic (getHead_calm _) fun k _ => calm_emit _ _
  · exact calm_walkFsTree X p _

theorem readDb_bind_panic_iff {α β} {g : Db → Res α} {f : α → Snap.C β} {s : Sys} {C : Prop} (hg : g s.db = .panic ↔ C) (hf : ∀ a, g s.db = .ok a → (f a s).1 ≠ .panic) :
    ((readDb g >>= f) s).1 = .panic ↔ C := by
  refine ⟨readDb_bind_panic hg.mp fun a h e => (hf a h e).elim, fun h => ?_⟩
  rw [readDb_bind, hg.mpr h]

/-- **C76**: these commands panic if and only if the given key is the text of a whole key that is not stored. -/
theorem C76_keys (X : Ctx) (cmd : Command) (w : World) (R : Repo) (q : List Bytes) (ho : Opens X w R q) (key : Keyish)
    (hc : (∃ r, cmd = .refUpdate key r) ∨ (∃ r m, cmd = .reflogPush key r m) ∨ cmd = .prettyPrint key ∨ cmd = .walkTree key) :
    (mainRun X cmd w).1 = .panicked ↔ AbsentKey (w.dbs q) key := by
  rw [panic_open (by rcases hc with ⟨r, rfl⟩ | ⟨r, m, rfl⟩ | rfl | rfl <;> simp) ho]
  rcases hc with ⟨r, rfl⟩ | ⟨r, m, rfl⟩ | rfl | rfl <;> refine readDb_bind_panic_iff (canonicalize_panic _ _) fun k _ => ?_
  · exact readDb_bind_panic (C := False) (refOrHead_calm _ _) fun r _ => calm_onDb (calm_write _) _
  · exact calm_onDb (calm_write _) _
  · exact readDb_bind_panic (C := False) (getObj_calm _ _) fun r _ => calm_emit _ _
  · exact readDb_bind_panic (C := False) (walkItems_calm _ _ _) fun r _ => calm_emitAll _ _ _ _

theorem mapRes_panic_iff {α β : Type} {f : α → Res β} {l : List α} : mapRes f l = .panic ↔ ∃ pre a post, l = pre ++ a :: post ∧ f a = .panic ∧ ∀ x ∈ pre, ∃ b, f x = .ok b := by
  induction l with
  | nil => simp [mapRes]
  | cons a l ih =>
    simp only [mapRes]
    constructor
    · refine res_bind_panic (fun h => ⟨[], a, l, rfl, h, by simp⟩) fun b hb => res_bind_panic (fun h => ?_) fun _ _ => nofun
      obtain ⟨pre, x, post, rfl, h1, h2⟩ := ih.mp h
      exact ⟨a :: pre, x, post, rfl, h1, by simpa using ⟨⟨b, hb⟩, h2⟩⟩
    · rintro ⟨pre, x, post, e, h1, h2⟩
      cases pre with
      | nil =>
        simp only [List.nil_append, List.cons.injEq] at e
        rw [e.1, h1]; rfl
      | cons y pre =>
        simp only [List.cons_append, List.cons.injEq] at e
        obtain ⟨rfl, rfl⟩ := e
        obtain ⟨b, hb⟩ := h2 a (by simp)
        rw [hb, Res.ok_bind, ih.mpr ⟨pre, x, post, rfl, h1, fun z hz => h2 z (by simp [hz])⟩]; rfl

/-- **C76** for `debug commit-tree`: it panics if and only if the first of its keys that does not resolve is the text of a whole key that is not stored. -/
theorem C76_commit_tree (X : Ctx) (w : World) (R : Repo) (q : List Bytes) (ho : Opens X w R q) (tree : Keyish) (parents : List Keyish) :
    (mainRun X (.commitTree tree parents) w).1 = .panicked ↔
      ∃ pre a post, tree :: parents = pre ++ a :: post ∧ AbsentKey (w.dbs q) a ∧ ∀ x ∈ pre, ∃ k, canonicalize (w.dbs q) x = .ok k := by
  rw [panic_open (by simp) ho]
  have : (∃ pre a post, tree :: parents = pre ++ a :: post ∧ AbsentKey (w.dbs q) a ∧ ∀ x ∈ pre, ∃ k, canonicalize (w.dbs q) x = .ok k) ↔ mapRes (canonicalize (w.dbs q)) (tree :: parents) = .panic := by
    rw [mapRes_panic_iff]
    simp only [canonicalize_panic]
  rw [this]
  show (cmdCommitTree X tree parents (startOf w q)).1 = .panic ↔ _
  unfold cmdCommitTree
  rw [readDb_bind]
  simp only [mapRes]
  cases h : canonicalize (w.dbs q) tree with
  | err e => simp [startOf, h]
  | panic => simp [startOf, h]
  | fuel => simp [startOf, h]
  | ok t =>
    simp only [startOf, h, Res.ok_bind]
    rw [readDb_bind]
    cases h' : mapRes (canonicalize (w.dbs q)) parents with
    | err e => simp
    | panic => simp
    | fuel => simp
    | ok ps =>
      simp only [Res.ok_bind, Res.pure_eq, reduceCtorEq, iff_false]
      exact calm_bind (calm_onDb (calm_commitTree _ _ _ _)) (fun _ => calm_emit _) _

/-- **C76** for `insert`: it panics only if one of the directories it enters contains a dangling link, or something it does not leave out is neither a directory nor a
regular file. -/
theorem C76_insert (X : Ctx) (w : World) (hw : w.fs.Wf) (R : Repo) (q : List Bytes) (ho : Opens X w R q) (path : Path) (h : (mainRun X (.insert path) w).1 = .panicked) :
    BrokenBelow w.fs (makeFilter X.glob R.folder) path ∨ SpecialBelow w.fs (makeFilter X.glob R.folder) path := by
  rw [panic_open (by simp) ho] at h
  revert h
  exact bind_panic (fun h => putFsItem_panic X.E hw (opens_folder ho) X.depth path _ h) fun k s _ h => (calm_emit _ _ h).elim

/-- **C76** for `commit`: the same. -/
theorem C76_commit (X : Ctx) (w : World) (hw : w.fs.Wf) (R : Repo) (q : List Bytes) (ho : Opens X w R q) (path : Option Path) (message : Bytes) (refname : Option Bytes)
    (h : (mainRun X (.commit path message refname) w).1 = .panicked) :
    BrokenBelow w.fs (makeFilter X.glob R.folder) (path.getD R.root) ∨ SpecialBelow w.fs (makeFilter X.glob R.folder) (path.getD R.root) := by
  rw [panic_open (by simp) ho] at h
  revert h
  refine readDb_bind_panic (fun h => (refOrHead_calm _ _ h).elim) fun r _ => readDb_bind_panic (fun h => (parentsOf_calm _ _ h).elim) fun ps _ => ?_
  refine bind_panic (fun h => putFsItem_panic X.E hw (opens_folder ho) X.depth _ _ h) fun k s _ => ?_
  intro h
  exact (calm_bind (calm_onDb (calm_commitTree _ _ _ _)) (fun _ => calm_onDb (calm_write _)) _ h).elim

/-- **C76** for `fetch`: it panics only if the key is the text of a whole key that is not stored, or leads to the contents of a file, not to a file, and these contents read as the
description of a file. -/
theorem C76_fetch (X : Ctx) (w : World) (hs : w.Sound X.E.H) (R : Repo) (q : List Bytes) (hc : NoColl X.E.H (w.dbs q)) (ho : Opens X w R q) (key : Keyish) (dest : Path)
    (h : (mainRun X (.fetch key dest) w).1 = .panicked) : AbsentKey (w.dbs q) key ∨ ∃ k, canonicalize (w.dbs q) key = .ok k ∧ FakeFile (w.dbs q) k := by
  rw [panic_open (by simp) ho] at h
  revert h
  exact readDb_bind_panic (fun h => .inl ((canonicalize_panic _ _).mp h)) fun k hk h => .inr ⟨k, hk, getFsItem_panic (typed_of hs q hc) X.depth k dest _ h⟩

end Snap.Props
