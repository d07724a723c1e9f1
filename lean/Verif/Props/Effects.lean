import Verif.Props.Restore
import Verif.Props.Find
import Verif.Props.Closed
import Verif.Props.History
import Verif.Props.Clean
/-! Properties C64–C66: what the commands on refs print, which commands change files, commands without a repository. -/
namespace Snap.Props
open Snap
set_option linter.unusedSectionVars false
variable [Serde] [LawfulSerde]

/-! ### Running commands -/

theorem readDb_bind {α β} (f : Db → Res α) (g : α → C β) (s : Sys) : (readDb f >>= g) s = match f s.db with
    | .ok a => g a s
    | .err e => (.err e, s)
    | .panic => (.panic, s)
    | .fuel => (.fuel, s) := by
  refine (SM.bind_apply (σ := Sys) _ _ _).trans ?_
  rw [readDb_apply]
  cases f s.db <;> rfl

theorem each_emit {α} (line : α → Out) (l : List α) (s : Sys) : SM.each (fun a => emit (line a)) l s = (.ok (), { s with out := s.out ++ l.map line }) := by
  induction l generalizing s with
  | nil => simp [SM.each, SM.pure]
  | cons a l ih =>
    show SM.each _ l { s with out := s.out ++ [line a] } = _
    rw [ih]
    simp

theorem each_prints {α} {f : α → C Unit} {g : α → Option Out} (h : ∀ a s, f a s = (.ok (), { s with out := s.out ++ (g a).toList })) (l : List α) (s : Sys) :
    SM.each f l s = (.ok (), { s with out := s.out ++ l.filterMap g }) := by
  induction l generalizing s with
  | nil => simp [SM.each, SM.pure]
  | cons a l ih =>
    have : SM.each f (a :: l) s = SM.each f l { s with out := s.out ++ (g a).toList } := by
      show SM.bind _ _ s = _
      simp only [SM.bind, h]
    rw [this, ih]
    cases hg : g a <;> simp [hg]

theorem emitAll_eq {α} (order : List Path → List Path) (m : PMap α) (line : Path → α → Out) (s : Sys) :
    emitAll order m line s = (.ok (), { s with out := s.out ++ (order (m.map (·.1))).filterMap fun p => (m.get p).map (line p) }) := by
  unfold emitAll
  refine each_prints (fun p s => ?_) _ _
  cases m.get p with
  | none => simp
  | some v => rfl

/-- What a command prints. -/
def _root_.Snap.World.printed (w : World) (X : Ctx) (cmd : Command) : List Out := (mainRun X cmd w).2.1

/-- `COMMIT` on the cache will succeed if the cache is not written to. -/
def cacheOk (w : World) : Prop := ∀ fs, w.cache.faults ≠ true :: fs

theorem finish_ok {w : World} (h : cacheOk w) : (Cache.finish (.ok ()) w.cache w.cache).1 = true := by
  unfold Cache.finish
  cases hf : w.cache.faults with
  | nil => rfl
  | cons a l => cases a with
    | false => rfl
    | true => exact (h l hf).elim

/-- A command that only prints. -/
theorem run_reads {X : Ctx} {w : World} {R : Repo} {q : List Bytes} (ho : Opens X w R q) {cmd : Command} (hc : cmd ≠ .init) {r : Res Unit} {o : List Out}
    (h : cmd.inRepo X R (startOf w q) = (r, { startOf w q with out := o })) :
    w.printed X cmd = o ∧ (r = .ok () → cacheOk w → (mainRun X cmd w).1 = .success) ∧ (∀ e, r = .err e → (mainRun X cmd w).1 = .fatal e) ∧
    (r = .panic → (mainRun X cmd w).1 = .panicked) ∧ ∀ q', SameDb ((mainRun X cmd w).2.2.dbs q') (w.dbs q') := by
  unfold World.printed
  rw [mainRun_open hc ho]
  refine ⟨by rw [runIn_out, h], ?_, ?_, ?_, ?_⟩
  · rintro rfl hk
    rw [runIn_exit, h]
    show exitOf (.ok ()) (Cache.finish (.ok ()) w.cache w.cache).1 = _
    rw [finish_ok hk]
    rfl
  · rintro e rfl
    rw [runIn_exit, h]
    rfl
  · rintro rfl
    rw [runIn_exit, h]
    rfl
  · intro q'
    by_cases hq : q' = q
    · subst hq
      by_cases hr : r = .ok () ∧ commitOk (w.dbs q')
      · have := runIn_committed X R q' cmd w () (by rw [h]; exact hr.1) (by rw [h]; exact hr.2)
        rw [h] at this
        exact this
      · refine runIn_lost X R q' cmd w ?_
        rw [h]
        by_cases hr' : r = .ok ()
        · exact .inr fun hk => hr ⟨hr', hk⟩
        · exact .inl fun u hu => hr' hu
    · rw [runIn_dbs X R q cmd w q' hq]
      exact SameDb.refl _

/-! ### C65: files -/

/-- A computation that leaves the files alone. -/
def NoFs {α} (x : C α) : Prop := ∀ s, (x s).2.fs = s.fs
theorem noFs_bind {α β} {x : C α} {f : α → C β} (hx : NoFs x) (hf : ∀ a, NoFs (f a)) : NoFs (x >>= f) := by
  intro s
  rw [SM.bind_apply]
  have := hx s
  cases hxs : x s with
  | mk r s' =>
    rw [hxs] at this
    cases r with
    | ok a => exact (hf a s').trans this
    | _ => exact this
theorem noFs_each {α} {f : α → C Unit} (h : ∀ a, NoFs (f a)) (l : List α) : NoFs (SM.each f l) := by
  induction l with
  | nil => exact fun _ => rfl
  | cons a l ih => exact noFs_bind (h a) fun _ => ih
theorem noFs_emitAll {α} (order : List Path → List Path) (m : PMap α) (line : Path → α → Out) : NoFs (emitAll order m line) := by
  refine noFs_each (fun p => ?_) _
  cases m.get p with
  | none => exact fun _ => rfl
  | some v => exact fun _ => rfl

/-- The commands that change files. -/
def _root_.Snap.Command.writesFiles : Command → Bool
  | .fetch _ _ | .checkout | .init => true
  | _ => false

theorem noFs_command (X : Ctx) (R : Repo) (cmd : Command) (h : cmd.writesFiles = false) : NoFs (cmd.inRepo X R) := by
  cases cmd with
  | insert path => exact noFs_bind (fun _ => rfl) fun _ _ => rfl
  | commit path message refname =>
    exact noFs_bind (fun _ => rfl) fun _ => noFs_bind (fun _ => rfl) fun _ => noFs_bind (fun _ => rfl) fun _ => noFs_bind (fun _ => rfl) fun _ _ => rfl
  | fetch key dest => simp [Command.writesFiles] at h
  | init => simp [Command.writesFiles] at h
  | «show» key => exact noFs_bind (fun _ => rfl) fun _ _ => rfl
  | log key => exact noFs_bind (fun _ => rfl) fun _ _ => rfl
  | compare path key stat =>
    refine noFs_bind (fun _ => rfl) fun _ => noFs_bind (fun _ => rfl) fun r => ?_
    cases stat
    · exact fun _ => rfl
    · exact noFs_bind (fun _ => rfl) fun _ _ => rfl
  | status =>
    refine noFs_bind (fun _ => rfl) fun h => noFs_bind (fun _ => rfl) fun k => ?_
    cases k with
    | none => exact fun _ => rfl
    | some k => exact noFs_bind (fun _ => rfl) fun _ => noFs_bind (fun _ => rfl) fun _ => noFs_bind (fun _ => rfl) fun _ _ => rfl
  | checkout => simp [Command.writesFiles] at h
  | checkoutHead refname =>
    refine noFs_bind (fun _ => rfl) fun h => noFs_bind (fun _ => rfl) fun k => noFs_bind (fun _ => rfl) fun t => noFs_bind (fun _ => rfl) fun r => ?_
    cases r.isEmpty
    · exact noFs_bind (fun _ => rfl) fun _ _ => rfl
    · exact noFs_bind (fun _ => rfl) fun _ _ => rfl
  | refLog refname remote => exact noFs_bind (fun _ => rfl) fun _ => noFs_bind (fun _ => rfl) fun _ => noFs_each (fun _ _ => rfl) _
  | refUpdate key refname => exact noFs_bind (fun _ => rfl) fun _ => noFs_bind (fun _ => rfl) fun _ _ => rfl
  | prettyPrint key => exact noFs_bind (fun _ => rfl) fun _ => noFs_bind (fun _ => rfl) fun _ _ => rfl
  | commitTree tree parents => exact noFs_bind (fun _ => rfl) fun _ => noFs_bind (fun _ => rfl) fun _ => noFs_bind (fun _ => rfl) fun _ _ => rfl
  | reflogGet refname remote => exact noFs_bind (fun _ => rfl) fun _ _ => rfl
  | reflogPush key refname remote => exact noFs_bind (fun _ => rfl) fun _ _ => rfl
  | walkTree key => exact noFs_bind (fun _ => rfl) fun _ => noFs_bind (fun _ => rfl) fun _ => noFs_emitAll _ _ _
  | walkFsTree path => exact noFs_bind (fun _ => rfl) fun _ => noFs_emitAll _ _ _
  | setHead refname => exact fun _ => rfl
  | getHead => exact noFs_bind (fun _ => rfl) fun _ _ => rfl

/-- How `main` goes on. -/
theorem mainRun_split (X : Ctx) (cmd : Command) (hc : cmd ≠ .init) (w : World) :
    (∃ R q, Opens X w R q ∧ mainRun X cmd w = runIn X R q cmd w) ∨ (findDbFolder w.fs X.dbPath = .ok none ∧ mainRun X cmd w = runOut X cmd w) ∨
    (((∃ e, (mainRun X cmd w).1 = .failure e) ∨ (mainRun X cmd w).1 = .panicked ∨ (mainRun X cmd w).1 = .fuel) ∧ (mainRun X cmd w).2 = ([], w)) := by
  unfold mainRun
  cases hf : findDbFolder w.fs X.dbPath with
  | err e => right; right; exact ⟨.inl ⟨e, rfl⟩, rfl⟩
  | panic => right; right; exact ⟨.inr (.inl rfl), rfl⟩
  | fuel => right; right; exact ⟨.inr (.inr rfl), rfl⟩
  | ok found =>
    cases found with
    | none =>
      right; left
      refine ⟨rfl, ?_⟩
      cases cmd <;> first | exact (hc rfl).elim | rfl
    | some x =>
      simp only
      cases hp : Path.parent x with
      | none => right; right; exact ⟨.inr (.inl rfl), rfl⟩
      | some root =>
        simp only
        cases ho : openDb w.fs x with
        | err e => right; right; exact ⟨.inl ⟨e, rfl⟩, rfl⟩
        | panic => right; right; exact ⟨.inr (.inl rfl), rfl⟩
        | fuel => right; right; exact ⟨.inr (.inr rfl), rfl⟩
        | ok q =>
          left
          refine ⟨⟨x, root⟩, q, ⟨hf, hp, ho⟩, ?_⟩
          cases cmd <;> first | exact (hc rfl).elim | rfl

theorem runOut_eq (X : Ctx) (cmd : Command) (hc : cmd ≠ .init) (hw : ∀ p, cmd ≠ .walkFsTree p) (w : World) :
    runOut X cmd w = (.fatal .noDatabase, [], { w with cache := { w.cache with faults := w.cache.faults } }) := by
  cases cmd <;> first | exact (hc rfl).elim | exact (hw _ rfl).elim | rfl

/-- **C65**: commands other than `fetch`, `checkout` and `init` change no file, whether they end well, fail or panic. -/
theorem C65_files_kept (X : Ctx) (cmd : Command) (hc : (∀ k p, cmd ≠ .fetch k p) ∧ cmd ≠ .checkout ∧ cmd ≠ .init) (w : World) : (mainRun X cmd w).2.2.fs = w.fs := by
  have hk : cmd.writesFiles = false := by
    cases cmd <;> first | rfl | exact absurd rfl hc.2.1 | exact absurd rfl hc.2.2 | exact absurd rfl (hc.1 _ _)
  rcases mainRun_split X cmd hc.2.2 w with ⟨R, q, _, e⟩ | ⟨_, e⟩ | ⟨_, e⟩
  · rw [e]
    exact noFs_command X R cmd hk (startOf w q)
  · rw [e]
    by_cases hw : ∃ p, cmd = .walkFsTree p
    · obtain ⟨p, rfl⟩ := hw
      exact noFs_command X ⟨[], []⟩ (.walkFsTree p) rfl { db := {}, cache := w.cache, fs := w.fs }
    · rw [runOut_eq X cmd hc.2.2 fun p h => hw ⟨p, h⟩]
  · rw [e]

/-- **C65**: whatever becomes of `fetch`, no file or directory there was before is changed or removed. -/
theorem C65_fetch (X : Ctx) (k : Keyish) (to : Path) (w : World) (p : List Bytes) (e : Ent) (h : w.fs.at p = some e) : (mainRun X (.fetch k to) w).2.2.fs.at p = some e := by
  rcases mainRun_split X (.fetch k to) (by simp) w with ⟨R, q, _, he⟩ | ⟨_, he⟩ | ⟨_, he⟩
  · rw [he]
    show (cmdFetch X k to (startOf w q)).2.fs.at p = some e
    have hb : cmdFetch X k to (startOf w q) = _ := readDb_bind _ _ _
    rw [hb]
    cases canonicalize (startOf w q).db k with
    | ok key => exact C30_fetch_keeps _ _ _ _ _ _ _ h
    | _ => exact h
  · rw [he, runOut_eq X _ (by simp) (by simp)]
    exact h
  · rw [he]
    exact h

/-! `checkout` and the database folder -/

theorem cwd_names {fs : Fs} (hw : fs.Wf) : ∀ n ∈ fs.cwd, okName n := by
  have h := hw.cwd
  unfold Fs.at at h
  by_cases hc : fs.cwd = []
  · rw [hc]; simp
  · rw [if_neg hc] at h
    cases hf : fs.ents.find? (·.1 == fs.cwd) with
    | none => rw [hf] at h; simp at h
    | some e =>
      have h1 := List.mem_of_find?_eq_some hf
      have h2 := List.find?_some hf
      simp only [beq_iff_eq] at h2
      rw [← h2]
      exact hw.names e h1

theorem nul_join {p n : Path} (hp : 0 ∉ p) (hn : 0 ∉ n) : 0 ∉ Path.join p n := by
  unfold Path.join
  split
  · exact hn
  · split <;> simp [hp, hn]

theorem clean_abs {l : List Bytes} (h : ∀ n ∈ l, okName n) : Clean (joins sSlash l) := by
  refine ⟨?_, ?_⟩
  · have : ∀ (l : List Bytes) (p : Path), 0 ∉ p → (∀ n ∈ l, 0 ∉ n) → 0 ∉ joins p l := by
      intro l
      induction l with
      | nil => exact fun p hp _ => hp
      | cons n l ih => exact fun p hp hl => ih _ (nul_join hp (hl n (by simp))) fun m hm => hl m (by simp [hm])
    exact this l _ (by simp [sSlash]) fun n hn => (h n hn).2.2.2.2
  · rw [comps_abs fun n hn => (h n hn).comp]
    intro hd
    rcases List.mem_cons.mp hd with hd | hd
    · exact absurd hd (by decide)
    · exact (h _ hd).2.2.1 rfl

/-- Where the repository is, if the database folder has a plain name. -/
theorem opens_plain {X : Ctx} {w : World} {R : Repo} {q : List Bytes} (hw : w.fs.Wf) (ho : Opens X w R q) (hm : okName X.dbPath) :
    ∃ up down, w.fs.cwd = up ++ down ∧ R.folder = joins sSlash (up ++ [X.dbPath]) ∧ R.root = joins sSlash up ∧ (∀ n ∈ up, okName n) ∧
      loc w.fs.cwd R.root = up ∧ loc w.fs.cwd R.folder = up ++ [X.dbPath] ∧ Clean R.root ∧ w.fs.at up = some .dir := by
  have hn := cwd_names hw
  obtain ⟨up, down, e1, e2, e3, _⟩ := ((C48_nearest w.fs (fun n h => (hn n h).comp) X.dbPath).1 _).mp ho.1
  have hu : ∀ n ∈ up, okName n := fun n h => hn n (by rw [e1]; simp [h])
  have hu' : ∀ n ∈ up ++ [X.dbPath], okName n := by
    intro n h
    rcases List.mem_append.mp h with h | h
    · exact hu n h
    · simp only [List.mem_singleton] at h; rw [h]; exact hm
  have hf : R.folder = joins sSlash (up ++ [X.dbPath]) := by rw [e2, joins_append]; rfl
  have hr : R.root = joins sSlash up := by
    have := ho.2.1
    rw [hf, parent_abs fun n h => (hu' n h).comp] at this
    exact (Option.some.inj this).symm
  have hl : loc w.fs.cwd sSlash = [] := by unfold loc; rw [comps_root]; simp [lexStep, sSlash]
  obtain ⟨e, he, _⟩ := (C48_places w.fs hw up X.dbPath hu hm).mp (by rw [← e2]; exact e3)
  refine ⟨up, down, e1, hf, hr, hu, ?_, ?_, ?_, hw.parents up X.dbPath (by rw [he]; simp)⟩
  · rw [hr, loc_joins _ _ hu, hl]; rfl
  · rw [hf, loc_joins _ _ hu', hl]; rfl
  · rw [hr]; exact clean_abs hu

/-- How `checkout` goes on when HEAD's newest entry is a commit. -/
theorem checkout_run (X : Ctx) (R : Repo) (s : Sys) {ck : Key} {c : Commit} (h1 : getHeadKey s.db = .ok ck) (h2 : Commit.fromKey s.db ck = .ok c) :
    Command.checkout.inRepo X R s = ((checkoutFsItem s.db (makeFilter X.glob R.folder) X.iterNames X.depth c.tree R.root s.fs).1,
      { s with fs := (checkoutFsItem s.db (makeFilter X.glob R.folder) X.iterNames X.depth c.tree R.root s.fs).2 }) := by
  show cmdCheckout X R s = _
  unfold cmdCheckout
  rw [readDb_bind, h1]
  simp only
  refine (readDb_bind _ _ _).trans ?_
  rw [h2]
  rfl

/-- **C65**: a commit of the repository's directory, then anything, then a `checkout` of it, which may end in any way, also within system calls that fail: nothing outside the
repository's directory has changed, and nothing in the database folder (which has a plain name, the same at both times). -/
theorem C65_checkout (X : Ctx) (message : Bytes) (refname : Option Bytes) (w : World) (hw : w.fs.Wf) (R : Repo) (q : List Bytes) (hi : Inv X.E.H (w.dbs q))
    (hplain : okName X.dbPath) (h : Committed X (.commit none message refname) w R q) (hcoll : NoColl X.E.H ((mainRun X (.commit none message refname) w).2.2.dbs q)) :
    ∃ n ck, refOrHead (w.dbs q) refname = .ok n ∧ reflogGet ((mainRun X (.commit none message refname) w).2.2.dbs q) n none = .ok ck ∧
    ∀ w2 : World, World.Steps X.E.H (mainRun X (.commit none message refname) w).2.2 w2 → w2.fs.Wf →
    ∀ (Y : Ctx) (S : Repo), Opens Y w2 S q → Y.dbPath = X.dbPath → (∀ l, (Y.iterNames l).Perm l) → getHeadKey (w2.dbs q) = .ok ck →
      ∀ p, (¬ loc w2.fs.cwd S.root <+: p ∨ loc w2.fs.cwd S.folder <+: p) → (mainRun Y .checkout w2).2.2.fs.at p = w2.fs.at p := by
  obtain ⟨n, ck, tree, ps, g1, g2, g3, _, ⟨d, g4, g5, g6⟩, _⟩ := C38_commit X none message refname w R q hi h hcoll
  refine ⟨n, ck, g1, g2, ?_⟩
  intro w2 hs hw2 Y S ho hY hit hhead p hp
  have hpre := steps_data hs q
  have hc := fromKey_mono hpre g3
  obtain ⟨up, _, _, a2, a3, a4, a5, a6, a7, a8⟩ := opens_plain hw h.1 hplain
  obtain ⟨up', _, _, _, _, _, b5, b6, b7, _⟩ := opens_plain hw2 ho (by rw [hY]; exact hplain)
  rw [mainRun_open (by simp) ho]
  have hrun := checkout_run Y S (startOf w2 q) (ck := ck) (c := ⟨tree, ps, { message := message }⟩) hhead hc
  show (Command.checkout.inRepo Y S (startOf w2 q)).2.fs.at p = _
  rw [hrun]
  show (checkoutFsItem (w2.dbs q) (makeFilter Y.glob S.folder) Y.iterNames Y.depth tree S.root w2.fs).2.at p = _
  obtain ⟨ns, h1, h2, h3, h4, h5, h6⟩ := put_nodes hw hi g4 g5
  rcases hp with hp | hp
  · exact (C36_untouched (h1.mono (g6.trans hpre)) h2 h3 (fuel := Y.depth) b7 (fun l x => (hit l).mem_iff) (acc := accepts Y.glob S.folder w2.fs.cwd)
      (fun f p b hf hb => by rw [makeFilter_accepts hb, hf]) (wf_atWf hw2) (wf_atNames hw2) rfl).1 p hp
  · refine C36_database_kept X.E w.fs hw _ X.depth _ _ d (w2.dbs q) tree hi g4 g5 (g6.trans hpre) w2.fs _ hw2 S.root b7 Y.glob S.folder Y.iterNames hit Y.depth _ rfl
      [] X.dbPath hplain ?_ ?_ ?_ p hp
    · rw [b5, b6, hY]; simp
    · refine ⟨fun r hr hr' => absurd (List.prefix_nil.mp hr') hr, ?_⟩
      show w.fs.at (loc w.fs.cwd R.root ++ []) = _
      rw [List.append_nil, a5]
      exact a8
    · rintro ⟨hv, _⟩
      have := hv [X.dbPath] (by simp) (by simp)
      have := makeFilter_accepts this
      unfold accepts at this
      have e : loc w.fs.cwd (joins R.root [X.dbPath]) = loc w.fs.cwd R.folder := by
        rw [loc_joins _ _ (by simpa using hplain), a5, a6]
      have e' : loc w.fs.cwd (joins ((none : Option Path).getD R.root) [X.dbPath]) = loc w.fs.cwd R.folder := e
      rw [e', List.isPrefixOf_iff_prefix.mpr (List.prefix_refl _)] at this
      simp at this

/-! ### C66: without a repository -/

/-- **C66**: if no database folder is found, every command but `init` and `debug walk-fs-tree` says so, prints nothing else and changes nothing. (The process still ends
with status 0.) -/
theorem C66_no_repository (X : Ctx) (cmd : Command) (hc : cmd ≠ .init ∧ ∀ p, cmd ≠ .walkFsTree p) (w : World)
    (hcwd : ∀ n ∈ w.fs.cwd, okComp n) (hno : ∀ up down, w.fs.cwd = up ++ down → w.fs.exists (Path.join (joins sSlash up) X.dbPath) = false) :
    mainRun X cmd w = (.fatal .noDatabase, [], w) := by
  have hf := (C48_nearest w.fs hcwd X.dbPath).2.1.mpr hno
  rcases mainRun_split X cmd hc.1 w with ⟨R, q, ho, _⟩ | ⟨_, e⟩ | ⟨h, _⟩
  · rw [ho.1] at hf; simp at hf
  · rw [e, runOut_eq X cmd hc.1 hc.2]
  · exfalso
    have : mainRun X cmd w = runOut X cmd w := by
      unfold mainRun
      rw [hf]
      cases cmd <;> first | exact (hc.1 rfl).elim | rfl
    rw [this, runOut_eq X cmd hc.1 hc.2] at h
    simp at h

/-- **C66**: `debug walk-fs-tree` does the same without a repository as with one. -/
theorem C66_walk_fs (X : Ctx) (path : Path) (w : World) (R : Repo) (q : List Bytes) (ho : Opens X w R q) (dbPath : Path) (hno : findDbFolder w.fs dbPath = .ok none) :
    (mainRun { X with dbPath := dbPath } (.walkFsTree path) w).1 = (mainRun X (.walkFsTree path) w).1 ∧
    (mainRun { X with dbPath := dbPath } (.walkFsTree path) w).2.1 = (mainRun X (.walkFsTree path) w).2.1 := by
  rw [mainRun_open (by simp) ho]
  have : mainRun { X with dbPath := dbPath } (.walkFsTree path) w = runOut { X with dbPath := dbPath } (.walkFsTree path) w := by
    unfold mainRun
    rw [hno]
  rw [this]
  have e : ∀ (Y : Ctx) (s : Sys), cmdWalkFsTree Y path s = match walkReal s.fs (fun _ _ => .ok true) Y.depth path with
      | .ok m => (.ok (), { s with out := s.out ++ ((Y.iter 3) (m.map (·.1))).filterMap fun p => (m.get p).map (Out.fsItem p) })
      | .err e => (.err e, s)
      | .panic => (.panic, s)
      | .fuel => (.fuel, s) := by
    intro Y s
    unfold cmdWalkFsTree
    refine (SM.bind_apply (σ := Sys) _ _ _).trans ?_
    rw [SM.read_apply]
    cases walkReal s.fs (fun _ _ => .ok true) Y.depth path with
    | ok m => exact emitAll_eq _ _ _ _
    | _ => rfl
  have e1 : (Command.walkFsTree path).body { X with dbPath := dbPath } none { db := {}, cache := w.cache, fs := w.fs } = cmdWalkFsTree { X with dbPath := dbPath } path { db := {}, cache := w.cache, fs := w.fs } := rfl
  have e2 : (Command.walkFsTree path).inRepo X R (startOf w q) = cmdWalkFsTree X path (startOf w q) := rfl
  rw [runIn_exit, runIn_out, e2]
  unfold runOut
  rw [e1, e, e]
  show exitOf _ _ = _ ∧ _
  simp only [startOf]
  cases walkReal w.fs (fun _ _ => .ok true) X.depth path <;> exact ⟨rfl, rfl⟩

/-! ### C64: refs -/

/-- The lines of a ref log: numbered, the newest first. -/
def numbered (ks : List Key) : List Out := ks.zipIdx.map fun e => .entry (ks.length - e.2) e.1

theorem numbered_cons (k : Key) (ks : List Key) : numbered (k :: ks) = .entry (ks.length + 1) k :: numbered ks := by
  unfold numbered
  rw [List.zipIdx_cons]
  simp only [List.map_cons, List.length_cons, Nat.sub_zero, List.cons.injEq, true_and, Nat.zero_add]
  rw [List.zipIdx_eq_map_add]
  simp only [List.map_map]
  apply List.map_congr_left
  intro x _
  simp only [Function.comp]
  congr 1
  omega

theorem walk_total {db : Db} (h : Closed db) (n : Bytes) (r : Option Bytes) : ∃ ks, reflogWalk db n r = .ok ks := by
  unfold reflogWalk
  have : ∀ l : List RefRow, (∀ x ∈ l, x ∈ db.reflog) → ∃ ks, mapRes (fun r => fromDbKey r.key) l = .ok ks := by
    intro l
    induction l with
    | nil => exact fun _ => ⟨[], rfl⟩
    | cons x l ih =>
      intro hl
      obtain ⟨ks, hk⟩ := ih fun y hy => hl y (by simp [hy])
      obtain ⟨k, h1, _⟩ := h.refs x (hl x (by simp))
      refine ⟨k :: ks, ?_⟩
      simp only [mapRes, h1, fromDbKey_asDbKey, hk]
      rfl
  exact this _ fun x hx => (List.mem_filter.mp (List.mem_reverse.mp hx)).1

theorem refLog_run (X : Ctx) (R : Repo) (s : Sys) (refname remote : Option Bytes) {n : Bytes} (hn : refOrHead s.db refname = .ok n) {ks : List Key}
    (hk : reflogWalk s.db n remote = .ok ks) : (Command.refLog refname remote).inRepo X R s = (.ok (), { s with out := s.out ++ numbered ks }) := by
  show cmdRefLog refname remote s = _
  unfold cmdRefLog
  rw [readDb_bind, hn]
  simp only
  rw [readDb_bind, hk]
  exact each_emit (fun e : Key × Nat => .entry (ks.length - e.2) e.1) _ _

/-- **C64**: `ref log` on a ref prints its log, the newest entry first, numbered down to 1; it cannot fail. Without the name of a ref it is about the ref that HEAD names. -/
theorem C64_log {X : Ctx} {w : World} (h : w.Reachable X.E.H) {R : Repo} {q : List Bytes} (ho : Opens X w R q) (hk : cacheOk w) (n : Bytes) (remote : Option Bytes) :
    (∃ ks, reflogWalk (w.dbs q) n remote = .ok ks ∧ w.printed X (.refLog (some n) remote) = numbered ks ∧ (mainRun X (.refLog (some n) remote) w).1 = .success) ∧
    (rawGetState (w.dbs q) sHEAD = .ok (some n) → utf8 n = true → w.printed X (.refLog none remote) = w.printed X (.refLog (some n) remote) ∧
      (mainRun X (.refLog none remote) w).1 = .success) ∧
    (rawGetState (w.dbs q) sHEAD = .ok (some n) → utf8 n = false → (mainRun X (.refLog none remote) w).1 = .fatal .utf8) ∧
    (rawGetState (w.dbs q) sHEAD = .ok none → (mainRun X (.refLog none remote) w).1 = .fatal .noHead) := by
  have hr : ∀ refname e, refOrHead (w.dbs q) refname = .err e → (mainRun X (.refLog refname remote) w).1 = .fatal e := by
    intro refname e he
    refine (run_reads ho (by simp) (cmd := .refLog refname remote) (r := .err e) (o := []) ?_).2.2.1 e rfl
    show cmdRefLog refname remote (startOf w q) = _
    unfold cmdRefLog
    rw [readDb_bind]
    have : refOrHead (startOf w q).db refname = .err e := he
    rw [this]
    rfl
  obtain ⟨ks, hks⟩ := walk_total (World.Reachable.closed h q) n remote
  have hp : ∀ refname, refOrHead (w.dbs q) refname = .ok n → w.printed X (.refLog refname remote) = numbered ks ∧ (mainRun X (.refLog refname remote) w).1 = .success := by
    intro refname hn
    have := run_reads ho (by simp) (refLog_run X R (startOf w q) refname remote hn hks)
    exact ⟨by rw [this.1]; simp [startOf], this.2.1 rfl hk⟩
  refine ⟨⟨ks, hks, hp (some n) rfl⟩, ?_, ?_, ?_⟩
  · intro hs hu
    have := hp none (headName_eq (by unfold getHead; rw [hs, Res.ok_bind]; simp [hu]))
    exact ⟨by rw [this.1, (hp (some n) rfl).1], this.2⟩
  · intro hs hu
    refine hr none _ ?_
    show headName (w.dbs q) = _
    unfold headName getHead
    rw [hs, Res.ok_bind]
    simp [hu]
  · intro hs
    refine hr none _ ?_
    show headName (w.dbs q) = _
    unfold headName getHead
    rw [hs, Res.ok_bind]
    rfl

theorem Opens.same {X : Ctx} {w w' : World} {R : Repo} {q : List Bytes} (h : Opens X w R q) (e : w'.fs = w.fs) : Opens X w' R q := by
  unfold Opens at *
  rw [e]
  exact h

theorem printed_refLog {X : Ctx} {w : World} {R : Repo} {q : List Bytes} (ho : Opens X w R q) {n : Bytes} {remote : Option Bytes} {ks : List Key}
    (hk : reflogWalk (w.dbs q) n remote = .ok ks) : w.printed X (.refLog (some n) remote) = numbered ks := by
  have := run_reads ho (by simp) (refLog_run X R (startOf w q) (some n) remote rfl hk)
  rw [this.1]
  simp [startOf]

theorem printed_reflogGet {X : Ctx} {w : World} {R : Repo} {q : List Bytes} (ho : Opens X w R q) {n : Bytes} {remote : Option Bytes} {k : Key}
    (hk : reflogGet (w.dbs q) n remote = .ok k) : w.printed X (.reflogGet n remote) = [.key k] := by
  refine (run_reads ho (by simp) (r := .ok ()) ?_).1
  have hb : cmdReflogGet n remote (startOf w q) = _ := readDb_bind _ _ _
  have e : reflogGet (startOf w q).db n remote = .ok k := hk
  rw [e] at hb
  exact hb

theorem printed_getHead {X : Ctx} {w : World} {R : Repo} {q : List Bytes} (ho : Opens X w R q) {h : Option Bytes}
    (hk : getHead (w.dbs q) = .ok h) : w.printed X .getHead = [.head h] := by
  refine (run_reads ho (by simp) (r := .ok ()) ?_).1
  have hb : cmdGetHead (startOf w q) = _ := readDb_bind _ _ _
  have e : getHead (startOf w q).db = .ok h := hk
  rw [e] at hb
  exact hb

/-- What is seen of a database with one more entry in a ref log. -/
theorem pushed_seen {X : Ctx} {w w' : World} (hr : w.Reachable X.E.H) {R : Repo} {q : List Bytes} (ho : Opens X w R q) (ho' : Opens X w' R q) {n : Bytes} {r : Option Bytes} {k : Key}
    (h1 : (w'.dbs q).reflog = (w.dbs q).reflog ++ [⟨n, r, k.asDbKey⟩]) :
    w'.printed X (.reflogGet n r) = [.key k] ∧
    w'.printed X (.refLog (some n) r) = .entry ((w.printed X (.refLog (some n) r)).length + 1) k :: w.printed X (.refLog (some n) r) ∧
    ∀ m r', (m ≠ n ∨ r' ≠ r) → w'.printed X (.refLog (some m) r') = w.printed X (.refLog (some m) r') := by
  have hc := World.Reachable.closed hr q
  refine ⟨printed_reflogGet ho' (reflogGet_pushed h1), ?_, fun m r' hne => ?_⟩
  · obtain ⟨ks, hk⟩ := walk_total hc n r
    have := reflogWalk_append (a := w.dbs q) (b := w'.dbs q) (l := [(n, r, k)]) h1 hk
    simp only [and_self, decide_true, List.filter_cons_of_pos, List.filter_nil, List.map_cons, List.map_nil, List.reverse_singleton, List.singleton_append] at this
    rw [printed_refLog ho' this, printed_refLog ho hk, numbered_cons]
    simp [numbered]
  · obtain ⟨ks, hk⟩ := walk_total hc m r'
    rw [printed_refLog ho hk, printed_refLog ho' ((reflogWalk_other h1 hne).1.trans hk)]

/-- **C64**: after `ref update`, the log of the ref (of the one HEAD names if none is given) shows the key given on top of what it showed before; other logs and HEAD are
as before. -/
theorem C64_update {X : Ctx} {w : World} (hr : w.Reachable X.E.H) {R : Repo} {q : List Bytes} {key : Keyish} {refname : Option Bytes} (h : Committed X (.refUpdate key refname) w R q) :
    ∃ k n, canonicalize (w.dbs q) key = .ok k ∧ (refname = some n ∨ refname = none ∧ getHead (w.dbs q) = .ok (some n)) ∧
    let w' := (mainRun X (.refUpdate key refname) w).2.2
    w'.printed X (.reflogGet n none) = [.key k] ∧
    w'.printed X (.refLog (some n) none) = .entry ((w.printed X (.refLog (some n) none)).length + 1) k :: w.printed X (.refLog (some n) none) ∧
    (∀ m r, (m ≠ n ∨ r ≠ none) → w'.printed X (.refLog (some m) r) = w.printed X (.refLog (some m) r)) ∧
    getHead (w'.dbs q) = getHead (w.dbs q) ∧ (w'.dbs q).data = (w.dbs q).data := by
  obtain ⟨ho, h1, h2⟩ := h
  have hfs : (mainRun X (.refUpdate key refname) w).2.2.fs = w.fs := C65_files_kept X _ (by simp) w
  have ho' := ho.same hfs
  have hdb := runIn_committed X R q _ w () h1 h2
  rw [← mainRun_open (by simp) ho] at hdb
  have hx : (cmdRefUpdate key refname (startOf w q)) = (.ok (), ((Command.refUpdate key refname).inRepo X R (startOf w q)).2) := Prod.ext h1 rfl
  unfold cmdRefUpdate at hx
  obtain ⟨k, s1, g1, hx⟩ := bind_ok hx
  obtain ⟨f1, rfl⟩ := readDb_ok g1
  obtain ⟨n, s2, g2, hx⟩ := bind_ok hx
  obtain ⟨f2, rfl⟩ := readDb_ok g2
  obtain ⟨g3, _⟩ := onDb_ok hx
  obtain ⟨e1, e2, e3, _⟩ := reflogPush_ok g3
  have a1 := hdb.1.1.trans e1
  have a2 := hdb.1.2.1.trans e2
  have a3 := hdb.1.2.2.trans e3
  refine ⟨k, n, f1, ?_, ?_⟩
  · cases refname with
    | some m => simp only [refOrHead, Res.ok.injEq] at f2; exact .inl (by rw [f2])
    | none => exact .inr ⟨rfl, headName_ok f2⟩
  · obtain ⟨b1, b2, b3⟩ := pushed_seen hr ho ho' a3
    exact ⟨b1, b2, b3, by unfold getHead rawGetState; rw [a2]; rfl, a1⟩

/-- **C64**: `debug reflog-push` likewise, on the log of the ref and remote given. -/
theorem C64_push {X : Ctx} {w : World} (hr : w.Reachable X.E.H) {R : Repo} {q : List Bytes} {key : Keyish} {n : Bytes} {remote : Option Bytes}
    (h : Committed X (.reflogPush key n remote) w R q) :
    ∃ k, canonicalize (w.dbs q) key = .ok k ∧
    let w' := (mainRun X (.reflogPush key n remote) w).2.2
    w'.printed X (.reflogGet n remote) = [.key k] ∧
    w'.printed X (.refLog (some n) remote) = .entry ((w.printed X (.refLog (some n) remote)).length + 1) k :: w.printed X (.refLog (some n) remote) ∧
    (∀ m r, (m ≠ n ∨ r ≠ remote) → w'.printed X (.refLog (some m) r) = w.printed X (.refLog (some m) r)) ∧
    getHead (w'.dbs q) = getHead (w.dbs q) ∧ (w'.dbs q).data = (w.dbs q).data := by
  obtain ⟨ho, h1, h2⟩ := h
  have hfs : (mainRun X (.reflogPush key n remote) w).2.2.fs = w.fs := C65_files_kept X _ (by simp) w
  have ho' := ho.same hfs
  have hdb := runIn_committed X R q _ w () h1 h2
  rw [← mainRun_open (by simp) ho] at hdb
  have hx : (cmdReflogPush key n remote (startOf w q)) = (.ok (), ((Command.reflogPush key n remote).inRepo X R (startOf w q)).2) := Prod.ext h1 rfl
  unfold cmdReflogPush at hx
  obtain ⟨k, s1, g1, hx⟩ := bind_ok hx
  obtain ⟨f1, rfl⟩ := readDb_ok g1
  obtain ⟨g3, _⟩ := onDb_ok hx
  obtain ⟨e1, e2, e3, _⟩ := reflogPush_ok g3
  have a1 := hdb.1.1.trans e1
  have a2 := hdb.1.2.1.trans e2
  have a3 := hdb.1.2.2.trans e3
  obtain ⟨b1, b2, b3⟩ := pushed_seen hr ho ho' a3
  exact ⟨k, f1, b1, b2, b3, by unfold getHead rawGetState; rw [a2]; rfl, a1⟩

/-- **C64**: after `debug set-head`, `debug get-head` prints the name given (or fails, if it is not UTF-8), and all logs are as before. -/
theorem C64_set_head {X : Ctx} {w : World} {R : Repo} {q : List Bytes} {n : Bytes} (hr : w.Reachable X.E.H) (h : Committed X (.setHead n) w R q) :
    let w' := (mainRun X (.setHead n) w).2.2
    (utf8 n = true → w'.printed X .getHead = [.head (some n)]) ∧ (utf8 n = false → (mainRun X .getHead w').1 = .fatal .utf8) ∧
    (∀ m r, w'.printed X (.refLog (some m) r) = w.printed X (.refLog (some m) r)) ∧ (w'.dbs q).data = (w.dbs q).data := by
  obtain ⟨ho, h1, h2⟩ := h
  have hfs : (mainRun X (.setHead n) w).2.2.fs = w.fs := C65_files_kept X _ (by simp) w
  have ho' := ho.same hfs
  have hdb := runIn_committed X R q _ w () h1 h2
  rw [← mainRun_open (by simp) ho] at hdb
  have hx : onDb (putHead n) (startOf w q) = (.ok (), ((Command.setHead n).inRepo X R (startOf w q)).2) := Prod.ext h1 rfl
  obtain ⟨g3, _⟩ := onDb_ok hx
  obtain ⟨e1, e2, e3, _⟩ := putHead_ok g3
  have a1 := hdb.1.1.trans e1
  have a3 := hdb.1.2.2.trans e2
  have a2 : rawGetState ((mainRun X (.setHead n) w).2.2.dbs q) sHEAD = .ok (some n) := by rw [← e3]; unfold rawGetState; rw [hdb.1.2.1]
  refine ⟨fun hu => ?_, fun hu => ?_, fun m r => ?_, a1⟩
  · refine printed_getHead ho' ?_
    unfold getHead
    rw [a2, Res.ok_bind]
    simp [hu]
  · refine (run_reads ho' (by simp) (r := .err .utf8) (o := []) ?_).2.2.1 _ rfl
    have hb : cmdGetHead (startOf (mainRun X (.setHead n) w).2.2 q) = _ := readDb_bind _ _ _
    have e : getHead (startOf (mainRun X (.setHead n) w).2.2 q).db = .err .utf8 := by
      unfold getHead
      have : rawGetState (startOf (mainRun X (.setHead n) w).2.2 q).db sHEAD = .ok (some n) := a2
      rw [this, Res.ok_bind]
      simp [hu]
    rw [e] at hb
    exact hb
  · obtain ⟨ks, hk⟩ := walk_total (World.Reachable.closed hr q) m r
    have : reflogWalk ((mainRun X (.setHead n) w).2.2.dbs q) m r = .ok ks := by
      rw [← hk]
      unfold reflogWalk refRows
      rw [a3]
      rfl
    rw [printed_refLog ho hk, printed_refLog ho' this]

end Snap.Props
