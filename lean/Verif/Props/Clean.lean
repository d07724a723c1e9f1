import Verif.Props.Commands
import Verif.Props.DiffFs
import Verif.Lemmas.Racing
/-! C61: `status` and `checkout-head` on clean and on changed files. -/
namespace Snap.Props
open Snap
set_option linter.unusedSectionVars false
variable [Serde] [LawfulSerde]

/-! ### The cache over all runs -/

/-- Whatever else happens to the files during a command: a file that is found to be one, and then opened, is found with the length it is opened with, and is read as it was when opened. The list has
the file trees at these moments. -/
def Spec.Untorn (E : Env) (l : List Fs) (A : Sights) : Prop :=
  ∀ t p len ck evs, A.stat t p = .ok (.file len) → A.opened (t + 1) p = .ok (ck, evs) → ∃ fs ∈ l, ∃ c md, fs.metadata p = .ok (.file c md) ∧ ck = tripleOf c md ∧ evs = E.rd p c ∧ len = c.length

/-- What a cache is like after runs of commands and any changes of files in between: the first argument are the file trees on which commands were run. The files may also change during a
comparison, but not so that a visit to a file is torn. -/
inductive _root_.Snap.World.Uses (E : Env) : List Fs → World → Prop where
  | start (w : World) (h : w.cache.rows = []) : Uses E [] w
  | run {l w} (X : Ctx) (hX : X.E = E) (cmd : Command) (h : Uses E l w) : Uses E (w.fs :: l) (mainRun X cmd w).2.2
  | killed {l w} (X : Ctx) (hX : X.E = E) (cmd : Command) (w' : World) (h : Uses E l w)
      (hc : w'.cache.rows = w.cache.rows ∨ w'.cache.rows = (mainRun X cmd w).2.2.cache.rows) : Uses E (w.fs :: l) w'
  | edit {l w} (w' : World) (h : Uses E l w) (hc : w'.cache.rows = w.cache.rows) : Uses E l w'
  /-- entries are lost: the file is deleted, or the machine stops (`synchronous = OFF`, src/cache.rs:94) -/
  | lost {l w} (w' : World) (h : Uses E l w) (hc : ∀ ck, w'.cache.get ck = w.cache.get ck ∨ w'.cache.get ck = .ok none) : Uses E l w'
  | race {l w} (X : Ctx) (hX : X.E = E) (A : Sights) (l' : List Fs) (hA : Spec.Untorn E l' A) (R : Repo) (q : List Bytes) (cmd : Command) (hcmd : cmd.compares = true) (after : Fs)
      (h : Uses E l w) : Uses E (l' ++ l) (runRacing X A R q cmd after w).2.2

/-- In these trees files with the same inode, time and size have the same contents, and are read alike. -/
def FaithfulFs (E : Env) (l : List Fs) : Prop :=
  ∀ f ∈ l, ∀ g ∈ l, ∀ p p' c md c' md', f.metadata p = .ok (.file c md) → g.metadata p' = .ok (.file c' md') → tripleOf c md = tripleOf c' md' →
    c = c' ∧ Spec.smallReads (E.rd p c) ∧ Spec.smallReads (E.rd p' c) ∧ Spec.delivered (E.rd p c) = Spec.delivered (E.rd p' c) ∧ Spec.readFails (E.rd p c) = Spec.readFails (E.rd p' c)

theorem FaithfulFs.faithful {E : Env} {l : List Fs} (h : FaithfulFs E l) {L : List (Fs × Path)} (hl : ∀ x ∈ L, x.1 ∈ l) : Faithful E L :=
  fun x hx y hy c md c' md' h1 h2 h3 => h x.1 (hl x hx) y.1 (hl y hy) x.2 y.2 c md c' md' h1 h2 h3

/-- A computation on database and cache after which the cache is right for some files of `fs` more. -/
def RightAfter {α} (E : Env) (fs : Fs) (x : SM (Db × Cache) α) : Prop :=
  ∀ L s, CacheRight E L s.2 → ∃ L', (∀ y ∈ L', y.1 = fs) ∧ CacheRight E (L ++ L') (x s).2.2

section
variable {α β : Type} {E : Env} {fs : Fs}

theorem rightAfter_silent {x : SM (Db × Cache) α} (h : ∀ s, (x s).2.2 = s.2) : RightAfter E fs x := by
  intro L s hs
  exact ⟨[], by simp, by rw [h s]; simpa using hs⟩

theorem rightAfter_bind {x : SM (Db × Cache) α} {f : α → SM (Db × Cache) β} (hx : RightAfter E fs x) (hf : ∀ a, RightAfter E fs (f a)) : RightAfter E fs (x >>= f) := by
  intro L s hs
  obtain ⟨L1, h1, h2⟩ := hx L s hs
  rw [SM.bind_apply]
  cases hxs : x s with
  | mk r s' =>
    rw [hxs] at h2
    cases r with
    | ok a =>
      obtain ⟨L2, h3, h4⟩ := hf a (L ++ L1) s' h2
      refine ⟨L1 ++ L2, ?_, by rw [← List.append_assoc]; exact h4⟩
      intro y hy
      rcases List.mem_append.mp hy with hy | hy
      · exact h1 y hy
      · exact h3 y hy
    | _ => exact ⟨L1, h1, h2⟩

theorem rightAfter_unwrap {x : SM (Db × Cache) α} (hx : RightAfter E fs x) : RightAfter E fs (SM.unwrap x) := by
  intro L s hs
  exact hx L s hs

theorem rightAfter_mapSM {f : α → SM (Db × Cache) β} (h : ∀ a, RightAfter E fs (f a)) (l : List α) : RightAfter E fs (mapSM f l) := by
  induction l with
  | nil => exact rightAfter_silent fun _ => rfl
  | cons a l ih => exact rightAfter_bind (h a) fun b => rightAfter_bind ih fun r => rightAfter_silent fun _ => rfl

theorem rightAfter_hash (p : Path) : RightAfter E fs (hashFsItem E fs p) := by
  intro L s hs
  exact ⟨[(fs, p)], by simp, right_hash hs (r := (hashFsItem E fs p s).1) rfl⟩

theorem rightAfter_compare (iter : Nat → List Path → List Path) (n : Nat) (source : Target) (to : Option Key) : RightAfter E fs (compare E fs iter n source to) := by
  unfold compare
  refine rightAfter_bind ?_ fun m => rightAfter_bind ?_ fun to => ?_
  · cases source with
    | fileSystem path glob dbPath => exact rightAfter_bind (rightAfter_silent fun _ => rfl) fun _ => rightAfter_silent fun _ => rfl
    | database key => exact rightAfter_bind (rightAfter_silent fun _ => rfl) fun _ => rightAfter_silent fun _ => rfl
  · cases to with
    | some t => exact rightAfter_silent fun _ => rfl
    | none => exact rightAfter_silent fun _ => rfl
  · refine rightAfter_bind (rightAfter_mapSM (fun x => ?_) _) fun _ => rightAfter_bind (rightAfter_mapSM (fun x => rightAfter_silent fun _ => rfl) _) fun _ =>
      rightAfter_bind (rightAfter_mapSM (fun x => ?_) _) fun _ => rightAfter_silent fun _ => rfl
    · unfold addedOf
      refine rightAfter_bind ?_ fun _ => rightAfter_bind (rightAfter_silent fun _ => rfl) fun _ => rightAfter_silent fun _ => rfl
      cases m with
      | left y =>
        refine rightAfter_bind (rightAfter_silent fun _ => rfl) fun b => ?_
        cases b
        · exact rightAfter_bind (rightAfter_unwrap (rightAfter_hash _)) fun _ => rightAfter_silent fun _ => rfl
        · exact rightAfter_silent fun _ => rfl
      | right y =>
        simp only
        cases y.get x
        · exact rightAfter_silent fun _ => rfl
        · exact rightAfter_silent fun _ => rfl
    · unfold modifiedOf
      refine rightAfter_bind ?_ fun f => ?_
      · cases m with
        | left y =>
          simp only
          cases y.get x with
          | none => exact rightAfter_silent fun _ => rfl
          | some b =>
            cases b
            · exact rightAfter_bind (rightAfter_hash _) fun _ => rightAfter_silent fun _ => rfl
            · exact rightAfter_silent fun _ => rfl
        | right y =>
          simp only
          cases y.get x
          · exact rightAfter_silent fun _ => rfl
          · exact rightAfter_silent fun _ => rfl
      · cases f with
        | none => exact rightAfter_silent fun _ => rfl
        | some f =>
          simp only
          cases to.get x
          · exact rightAfter_silent fun _ => rfl
          · exact rightAfter_silent fun _ => rfl

end

/-- The same for commands. -/
def RightCmd {α} (E : Env) (x : C α) : Prop :=
  ∀ L s, CacheRight E L s.cache → ∃ L', (∀ y ∈ L', y.1 = s.fs) ∧ CacheRight E (L ++ L') (x s).2.cache

/-- Only commands that do not change the files and use the cache need this: whoever does not touch the cache satisfies it. -/
theorem rightCmd_silent {α} {E : Env} {x : C α} (h : ∀ s, (x s).2.cache = s.cache) : RightCmd E x := by
  intro L s hs
  exact ⟨[], by simp, by rw [h s]; simpa using hs⟩

theorem rightCmd_bind {α β} {E : Env} {x : C α} {f : α → C β} (hx : RightCmd E x) (hfs : ∀ s, (x s).2.fs = s.fs) (hf : ∀ a, RightCmd E (f a)) : RightCmd E (x >>= f) := by
  intro L s hs
  obtain ⟨L1, h1, h2⟩ := hx L s hs
  have hfs := hfs s
  rw [SM.bind_apply]
  cases hxs : x s with
  | mk r s' =>
    rw [hxs] at h2 hfs
    cases r with
    | ok a =>
      obtain ⟨L2, h3, h4⟩ := hf a (L ++ L1) s' h2
      refine ⟨L1 ++ L2, ?_, by rw [← List.append_assoc]; exact h4⟩
      intro y hy
      rcases List.mem_append.mp hy with hy | hy
      · exact h1 y hy
      · rw [h3 y hy, hfs]
    | _ => exact ⟨L1, h1, h2⟩

theorem rightCmd_compareWork (X : Ctx) (R : Repo) (path : Path) (to : Option Key) : RightCmd X.E (compareWork X R path to) := by
  intro L s hs
  exact rightAfter_compare (E := X.E) (fs := s.fs) X.iter X.depth (.fileSystem path X.glob R.folder) to L (s.db, s.cache) hs

/-- A computation that leaves the cache alone. -/
def NoCache {α} (x : C α) : Prop := ∀ s, (x s).2.cache = s.cache
theorem noCache_bind {α β} {x : C α} {f : α → C β} (hx : NoCache x) (hf : ∀ a, NoCache (f a)) : NoCache (x >>= f) := by
  intro s
  rw [SM.bind_apply]
  have := hx s
  cases hxs : x s with
  | mk r s' =>
    rw [hxs] at this
    cases r with
    | ok a => exact (hf a s').trans this
    | _ => exact this
theorem noCache_each {α} {f : α → C Unit} (h : ∀ a, NoCache (f a)) (l : List α) : NoCache (SM.each f l) := by
  induction l with
  | nil => exact fun _ => rfl
  | cons a l ih => exact noCache_bind (h a) fun _ => ih

theorem noCache_emitAll {α} (order : List Path → List Path) (m : PMap α) (line : Path → α → Out) : NoCache (emitAll order m line) := by
  refine noCache_each (fun p => ?_) _
  cases m.get p with
  | none => exact fun _ => rfl
  | some v => exact fun _ => rfl

theorem noCache_walkFsTree (X : Ctx) (path : Path) : NoCache (cmdWalkFsTree X path) := noCache_bind (fun _ => rfl) fun _ => noCache_emitAll _ _ _

/-- Only the comparisons use the cache. -/
theorem noCache_command (X : Ctx) (R : Repo) (cmd : Command) (hc : cmd.compares = false) : NoCache (cmd.inRepo X R) := by
  cases cmd with
  | insert path => exact (noCache_bind (fun _ => rfl) fun _ _ => rfl)
  | commit path message refname =>
    exact (noCache_bind (fun _ => rfl) fun _ => noCache_bind (fun _ => rfl) fun _ => noCache_bind (fun _ => rfl) fun _ => noCache_bind (fun _ => rfl) fun _ _ => rfl)
  | fetch key dest => exact (noCache_bind (fun _ => rfl) fun _ _ => rfl)
  | init => exact fun _ => rfl
  | «show» key => exact (noCache_bind (fun _ => rfl) fun _ _ => rfl)
  | log key => exact (noCache_bind (fun _ => rfl) fun _ _ => rfl)
  | compare path key stat => simp [Command.compares] at hc
  | status => simp [Command.compares] at hc
  | checkout => exact (noCache_bind (fun _ => rfl) fun _ => noCache_bind (fun _ => rfl) fun _ _ => rfl)
  | checkoutHead refname => simp [Command.compares] at hc
  | refLog refname remote => exact (noCache_bind (fun _ => rfl) fun _ => noCache_bind (fun _ => rfl) fun _ => noCache_each (fun _ _ => rfl) _)
  | refUpdate key refname => exact (noCache_bind (fun _ => rfl) fun _ => noCache_bind (fun _ => rfl) fun _ _ => rfl)
  | prettyPrint key => exact (noCache_bind (fun _ => rfl) fun _ => noCache_bind (fun _ => rfl) fun _ _ => rfl)
  | commitTree tree parents => exact (noCache_bind (fun _ => rfl) fun _ => noCache_bind (fun _ => rfl) fun _ => noCache_bind (fun _ => rfl) fun _ _ => rfl)
  | reflogGet refname remote => exact (noCache_bind (fun _ => rfl) fun _ _ => rfl)
  | reflogPush key refname remote => exact (noCache_bind (fun _ => rfl) fun _ _ => rfl)
  | walkTree key => exact (noCache_bind (fun _ => rfl) fun _ => noCache_bind (fun _ => rfl) fun _ => noCache_emitAll _ _ _)
  | walkFsTree path => exact (noCache_bind (fun _ => rfl) fun _ => noCache_emitAll _ _ _)
  | setHead refname => exact fun _ => rfl
  | getHead =>
    refine (noCache_bind (fun _ => rfl) fun h => ?_)
    cases h <;> exact fun _ => rfl

theorem rightCmd_command (X : Ctx) (R : Repo) (cmd : Command) : RightCmd X.E (cmd.inRepo X R) := by
  have triv : ∀ {α} {x : C α}, NoCache x → RightCmd X.E x := fun h => rightCmd_silent h
  cases hc : cmd.compares with
  | false => exact triv (noCache_command X R cmd hc)
  | true =>
    cases cmd with
    | compare path key stat =>
      refine rightCmd_bind (rightCmd_silent fun _ => rfl) (fun _ => rfl) fun k => rightCmd_bind (rightCmd_compareWork X R _ _) (fun _ => rfl) fun r => ?_
      cases stat
      · exact triv fun _ => rfl
      · exact triv (noCache_bind (fun _ => rfl) fun _ _ => rfl)
    | status =>
      refine rightCmd_bind (rightCmd_silent fun _ => rfl) (fun _ => rfl) fun h => rightCmd_bind (rightCmd_silent fun _ => rfl) (fun _ => rfl) fun k => ?_
      cases k with
      | none => exact triv fun _ => rfl
      | some k =>
        exact rightCmd_bind (rightCmd_silent fun _ => rfl) (fun _ => rfl) fun _ => rightCmd_bind (rightCmd_silent fun _ => rfl) (fun _ => rfl) fun _ =>
          rightCmd_bind (rightCmd_compareWork X R _ _) (fun _ => rfl) fun _ => triv fun _ => rfl
    | checkoutHead refname =>
      refine rightCmd_bind (rightCmd_silent fun _ => rfl) (fun _ => rfl) fun h => rightCmd_bind (rightCmd_silent fun _ => rfl) (fun _ => rfl) fun k =>
        rightCmd_bind (rightCmd_silent fun _ => rfl) (fun _ => rfl) fun t => rightCmd_bind (rightCmd_compareWork X R _ _) (fun _ => rfl) fun r => ?_
      cases r.isEmpty
      · exact triv (noCache_bind (fun _ => rfl) fun _ _ => rfl)
      · exact triv (noCache_bind (fun _ => rfl) fun _ _ => rfl)
    | _ => simp [Command.compares] at hc

theorem finish_rows (r : Res Unit) (a b : Cache) : (Cache.finish r a b).2.rows = a.rows ∨ (Cache.finish r a b).2.rows = b.rows := by
  unfold Cache.finish
  cases r with
  | ok u =>
    simp only
    split
    · exact Or.inl rfl
    · exact Or.inr rfl
  | _ => exact Or.inl rfl

theorem right_main (X : Ctx) (cmd : Command) (w : World) (L : List (Fs × Path)) (h : CacheRight X.E L w.cache) :
    ∃ L', (∀ y ∈ L', y.1 = w.fs) ∧ CacheRight X.E (L ++ L') (mainRun X cmd w).2.2.cache := by
  have same : ∀ {ca : Cache}, ca.rows = w.cache.rows → ∃ L', (∀ y ∈ L', y.1 = w.fs) ∧ CacheRight X.E (L ++ L') ca := fun e => ⟨[], by simp, by simpa using h.same e⟩
  unfold mainRun
  cases hf : findDbFolder w.fs X.dbPath with
  | ok found =>
    simp only
    split
    · exact same rfl
    · exact same rfl
    · exact same rfl
    · cases cmd with
      | init =>
        simp only
        rcases finish_rows (runInit X w).1 w.cache w.cache with e | e <;> exact same e
      | _ =>
        simp only
        split
        · rename_i R q _
          simp only [runIn, World.setDb]
          rcases finish_rows _ w.cache _ with e | e
          · exact same e
          · obtain ⟨L', h1, h2⟩ := rightCmd_command X R _ L _ (show CacheRight X.E L (Sys.cache ⟨_, w.cache, w.fs, []⟩) from h)
            exact ⟨L', h1, h2.same e⟩
        · simp only [runOut]
          rcases finish_rows _ w.cache _ with e | e
          · exact same e
          · refine same (e.trans ?_)
            first
            | rfl
            | exact congrArg Cache.rows (noCache_walkFsTree X _ { db := {}, cache := w.cache, fs := w.fs })
  | _ => exact same rfl

/-- The cache holds only keys of files in these trees. -/
def RightFor (E : Env) (l : List Fs) (ca : Cache) : Prop := ∃ L, (∀ x ∈ L, x.1 ∈ l) ∧ CacheRight E L ca

theorem right_visit {E : Env} {A : Sights} {l l' : List Fs} (hA : Spec.Untorn E l' A) (hl : ∀ x ∈ l', x ∈ l) (p : Path) :
    Hold (fun s : (Db × Cache) × Nat => RightFor E l s.1.2) (hashLive E A p) := by
  rintro s ⟨L, h1, h2⟩
  rcases hashLive_cache E A p s with e | ⟨len, ck, evs, k, g1, g2, g3, g4, e⟩
  · show RightFor E l _
    rw [e]; exact ⟨L, h1, h2⟩
  · show RightFor E l _
    rw [e]
    obtain ⟨fs, hfs, c, md, hm, rfl, rfl, rfl⟩ := hA _ _ _ _ _ g1 g2
    refine ⟨L ++ [(fs, p)], fun x hx => ?_, fun ck => ?_⟩
    · rcases List.mem_append.mp hx with hx | hx
      · exact h1 x hx
      · rw [List.mem_singleton.mp hx]; exact hl fs hfs
    · have hq := C56_put s.1.2 (Cache.put (tripleOf c md) k s.1.2).2 (tripleOf c md) k (Cache.put (tripleOf c md) k s.1.2).1 rfl ck
      rw [hq]
      split
      · rename_i hc
        exact Or.inr ⟨k, rfl, (fs, p), by simp, c, md, hm, hc.2.1.symm, fileKey_of_put (d := s.1.1) (d' := (putFile E p c s.1.1).2) (Prod.ext g4 rfl)⟩
      · exact h2.mono (l' := L ++ [(fs, p)]) (by simp) ck

theorem right_race {X : Ctx} {A : Sights} {l l' : List Fs} (hA : Spec.Untorn X.E l' A) (hl : ∀ x ∈ l', x ∈ l) (R : Repo) (q : List Bytes) (cmd : Command) (hc : cmd.compares = true) (after : Fs) (w : World)
    (h : RightFor X.E l w.cache) : RightFor X.E l (runRacing X A R q cmd after w).2.2.cache := by
  have hr := racing_hold (I := fun s => RightFor X.E l s.2) X A R cmd hc (compareLive_hold (I := fun s => RightFor X.E l s.2) X.E A (right_visit hA hl) X.iter X.depth) (fun _ _ _ h => h)
    { db := (Conn.mk (w.dbs q) none).begin.2.view, cache := w.cache, fs := w.fs } h
  have same : ∀ {ca ca' : Cache}, RightFor X.E l ca → ca'.rows = ca.rows → RightFor X.E l ca' := fun ⟨L, h1, h2⟩ e => ⟨L, h1, h2.same e⟩
  show RightFor X.E l (Cache.finish _ w.cache _).2
  rcases finish_rows (cmd.racing X A R { db := (Conn.mk (w.dbs q) none).begin.2.view, cache := w.cache, fs := w.fs }).1 w.cache
    (cmd.racing X A R { db := (Conn.mk (w.dbs q) none).begin.2.view, cache := w.cache, fs := w.fs }).2.cache with e | e
  · exact same h e
  · exact same hr e

/-- After any runs and changes of files, the cache holds only keys of files on which a command was run. -/
theorem uses_right {E : Env} {l : List Fs} {w : World} (h : World.Uses E l w) : ∃ L, (∀ x ∈ L, x.1 ∈ l) ∧ CacheRight E L w.cache := by
  induction h with
  | start w h => exact ⟨[], by simp, CacheRight.empty E [] h⟩
  | @run l w X hX cmd h ih =>
    subst hX
    obtain ⟨L, h1, h2⟩ := ih
    obtain ⟨L', h3, h4⟩ := right_main X cmd w L h2
    refine ⟨L ++ L', fun x hx => ?_, h4⟩
    rcases List.mem_append.mp hx with hx | hx
    · exact List.mem_cons_of_mem _ (h1 x hx)
    · rw [h3 x hx]; exact List.mem_cons_self
  | @killed l w X hX cmd w' h hc ih =>
    subst hX
    obtain ⟨L, h1, h2⟩ := ih
    rcases hc with hc | hc
    · exact ⟨L, fun x hx => List.mem_cons_of_mem _ (h1 x hx), h2.same hc⟩
    · obtain ⟨L', h3, h4⟩ := right_main X cmd w L h2
      refine ⟨L ++ L', fun x hx => ?_, h4.same hc⟩
      rcases List.mem_append.mp hx with hx | hx
      · exact List.mem_cons_of_mem _ (h1 x hx)
      · rw [h3 x hx]; exact List.mem_cons_self
  | @edit l w w' h hc ih =>
    obtain ⟨L, h1, h2⟩ := ih
    exact ⟨L, h1, h2.same hc⟩
  | @lost l w w' h hc ih =>
    obtain ⟨L, h1, h2⟩ := ih
    refine ⟨L, h1, fun ck => ?_⟩
    rcases hc ck with e | e
    · rw [e]; exact h2 ck
    · exact .inl e
  | @race l w X hX A l' hA R q cmd hcmd after h ih =>
    subst hX
    obtain ⟨L, h1, h2⟩ := ih
    exact right_race hA (fun x hx => List.mem_append_left _ hx) R q cmd hcmd after w ⟨L, fun x hx => List.mem_append_right _ (h1 x hx), h2⟩

/-! ### Comparing a directory with a snapshot of itself -/

/-- The listing of a directory and of its snapshot: the same paths, and the keys stored are those of the files. -/
theorem listing {E : Env} {db : Db} {k : Key} {fs : Fs} {filter : Filter} {n1 : Nat} {path : Path} (h : Snapshot E db k fs filter n1 path) {n : Nat} (hn : n1 ≤ n) :
    ∃ m A, walkReal fs filter n path = .ok m ∧ walkItems db n k = .ok A ∧ Walked E db fs filter path A ∧ (∀ p b, (p, b) ∈ m ↔ ∃ kf, (p, kf, b) ∈ A) ∧
      ∀ p kf, (p, kf, false) ∈ A → ∃ rel c, p = relPath rel ∧ VisFile fs filter path rel c ∧ rel ≠ [] ∧ keyAt E fs (Path.join path p) = some kf := by
  obtain ⟨A, hA⟩ := h.walked_later hn
  obtain ⟨hA, wA⟩ := hA db (List.prefix_refl _)
  have hw := h.wf
  obtain ⟨m, hm, hm2⟩ : ∃ m, walkReal fs filter n path = .ok m ∧ ∀ p b, (p, b) ∈ m ↔ ∃ kf, (p, kf, b) ∈ A := by
    obtain ⟨d, d', i1, i2, i3, i4⟩ := h.put
    obtain ⟨m, m', g1, g2, g3, _⟩ := C32_same_listing E fs hw _ n1 path d d' db k i1 i2 i3 i4 h.dir n hn
    rw [hA] at g1
    simp at g1
    subst g1
    refine ⟨m', g2, fun p b => ?_⟩
    rw [← g3]
    simp
  refine ⟨m, A, hm, hA, wA, hm2, ?_⟩
  intro p kf hp
  obtain ⟨rel, rfl, hs⟩ := wA.only _ _ _ hp
  have ok1 := hs.okNames hw
  obtain ⟨c, hc⟩ : ∃ c, fs.content (loc fs.cwd path ++ rel) = some c := by
    rcases hs.2.2 with ⟨h, _⟩ | ⟨_, h⟩
    · simp at h
    · exact h
  obtain ⟨⟨d, d', g1⟩, _⟩ := wA.file rel kf c hp ok1 hc
  obtain ⟨md, ha⟩ := content_some.mp hc
  obtain ⟨hloc, _⟩ := metadata_ok h.dir
  refine ⟨rel, c, rfl, ⟨hs.2.1, hc⟩, hs.1, ?_⟩
  rw [join_relPath (fun m hm => (ok1 m hm).comp) hs.1]
  exact keyAt_some.mpr ⟨c, md, metadata_joins hw hloc ha (by simp), fileKey_of_put g1⟩

theorem compare_clean {E : Env} {db : Db} {ca : Cache} {k : Key} {fs : Fs} {glob : Path → Bool} {dbPath : Path} {n1 : Nat} {path : Path}
    (h : Snapshot E db k fs (makeFilter glob dbPath) n1 path) {n : Nat} (hn : n1 ≤ n) (hdb : db.faults = []) {L : List (Fs × Path)} (hh : CacheRight E L ca)
    (hfa : ∀ l, (∀ x ∈ l, x.1 = fs) → Faithful E (L ++ l)) {iter : Nat → List Path → List Path} (hi : IterOk iter) :
    ∃ s', compare E fs iter n (.fileSystem path glob dbPath) (some k) (db, ca) = (.ok ⟨[], [], []⟩, s') ∧ s'.1.faults = [] ∧ (ca.faults = [] → s'.2.faults = []) := by
  obtain ⟨m, A, hm, hA, wA, hmA, hkey⟩ := listing h hn
  have okm := walkReal_okMap hm
  have hlook : ∀ x ∈ looksAt fs path m, x.1 = fs := by
    intro x hx
    obtain ⟨e, _, he⟩ := List.mem_flatMap.mp hx
    simp at he
    rcases he with rfl | rfl <;> rfl
  have hcmp := (C50_exact E fs iter hi n path dbPath glob (some k) db ca m A hm hA hdb L hh (hfa _ hlook)
    (fun x hx hno => by obtain ⟨kf, hk⟩ := (hmA _ _).mp hx; exact (hno _ hk).elim)
    (fun x v hx hv => by
      obtain ⟨kf, hk⟩ := (hmA _ _).mp hx
      obtain ⟨_, _, _, _, _, e⟩ := hkey _ _ hk
      exact ⟨kf, e⟩)).2 (fun e he => ⟨e.2.2, (hmA _ _).mpr ⟨e.2.1, he⟩⟩)
  obtain ⟨r, s', h1, h2, h3, h4, _⟩ := hcmp
  refine ⟨s', ?_, h3, h4⟩
  rw [h1]
  have ha : r.added = [] := by
    rw [List.eq_nil_iff_forall_not_mem]
    intro e he
    obtain ⟨e1, e2, _⟩ := (h2.added e).mp he
    obtain ⟨kf, hk⟩ := (hmA _ _).mp e1
    exact e2 _ hk
  have hmo : r.modified = [] := by
    rw [List.eq_nil_iff_forall_not_mem]
    intro e he
    obtain ⟨e1, ⟨d, e2⟩, e3, e4⟩ := (h2.modified e).mp he
    obtain ⟨kf, hk⟩ := (hmA _ _).mp e1
    obtain ⟨_, _, _, _, _, e5⟩ := hkey _ _ hk
    rw [e5] at e3
    simp at e3
    subst e3
    have hn := okm.key_norm (mem_keys.mpr ⟨_, e1⟩)
    have g1 := (PMap.get_iff wA.ok hn).mpr hk
    have g2 := (PMap.get_iff wA.ok hn).mpr e2
    rw [g1] at g2
    simp at g2
    exact e4 g2.1
  have := h2.deleted
  cases r
  simp only at ha hmo this
  subst ha; subst hmo; subst this
  rfl

/-! ### C61 -/

/-- What a command prints. -/
theorem runIn_out (X : Ctx) (R : Repo) (q : List Bytes) (cmd : Command) (w : World) : (runIn X R q cmd w).2.1 = (cmd.inRepo X R (startOf w q)).2.out := rfl

/-- How it ends. -/
theorem runIn_exit (X : Ctx) (R : Repo) (q : List Bytes) (cmd : Command) (w : World) :
    (runIn X R q cmd w).1 = exitOf (cmd.inRepo X R (startOf w q)).1 (Cache.finish (cmd.inRepo X R (startOf w q)).1 w.cache (cmd.inRepo X R (startOf w q)).2.cache).1 := rfl

theorem headName_eq {db : Db} {h : Bytes} (e : getHead db = .ok (some h)) : headName db = .ok h := by
  unfold headName
  rw [e]
  rfl

/-- What `status` and `checkout-head` do when the comparison they make finds nothing. -/
theorem clean_run {X : Ctx} {w : World} {R : Repo} {q : List Bytes} (ho : Opens X w R q) {head : Bytes} (hhead : getHead (w.dbs q) = .ok (some head))
    {ck : Key} {c : Commit} (hck : reflogGet (w.dbs q) head none = .ok ck) (hc : Commit.fromKey (w.dbs q) ck = .ok c) {s' : Db × Cache}
    (hcmp : compare X.E w.fs X.iter X.depth (.fileSystem R.root X.glob R.folder) (some c.tree) (w.dbs q, w.cache) = (.ok ⟨[], [], []⟩, s')) (hsf : s'.1.faults = [])
    (hcf : s'.2.faults = []) :
    ((mainRun X .status w).1 = .success ∧ (mainRun X .status w).2.1 = [.headAt head (some (ck.asUserKey.take 8)), .result ⟨[], [], []⟩]) ∧
    ∀ n, (mainRun X (.checkoutHead n) w).1 = .success ∧ (mainRun X (.checkoutHead n) w).2.1 = [.text sNewHead] ∧
      rawGetState ((mainRun X (.checkoutHead n) w).2.2.dbs q) sHEAD = .ok (some n) := by
  have hname := headName_eq hhead
  constructor
  · rw [mainRun_open (by simp) ho, runIn_exit, runIn_out]
    have : (Command.status.inRepo X R (startOf w q)) = (.ok (), { db := s'.1, cache := s'.2, fs := w.fs, out := [.headAt head (some (ck.asUserKey.take 8)), .result ⟨[], [], []⟩] }) := by
      show cmdStatus X R (startOf w q) = _
      unfold cmdStatus
      rw [SM.bind_apply, readDb_apply]
      simp only [startOf, hname, SM.bind_apply, SM.read_apply, hck, Res.toOption, emit, SM.modify_apply, readDb_apply, hc]
      unfold compareWork onDbCache SM.on
      simp only [hcmp]
      rfl
    rw [this]
    simp [Cache.finish, hcf, exitOf]
  · intro n
    have : ((Command.checkoutHead n).inRepo X R (startOf w q)) =
        (.ok (), { db := (putHead n s'.1).2, cache := s'.2, fs := w.fs, out := [.text sNewHead] }) ∧ (putHead n s'.1).1 = .ok () ∧ (putHead n s'.1).2.faults = [] := by
      have hp : putHead n s'.1 = (.ok (), { s'.1 with state := insertReplace s'.1.state sHEAD n, faults := [] }) := by
        unfold putHead rawPutState
        rcases write_cases (fun db => { db with state := insertReplace db.state sHEAD n }) s'.1 with ⟨fs, h, _⟩ | e
        · rw [hsf] at h; simp at h
        · rw [e, hsf]; rfl
      refine ⟨?_, by rw [hp], by rw [hp]⟩
      show cmdCheckoutHead X R n (startOf w q) = _
      unfold cmdCheckoutHead
      rw [SM.bind_apply, readDb_apply]
      simp only [startOf, hname, SM.bind_apply, SM.read_apply, hck, Res.toOption, readDb_apply, hc, Res.ok_bind, pure]
      unfold compareWork onDbCache SM.on
      simp only [hcmp, DiffResult.isEmpty, List.isEmpty_nil, Bool.and_self, if_true, SM.bind_apply, onDb_apply, hp]
      rfl
    obtain ⟨h1, h2, h3⟩ := this
    have hok : ((Command.checkoutHead n).inRepo X R (startOf w q)).1 = .ok () := by rw [h1]
    have hcom : Committed X (.checkoutHead n) w R q := ⟨ho, hok, fun fs => by rw [h1]; simp only; rw [h3]; simp⟩
    refine ⟨?_, ?_, ?_⟩
    · rw [mainRun_open (by simp) ho, runIn_exit, h1]
      simp [Cache.finish, hcf, exitOf]
    · rw [mainRun_open (by simp) ho, runIn_out, h1]
    · have hsame := runIn_committed X R q _ w () hok hcom.2.2
      rw [← mainRun_open (by simp) ho] at hsame
      simp only [rawGetState, hsame.1.2.1, h1]
      have := (putHead_ok (n := n) (d := s'.1) (d' := (putHead n s'.1).2) (Prod.ext h2 rfl)).2.2.1
      simpa [rawGetState] using this

/-- **C61**: if the working directory is as it was when the snapshot was made that is the tree of HEAD's newest commit (commands were run on trees in which files with
the same inode, time and size have the same contents; no write fails), `status` prints the name of HEAD's ref and an empty result and ends well; and `checkout-head`
sets HEAD. -/
theorem C61_clean (X : Ctx) (hit : IterOk X.iter) (w : World) (R : Repo) (q : List Bytes) (ho : Opens X w R q) (l : List Fs) (hu : World.Uses X.E l w)
    (hfa : FaithfulFs X.E (w.fs :: l)) (hf1 : (w.dbs q).faults = []) (hf2 : w.cache.faults = []) (head : Bytes) (hhead : getHead (w.dbs q) = .ok (some head))
    (ck : Key) (c : Commit) (hck : reflogGet (w.dbs q) head none = .ok ck) (hc : Commit.fromKey (w.dbs q) ck = .ok c) (n1 : Nat) (hn : n1 ≤ X.depth)
    (hs : Snapshot X.E (w.dbs q) c.tree w.fs (makeFilter X.glob R.folder) n1 R.root) :
    ((mainRun X .status w).1 = .success ∧ (mainRun X .status w).2.1 = [.headAt head (some (ck.asUserKey.take 8)), .result ⟨[], [], []⟩]) ∧
    ∀ n, (mainRun X (.checkoutHead n) w).1 = .success ∧ (mainRun X (.checkoutHead n) w).2.1 = [.text sNewHead] ∧
      rawGetState ((mainRun X (.checkoutHead n) w).2.2.dbs q) sHEAD = .ok (some n) := by
  obtain ⟨L, hL, hcr⟩ := uses_right hu
  have hfa' : ∀ l', (∀ x ∈ l', x.1 = w.fs) → Faithful X.E (L ++ l') := by
    intro l' hl'
    refine hfa.faithful fun x hx => ?_
    rcases List.mem_append.mp hx with hx | hx
    · exact List.mem_cons_of_mem _ (hL x hx)
    · rw [hl' x hx]; exact List.mem_cons_self
  obtain ⟨s', hcmp, hsf, hcf⟩ := compare_clean hs hn hf1 hcr hfa' hit
  exact clean_run ho hhead hck hc hcmp hsf (hcf hf2)

theorem Snapshot.same {E : Env} {a b : Db} {k : Key} {fs : Fs} {filter : Filter} {n : Nat} {path : Path} (h : Snapshot E a k fs filter n path) (hd : a.data <+: b.data) :
    Snapshot E b k fs filter n path := by
  obtain ⟨d, d', h1, h2, h3, h4⟩ := h.put
  exact ⟨h.wf, h.dir, d, d', h1, h2, h3, h4.trans hd⟩

theorem fromKey_same {a b : Db} (h : a.data = b.data) (k : Key) : Commit.fromKey a k = Commit.fromKey b k := by
  simp only [Commit.fromKey, getObj, get, rawGet, h]

/-- **C61**: so it is after a `commit` of the whole working directory on HEAD's ref, as long as the files stay as they are. (`w'` is the world after the commit; the
cache may have been used in between, and other databases.) -/
theorem C61_commit (X Y : Ctx) (hE : Y.E = X.E) (hglob : Y.glob = X.glob) (hdp : Y.dbPath = X.dbPath) (hdepth : X.depth ≤ Y.depth) (hit : IterOk Y.iter)
    (message : Bytes) (w : World) (hw : w.fs.Wf) (R : Repo) (q : List Bytes) (hi : Inv X.E.H (w.dbs q))
    (hdir : w.fs.metadata R.root = .ok .dir) (h : Committed X (.commit none message none) w R q)
    (hcoll : NoColl X.E.H ((mainRun X (.commit none message none) w).2.2.dbs q))
    (w' : World) (hfs : w'.fs = w.fs) (hdb : SameDb (w'.dbs q) ((mainRun X (.commit none message none) w).2.2.dbs q))
    (l : List Fs) (hu : World.Uses X.E l w') (hfa : FaithfulFs X.E (w.fs :: l)) (hf1 : (w'.dbs q).faults = []) (hf2 : w'.cache.faults = []) :
    ∃ head ck, getHead (w.dbs q) = .ok (some head) ∧ reflogGet (w'.dbs q) head none = .ok ck ∧
    ((mainRun Y .status w').1 = .success ∧ (mainRun Y .status w').2.1 = [.headAt head (some (ck.asUserKey.take 8)), .result ⟨[], [], []⟩]) ∧
    ∀ n, (mainRun Y (.checkoutHead n) w').1 = .success ∧ rawGetState ((mainRun Y (.checkoutHead n) w').2.2.dbs q) sHEAD = .ok (some n) := by
  obtain ⟨n, ck, tree, ps, g1, g2, g3, _, ⟨d, g4, g5, g6⟩, _, _, g7, _⟩ := C38_commit X none message none w R q hi h hcoll
  have hhead : getHead (w.dbs q) = .ok (some n) := headName_ok g1
  have ho := h.1
  have ho' : Opens Y w' R q := by
    unfold Opens
    rw [hfs, hdp]
    exact ho
  have hsn : Snapshot Y.E (w'.dbs q) tree w'.fs (makeFilter Y.glob R.folder) X.depth R.root := by
    rw [hE, hglob, hfs]
    exact ⟨hw, hdir, _, d, hi, g4, g5, by rw [hdb.1.1]; exact g6⟩
  have hh' : getHead (w'.dbs q) = .ok (some n) := by
    have : (w'.dbs q).state = (w.dbs q).state := hdb.1.2.1.trans g7
    simpa only [getHead, rawGetState, this] using hhead
  have hg2 : reflogGet (w'.dbs q) n none = .ok ck := by
    simpa only [reflogGet, refRows, hdb.1.2.2] using g2
  have hg3 := (fromKey_same hdb.1.1 ck).trans g3
  have := C61_clean Y hit w' R q ho' l (by rw [hE]; exact hu) (by rw [hE, hfs]; exact hfa) hf1 hf2 n hh' ck _ hg2 hg3 X.depth hdepth hsn
  exact ⟨n, ck, hhead, hg2, this.1, fun m => ⟨(this.2 m).1, (this.2 m).2.2⟩⟩

/-! ### Nothing is overlooked -/

theorem mapSM_each_inv {σ α β} {f : α → SM σ β} {I : σ → Prop} {P : α → β → Prop} (hf : ∀ x s b s', I s → f x s = (.ok b, s') → I s' ∧ P x b) {l : List α} {s s' : σ} {r : List β}
    (hI : I s) (hr : mapSM f l s = (.ok r, s')) : ∀ x ∈ l, ∃ b ∈ r, P x b := by
  induction l generalizing s s' r with
  | nil => simp
  | cons a l ih =>
    unfold mapSM at hr
    obtain ⟨b, s1, h1, h2⟩ := bind_ok hr
    obtain ⟨bs, s2, h3, h4⟩ := bind_ok h2
    obtain ⟨i1, p1⟩ := hf _ _ _ _ hI h1
    simp at h4
    rw [← h4.1]
    intro x hx
    rcases List.mem_cons.mp hx with rfl | hx
    · exact ⟨b, by simp, p1⟩
    · obtain ⟨b', hb, hp⟩ := ih i1 h3 x hx
      exact ⟨b', by simp [hb], hp⟩

theorem sortBy_nil_of {α} {le : α → α → Bool} {l : List α} (h : sortBy le l = []) : l = [] := by
  have := sortBy_perm le l
  rw [h] at this
  exact this.symm.eq_nil

theorem mapSM_nil_of {σ α β} {f : α → SM σ β} {l : List α} {s s' : σ} (hr : mapSM f l s = (.ok [], s')) : l = [] ∧ s' = s := by
  cases l with
  | nil => simp [mapSM] at hr; exact ⟨rfl, hr.symm⟩
  | cons a l =>
    unfold mapSM at hr
    obtain ⟨b, s1, h1, h2⟩ := bind_ok hr
    obtain ⟨bs, s2, h3, h4⟩ := bind_ok h2
    simp at h4

/-- A comparison that returns nothing, whatever writes fail and whatever the current directory is. -/
theorem compare_empty {E : Env} {db later : Db} {ca : Cache} {k t : Key} {fs fs2 : Fs} {glob : Path → Bool} {dbPath : Path} {f2 : Filter} {n1 n2 n : Nat} {path p2 : Path}
    (h1 : Snapshot E later k fs (makeFilter glob dbPath) n1 path) (h2 : Snapshot E db t fs2 f2 n2 p2) (hl : db.data <+: later.data) (hn1 : n1 ≤ n) (hn2 : n2 ≤ n)
    (hr1 : ∀ rel c, VisFile fs (makeFilter glob dbPath) path rel c → FullyRead E (joins path rel) c)
    (hr2 : ∀ rel c, VisFile fs2 f2 p2 rel c → FullyRead E (joins p2 rel) c)
    {L : List (Fs × Path)} (hh : CacheRight E L ca) (hfa : ∀ l, (∀ x ∈ l, x.1 = fs) → Faithful E (L ++ l)) {iter : Nat → List Path → List Path} (hi : IterOk iter)
    {r : DiffResult} {s' : Db × Cache} (hcmp : compare E fs iter n (.fileSystem path glob dbPath) (some t) (db, ca) = (.ok r, s')) (he : r.isEmpty = true) :
    (∀ rel, (∃ b, Shown fs (makeFilter glob dbPath) path rel b) ↔ ∃ b, Shown fs2 f2 p2 rel b) ∧
    ∀ rel c, VisFile fs (makeFilter glob dbPath) path rel c → VisFile fs2 f2 p2 rel c := by
  obtain ⟨m, A, hm, hA, wA, hmA, hkey⟩ := listing h1 hn1
  obtain ⟨B, hBl⟩ := h2.walked_later hn2
  obtain ⟨hB, _⟩ := hBl db (List.prefix_refl _)
  obtain ⟨_, wB⟩ := hBl later hl
  rw [compare_fs hm (show toItems db n (some t) = .ok B from hB)] at hcmp
  obtain ⟨added, s1, a1, c1⟩ := bind_ok hcmp
  obtain ⟨deleted, s2, a2, c2⟩ := bind_ok c1
  obtain ⟨modified, s3, a3, c3⟩ := bind_ok c2
  simp only [SM.pure_apply, Prod.mk.injEq, Res.ok.injEq] at c3
  obtain ⟨c3, _⟩ := c3
  rw [← c3] at he
  simp only [DiffResult.isEmpty, Bool.and_eq_true, List.isEmpty_iff] at he
  obtain ⟨⟨e1, e2⟩, e3⟩ := he
  have e1 : added = [] := sortBy_nil_of e1
  have e2 : deleted = [] := sortBy_nil_of e2
  have e3 : modified.filterMap id = [] := sortBy_nil_of e3
  subst e1; subst e2
  obtain ⟨l1, rfl⟩ := mapSM_nil_of a1
  obtain ⟨l2, rfl⟩ := mapSM_nil_of a2
  have o1 : onlyIn m B = [] := by
    have := hi 0 (onlyIn m B)
    rw [l1] at this
    exact this.symm.eq_nil
  have o2 : onlyIn B m = [] := by
    have := hi 1 (onlyIn B m)
    rw [l2] at this
    exact this.symm.eq_nil
  have okm := walkReal_okMap hm
  have hw := h1.wf
  have inMB : ∀ p, p ∈ m.map (·.1) → p ∈ B.map (·.1) := by
    intro p hp
    by_cases h : p ∈ B.map (·.1)
    · exact h
    · have := mem_onlyIn.mpr ⟨hp, h⟩
      rw [o1] at this
      simp at this
  have inBM : ∀ p, p ∈ B.map (·.1) → p ∈ m.map (·.1) := by
    intro p hp
    by_cases h : p ∈ m.map (·.1)
    · exact h
    · have := mem_onlyIn.mpr ⟨hp, h⟩
      rw [o2] at this
      simp at this
  have inj : ∀ {a b : List Bytes}, (∀ m ∈ a, okName m) → (∀ m ∈ b, okName m) → relPath a = relPath b → a = b :=
    fun ha hb h => relPath_inj (fun m hm => (ha m hm).comp) (fun m hm => (hb m hm).comp) h
  have toB : ∀ {rel b}, Shown fs (makeFilter glob dbPath) path rel b → ∃ kf b', (relPath rel, kf, b') ∈ B ∧ Shown fs2 f2 p2 rel b' := by
    intro rel b hs
    obtain ⟨kf, hk⟩ := wA.shown rel b hs
    have := inMB _ (mem_keys.mpr ⟨b, (hmA _ _).mpr ⟨kf, hk⟩⟩)
    obtain ⟨⟨kb, b'⟩, hb⟩ := mem_keys.mp this
    obtain ⟨rel', er, hs'⟩ := wB.only _ _ _ hb
    have := inj (hs.okNames hw) (hs'.okNames h2.wf) er
    subst this
    exact ⟨kb, b', hb, hs'⟩
  refine ⟨fun rel => ⟨fun ⟨b, hs⟩ => ?_, fun ⟨b, hs⟩ => ?_⟩, ?_⟩
  · obtain ⟨_, b', _, h⟩ := toB hs
    exact ⟨b', h⟩
  · obtain ⟨kf, hk⟩ := wB.shown rel b hs
    obtain ⟨b', hb⟩ := mem_keys.mp (inBM _ (mem_keys.mpr ⟨_, hk⟩))
    obtain ⟨ka, ha⟩ := (hmA _ _).mp hb
    obtain ⟨rel', er, hs'⟩ := wA.only _ _ _ ha
    have := inj (hs.okNames h2.wf) (hs'.okNames hw) er
    subst this
    exact ⟨b', hs'⟩
  · intro rel c hv
    have h0 : rel ≠ [] := by
      rintro rfl
      obtain ⟨_, hat, _⟩ := metadata_ok h1.dir
      have := hv.2
      simp only [List.append_nil] at this
      obtain ⟨md, h⟩ := content_some.mp this
      rw [hat] at h
      simp at h
    have hs : Shown fs (makeFilter glob dbPath) path rel false := ⟨h0, hv.1, Or.inr ⟨rfl, c, hv.2⟩⟩
    obtain ⟨kf, hk⟩ := wA.shown rel false hs
    obtain ⟨kb, b', hb, hs'⟩ := toB hs
    have hin : relPath rel ∈ iter 2 (inBoth m B) :=
      (hi 2 _).symm.subset (mem_inBoth.mpr ⟨mem_keys.mpr ⟨_, (hmA _ _).mpr ⟨kf, hk⟩⟩, mem_keys.mpr ⟨_, hb⟩⟩)
    obtain ⟨_, _, er, hv', _, hka⟩ := hkey _ _ hk
    have := mapSM_each_inv (I := fun s => ∃ l', (∀ y ∈ l', y.1 = fs) ∧ CacheRight E (L ++ l') s.2)
      (P := fun x b => b = none → ∀ kf kb b', keyAt E fs (Path.join path x) = some kf → (x, false) ∈ m → (x, kb, b') ∈ B → kf = kb)
      (f := modifiedOf E fs (.left m) path B) ?_ ⟨[], by simp, by simpa using hh⟩ a3 _ hin
    · obtain ⟨b, hb1, hb2⟩ := this
      have hnone : b = none := by
        cases b with
        | none => rfl
        | some e =>
          have : e ∈ modified.filterMap id := List.mem_filterMap.mpr ⟨_, hb1, rfl⟩
          rw [e3] at this
          simp at this
      have heq := hb2 hnone kf kb b' hka ((hmA _ _).mpr ⟨kf, hk⟩) hb
      subst heq
      obtain ⟨g1, g2⟩ := wA.file rel _ c hk (hs.okNames hw) hv.2
      cases b' with
      | true =>
        obtain ⟨sz, nm, ck, _, q1, _⟩ := g2
        obtain ⟨_, _, _, q2⟩ := wB.isDir _ _ hb
        rw [q1] at q2
        simp at q2
      | false =>
        rcases hs'.2.2 with ⟨h, _⟩ | ⟨_, c', hc'⟩
        · simp at h
        obtain ⟨g1', g2'⟩ := wB.file rel _ c' hb (hs'.okNames h2.wf) hc'
        have := (same_key_iff (hr1 rel c hv) (hr2 rel c' ⟨hs'.2.1, hc'⟩) g1 g1' g2 g2').mp rfl
        subst this
        exact ⟨hs'.2.1, hc'⟩
    · rintro x s b s' ⟨l', hl', hcr⟩ hf
      have hxm : ∀ b0, m.get x = some b0 → (b0 = true → s'.2 = s.2) ∧ (b0 = false → ∃ kf s1, hashFsItem E fs (Path.join path x) s = (.ok kf, s1) ∧ s' = s1 ∧
          ∀ t0, B.get x = some t0 → b = none → kf = t0.1) := by
        intro b0 hb0
        unfold modifiedOf at hf
        simp only [hb0] at hf
        cases b0 with
        | true =>
          simp only [SM.bind_apply, SM.pure_apply] at hf
          simp only [Prod.mk.injEq] at hf
          exact ⟨fun _ => by rw [← hf.2], by simp⟩
        | false =>
          refine ⟨by simp, fun _ => ?_⟩
          obtain ⟨o, s1, f1, f2⟩ := bind_ok hf
          obtain ⟨kf, s2, f3, f4⟩ := bind_ok f1
          simp only [SM.pure_apply, Prod.mk.injEq, Res.ok.injEq] at f4
          obtain ⟨rfl, rfl⟩ := f4
          simp only at f2
          refine ⟨kf, s2, f3, ?_, ?_⟩
          · cases hB2 : B.get x with
            | none => rw [hB2] at f2; simp [SM.panic] at f2
            | some t0 => rw [hB2] at f2; simp only [SM.pure_apply, Prod.mk.injEq] at f2; exact f2.2.symm
          · intro t0 ht0 hbn
            rw [ht0] at f2
            simp only [SM.pure_apply, Prod.mk.injEq, Res.ok.injEq] at f2
            rw [hbn] at f2
            have := f2.1
            split at this
            · assumption
            · simp at this
      cases hmx : m.get x with
      | none =>
        exfalso
        unfold modifiedOf at hf
        simp only [hmx] at hf
        rw [SM.bind_apply] at hf
        simp [SM.panic] at hf
      | some b0 =>
        obtain ⟨t1, t2⟩ := hxm b0 hmx
        cases b0 with
        | true =>
          refine ⟨⟨l', hl', by rw [t1 rfl]; exact hcr⟩, ?_⟩
          intro _ kf kb b' _ hxm _
          have := (PMap.get_iff okm (okm.key_norm (mem_keys.mpr ⟨_, hxm⟩))).mpr hxm
          rw [hmx] at this
          simp at this
        | false =>
          obtain ⟨kf, s1, f1, rfl, f2⟩ := t2 rfl
          have hcr' := right_hash hcr f1
          refine ⟨⟨l' ++ [(fs, Path.join path x)], ?_, by rw [← List.append_assoc]; exact hcr'⟩, ?_⟩
          · intro y hy
            rcases List.mem_append.mp hy with hy | hy
            · exact hl' y hy
            · simp at hy; rw [hy]
          · intro hbn kf' kb b' hkf hxm hxB
            have hBx := (PMap.get_iff wB.ok (wB.ok.key_norm (mem_keys.mpr ⟨_, hxB⟩))).mpr hxB
            have := f2 _ hBx hbn
            simp only at this
            rw [← this]
            obtain ⟨c0, md0, hm0, hk0⟩ := keyAt_some.mp hkf
            have hfa0 := hfa (l' ++ [(fs, Path.join path x)]) (by
              intro y hy
              rcases List.mem_append.mp hy with hy | hy
              · exact hl' y hy
              · simp at hy; rw [hy])
            rw [← List.append_assoc] at hfa0
            have hk1 := hash_key hcr hm0 f1 hfa0
            rw [hk0] at hk1
            simp at hk1
            exact hk1

/-- **C61**, the converse: if `checkout-head` changes HEAD, then, compared with the directory whose snapshot is the tree of HEAD's newest commit, nothing has been added
to or removed from the working directory and every file in it is as it was, whatever writes fail. (What was a file may have become a directory.) `later` is any
store with the present files in it: what `commit` would make. -/
theorem C61_head_safe (X : Ctx) (hit : IterOk X.iter) (n : Bytes) (w : World) (R : Repo) (q : List Bytes) (ho : Opens X w R q) (l : List Fs) (hu : World.Uses X.E l w)
    (hfa : FaithfulFs X.E (w.fs :: l)) (t : Key) (ht : HeadTree (w.dbs q) (some t)) (fs2 : Fs) (f2 : Filter) (n2 : Nat) (p2 : Path) (hn2 : n2 ≤ X.depth)
    (h2 : Snapshot X.E (w.dbs q) t fs2 f2 n2 p2) (hr2 : ∀ rel c, VisFile fs2 f2 p2 rel c → FullyRead X.E (joins p2 rel) c)
    (later : Db) (k : Key) (h1 : Snapshot X.E later k w.fs (makeFilter X.glob R.folder) X.depth R.root) (hl : (w.dbs q).data <+: later.data)
    (hr1 : ∀ rel c, VisFile w.fs (makeFilter X.glob R.folder) R.root rel c → FullyRead X.E (joins R.root rel) c)
    (hch : rawGetState ((mainRun X (.checkoutHead n) w).2.2.dbs q) sHEAD ≠ rawGetState (w.dbs q) sHEAD) :
    (∀ rel, (∃ b, Shown w.fs (makeFilter X.glob R.folder) R.root rel b) ↔ ∃ b, Shown fs2 f2 p2 rel b) ∧
    ∀ rel c, VisFile w.fs (makeFilter X.glob R.folder) R.root rel c → VisFile fs2 f2 p2 rel c := by
  by_cases hcm : Committed X (.checkoutHead n) w R q
  · obtain ⟨t', r, a1, a2, _, a4⟩ := (C47_checkout_head X n w q).2.2.2 R hcm
    have : t' = some t := by
      obtain ⟨hd, b1, b2⟩ := a1
      obtain ⟨hd', b1', b2'⟩ := ht
      rw [b1] at b1'
      simp at b1'
      subst b1'
      rcases b2 with ⟨k1, c1, x1, x2, x3⟩ | ⟨x1, x2⟩
      · rcases b2' with ⟨k2, c2, y1, y2, y3⟩ | ⟨y1, y2⟩
        · rw [x1] at y1
          simp at y1
          subst y1
          rw [x2] at y2
          simp at y2
          subst y2
          rw [x3, y3]
        · simp at y2
      · rcases b2' with ⟨k2, c2, y1, y2, y3⟩ | ⟨y1, y2⟩
        · exact (x1 _ y1).elim
        · simp at y2
    subst this
    obtain ⟨L, hL, hcr⟩ := uses_right hu
    have hfa' : ∀ l', (∀ x ∈ l', x.1 = w.fs) → Faithful X.E (L ++ l') := by
      intro l' hl'
      refine hfa.faithful fun x hx => ?_
      rcases List.mem_append.mp hx with hx | hx
      · exact List.mem_cons_of_mem _ (hL x hx)
      · rw [hl' x hx]; exact List.mem_cons_self
    cases he : r.isEmpty with
    | true => exact compare_empty h1 h2 hl (Nat.le_refl _) hn2 hr1 hr2 hcr hfa' hit (Prod.ext a2 rfl) he
    | false => exact (hch (by simp only [rawGetState, a4 he])).elim
  · exfalso
    apply hch
    have : SameDb ((runIn X R q (.checkoutHead n) w).2.2.dbs q) (w.dbs q) := by
      refine runIn_lost X R q _ w ?_
      by_cases h : ∀ u, ((Command.checkoutHead n).inRepo X R (startOf w q)).1 ≠ .ok u
      · exact Or.inl h
      · right
        intro hc
        refine hcm ⟨ho, ?_, hc⟩
        cases hr : ((Command.checkoutHead n).inRepo X R (startOf w q)).1 with
        | ok u => rfl
        | _ => rw [hr] at h; simp at h
    rw [← mainRun_open (by simp) ho] at this
    simp only [rawGetState, this.1.2.1]

end Snap.Props
