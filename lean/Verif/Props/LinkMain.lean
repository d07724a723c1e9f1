import Verif.Props.LinkPlain
import Verif.Props.LinkCompare
import Verif.Props.LinkWrite
import Verif.Model.LinkMain
import Verif.Props.Find
/-! Property C101: the whole program on file systems with symbolic links. -/
namespace Snap.Props
open Snap
set_option linter.unusedSectionVars false
variable [Serde] [LawfulSerde]

/-! ### Commands that do not look at files -/

/-- The files make no difference and stay as they are. -/
def Blind {α} (x : C α) : Prop := ∀ s g, x { s with fs := g } = ((x s).1, { (x s).2 with fs := g })

theorem blind_bind {α β} {x : C α} {f : α → C β} (hx : Blind x) (hf : ∀ a, Blind (f a)) : Blind (x >>= f) := by
  intro s g
  rw [SM.bind_apply, SM.bind_apply, hx s g]
  rcases x s with ⟨r, s'⟩
  cases r with
  | ok a => exact hf a s' g
  | err e => rfl
  | panic => rfl
  | fuel => rfl

theorem blind_readDb {α} (f : Db → Res α) : Blind (readDb f) := fun _ _ => rfl
theorem blind_read {α} (f : Db → Res α) : Blind (SM.read fun s => f s.db) := fun _ _ => rfl
theorem blind_emit (o : Out) : Blind (emit o) := fun _ _ => rfl
theorem blind_onDb {α} (x : M α) : Blind (onDb x) := fun _ _ => rfl
theorem blind_onDbCache {α} (x : SM (Db × Cache) α) : Blind (onDbCache x) := fun _ _ => rfl
theorem blind_pure {α} (a : α) : Blind (pure a : C α) := fun _ _ => rfl

theorem blind_each {α} {f : α → C Unit} (h : ∀ a, Blind (f a)) : ∀ l, Blind (SM.each f l)
  | [] => blind_pure ()
  | a :: l => blind_bind (h a) fun _ => blind_each h l

theorem blind_emitAll {α} (order : List Path → List Path) (m : PMap α) (line : Path → α → Out) : Blind (emitAll order m line) := by
  refine blind_each (fun p => ?_) _
  split
  · exact blind_emit _
  · exact blind_pure ()

theorem added_right (E : Env) (a b : Fs) (m : PMap (Key × Bool)) : addedOf E a (.right m) = addedOf E b (.right m) := rfl
theorem modified_right (E : Env) (a b : Fs) (m : PMap (Key × Bool)) (base : Path) (to : PMap (Key × Bool)) : modifiedOf E a (.right m) base to = modifiedOf E b (.right m) base to := rfl

theorem compareDb_any (E : Env) (a b : Fs) : compareDb E a = compareDb E b := by
  funext iter n source to s
  unfold compareDb
  cases source with
  | none => rfl
  | some k =>
    have : compare E a iter n (.database k) to = compare E b iter n (.database k) to := by
      unfold compare
      simp only [bind_assoc, pure_bind]
      refine congrArg _ (funext fun m => ?_)
      simp only [added_right E a b, modified_right E a b]
    show ((compare E a iter n (.database k) to (s.1, {})).1, (compare E a iter n (.database k) to (s.1, {})).2.1, s.2) = _
    rw [this]

theorem displayObj_any (E : Env) (lib : DiffLib) (a b : Fs) (iter : Nat → List Path → List Path) (n : Nat) (kind : Kind) : ∀ f k, displayObj E lib a iter n kind f k = displayObj E lib b iter n kind f k := by
  have h1 : ∀ c, displayChanges E lib a iter n kind c = displayChanges E lib b iter n kind c := by
    intro c
    unfold displayChanges
    rw [compareDb_any E a b]
  intro f
  induction f with
  | zero => intro k; rfl
  | succ f ih =>
    intro k
    unfold displayObj
    refine congrArg _ (funext fun o => ?_)
    cases o.objtype with
    | fsItemFile =>
      simp only
      split
      · exact ih _
      · rfl
    | commit => simp only [h1]
    | _ => rfl

theorem logObj_any (E : Env) (lib : DiffLib) (a b : Fs) (iter : Nat → List Path → List Path) (n : Nat) (kind : Kind) (k : Key) : logObj E lib a iter n kind k = logObj E lib b iter n kind k := by
  have h1 : ∀ f c, logLoop E lib a iter n kind f c = logLoop E lib b iter n kind f c := by
    intro f
    induction f with
    | zero => intro c; rfl
    | succ f ih =>
      intro c
      unfold logLoop
      split
      · rfl
      · rw [displayObj_any E lib a b]
        simp only [ih]
  unfold logObj
  rw [funext (displayObj_any E lib a b iter n kind n)]
  simp only [h1]

/-- Commands that read or write files of the working directory. -/
def Command.files : Command → Bool
  | .insert _ => true
  | .commit _ _ _ => true
  | .compare _ _ _ => true
  | .status => true
  | .checkoutHead _ => true
  | .fetch _ _ => true
  | .checkout => true
  | .walkFsTree _ => true
  | _ => false

theorem blind_inRepo (X : Ctx) (R : Repo) (cmd : Command) (h : Command.files cmd = false) : Blind (cmd.inRepo X R) := by
  cases cmd with
  | init => exact blind_pure ()
  | «show» key =>
    refine blind_bind (blind_readDb _) fun k => fun s g => ?_
    simp only [onP, SM.on]
    rw [displayObj_any X.E X.lib g s.fs]
  | log key =>
    refine blind_bind (blind_readDb _) fun k => fun s g => ?_
    simp only [onP, SM.on]
    rw [logObj_any X.E X.lib g s.fs]
  | refLog refname remote => exact blind_bind (blind_readDb _) fun r => blind_bind (blind_readDb _) fun ks => blind_each (fun _ => blind_emit _) _
  | refUpdate key refname => exact blind_bind (blind_readDb _) fun k => blind_bind (blind_readDb _) fun r => blind_onDb _
  | prettyPrint key => exact blind_bind (blind_readDb _) fun k => blind_bind (blind_readDb _) fun r => blind_emit _
  | commitTree tree parents => exact blind_bind (blind_readDb _) fun t => blind_bind (blind_readDb _) fun ps => blind_bind (blind_onDb _) fun k => blind_emit _
  | reflogGet refname remote => exact blind_bind (blind_readDb _) fun k => blind_emit _
  | reflogPush key refname remote => exact blind_bind (blind_readDb _) fun k => blind_onDb _
  | walkTree key => exact blind_bind (blind_readDb _) fun k => blind_bind (blind_readDb _) fun m => blind_emitAll _ _ _
  | setHead refname => exact blind_onDb _
  | getHead => exact blind_bind (blind_readDb _) fun k => blind_emit _
  | _ => simp [Command.files] at h

theorem blind_insertLive (X : Ctx) (A : Answers) (path : Path) : Blind (insertLive X A path) := blind_bind (blind_onDb _) fun _ => blind_emit _

theorem blind_commitLive (X : Ctx) (A : Answers) (R : Repo) (path : Option Path) (m : Bytes) (r : Option Bytes) : Blind (commitLive X A R path m r) :=
  blind_bind (blind_readDb _) fun _ => blind_bind (blind_readDb _) fun _ => blind_bind (blind_onDb _) fun _ => blind_bind (blind_onDb _) fun _ => blind_onDb _

theorem blind_cmpLive (X : Ctx) (A : Sights) (R : Repo) (path : Option Path) (key : Option Keyish) (stat : Bool) : Blind (cmpLive X A R path key stat) := by
  refine blind_bind (blind_readDb _) fun _ => blind_bind (blind_onDbCache _) fun _ => ?_
  split
  · exact blind_bind (blind_readDb _) fun _ => blind_emit _
  · exact blind_emit _

theorem blind_statusLive (X : Ctx) (A : Sights) (R : Repo) : Blind (statusLive X A R) := by
  refine blind_bind (blind_readDb _) fun h => blind_bind (blind_read fun db => .ok (reflogGet db h none).toOption) fun k => ?_
  cases k with
  | none => exact blind_emit _
  | some k => exact blind_bind (blind_emit _) fun _ => blind_bind (blind_readDb _) fun _ => blind_bind (blind_onDbCache _) fun _ => blind_emit _

theorem blind_checkoutHeadLive (X : Ctx) (A : Sights) (R : Repo) (n : Bytes) : Blind (checkoutHeadLive X A R n) := by
  refine blind_bind (blind_readDb _) fun h => blind_bind (blind_read fun db => .ok (reflogGet db h none).toOption) fun k => blind_bind (blind_readDb _) fun t => blind_bind (blind_onDbCache _) fun r => ?_
  split
  · exact blind_bind (blind_onDb _) fun _ => blind_emit _
  · exact blind_bind (blind_emit _) fun _ => blind_emit _

/-! ### Without links -/

theorem answers_unbroken {fs : Fs} (h : Unbroken fs) (limit : Nat) (E : Env) (glob : Path → Bool) (dbPath : Path) :
    (fs.asDisk limit).toLinkFs.answers E glob dbPath = Spec.still E fs (makeFilter glob dbPath) := by
  have hm := asdisk_metadata h limit
  have h1 : ∀ p, ((fs.asDisk limit).toLinkFs.metadata p).bind (fun
    | .dir => .ok .dir
    | .file c _ => .ok (.file c.length)
    | _ => .ok .other) = (fs.metadata p).bind (fun
    | .dir => .ok What.dir
    | .file c _ => .ok (.file c.length)
    | _ => .ok .other) := by
    intro p
    rw [hm p]
    cases fs.metadata p with
    | ok e => cases e <;> rfl
    | _ => rfl
  have h2 : ∀ p, ((fs.asDisk limit).toLinkFs.metadata p).bind (fun
    | .file c _ => .ok (E.rd p c)
    | _ => .err .io) = (fs.metadata p).bind (fun
    | .file c _ => .ok (E.rd p c)
    | _ => .err .io) := by
    intro p
    rw [hm p]
    cases fs.metadata p with
    | ok e => cases e <;> rfl
    | _ => rfl
  have h3 := asdisk_readDir h limit
  have h4 := asdisk_filterFn h limit glob dbPath
  unfold LinkFs.answers Spec.still Spec.during
  congr 1
  · funext t p; exact h1 p
  · funext t p; rw [h3 p]
  · funext t p; exact h4 p
  · funext t p; exact h2 p

theorem sights_unbroken {fs : Fs} (h : Unbroken fs) (limit : Nat) (E : Env) (glob : Path → Bool) (dbPath : Path) :
    (fs.asDisk limit).toLinkFs.sights E glob dbPath = Spec.resting E fs (makeFilter glob dbPath) := by
  have h1 := answers_unbroken h limit E glob dbPath
  have h2 : ∀ t p, ((fs.asDisk limit).toLinkFs.sights E glob dbPath).opened t p = (Spec.resting E fs (makeFilter glob dbPath)).opened t p := by
    intro t p
    have hm := asdisk_metadata h limit p
    show ((fs.asDisk limit).toLinkFs.metadata p).bind _ = (fs.metadata p).bind _
    rw [hm]
    cases fs.metadata p with
    | ok e => cases e <;> rfl
    | _ => rfl
  have h3 : ∀ a b : Sights, a.toAnswers = b.toAnswers → a.opened = b.opened → a = b := by
    intro a b e1 e2
    cases a; cases b
    simp_all
  exact h3 _ _ h1 (funext fun t => funext fun p => h2 t p)

/-- With no links, `y` does what `x` does. -/
def Mirrors {α} (limit : Nat) (x : C α) (y : CL α) : Prop := ∀ s : Sys, Unbroken s.fs →
  Unbroken (x s).2.fs ∧ y ({ s with fs := {} }, s.fs.asDisk limit) = ((x s).1, ({ (x s).2 with fs := {} }, (x s).2.fs.asDisk limit))

theorem mirrors_bind {α β} {limit : Nat} {x : C α} {y : CL α} {f : α → C β} {g : α → CL β} (h : Mirrors limit x y) (hf : ∀ a, Mirrors limit (f a) (g a)) :
    Mirrors limit (x >>= f) (y >>= g) := by
  intro s hs
  obtain ⟨h1, h2⟩ := h s hs
  rw [SM.bind_apply, SM.bind_apply, h2]
  cases hx : x s with
  | mk r s' =>
    rw [hx] at h1
    cases r with
    | ok a => exact hf a s' h1
    | _ => exact ⟨h1, rfl⟩

theorem blind_fs {α} {x : C α} (h : Blind x) (s : Sys) : (x s).2.fs = s.fs := by
  have := h s s.fs
  rw [show ({ s with fs := s.fs } : Sys) = s from rfl] at this
  rw [this]

theorem mirrors_blind {α} {limit : Nat} {x : C α} (h : Blind x) : Mirrors limit x (SM.fst x) := by
  intro s hs
  refine ⟨by rw [blind_fs h]; exact hs, ?_⟩
  simp only [SM.fst, h s {}, blind_fs h]

theorem storeLive_still (X : Ctx) (fs : Fs) (filter : Filter) (p : Path) : storeLive X (Spec.still X.E fs filter) p = putFsItem X.E fs filter X.depth p := by
  funext db
  obtain ⟨t, ht⟩ := putLive_still X.E fs filter X.depth p db 0
  unfold storeLive
  rw [ht]

theorem live_still (X : Ctx) (R : Repo) (cmd : Command) (path : Path) (hc : cmd.stores R = some path) (s : Sys) :
    cmd.live X (Spec.still X.E s.fs (makeFilter X.glob R.folder)) R s = cmd.inRepo X R s := by
  cases cmd <;> simp only [Command.stores, reduceCtorEq] at hc
  · simp only [Command.live, insertLive, Command.inRepo, cmdInsert, storeLive_still, SM.bind_apply]
    rfl
  · rename_i p m r
    simp only [Command.live, commitLive, Command.inRepo, cmdCommit, storeLive_still, SM.bind_apply, readDb, SM.read_apply]
    cases refOrHead s.db r with
    | ok rn => simp only; cases parentsOf s.db rn <;> rfl
    | err e => rfl
    | panic => rfl
    | fuel => rfl

theorem mirrors_seeing {limit : Nat} {x : C Unit} {y : Fs → C Unit} {z : LinkFs → C Unit} (hb : ∀ f, Blind (z f)) (h1 : ∀ s, y s.fs s = x s)
    (h2 : ∀ fs, Unbroken fs → z (fs.asDisk limit).toLinkFs = y fs) : Mirrors limit x (fun s => SM.fst (z s.2.toLinkFs) s) := by
  intro s hs
  have e := mirrors_blind (limit := limit) (hb (s.fs.asDisk limit).toLinkFs) s hs
  rw [h2 _ hs, h1] at e
  rw [← h2 _ hs] at e
  exact e

theorem mirrors_walkFs (X : Ctx) (limit : Nat) (path : Path) : Mirrors limit (cmdWalkFsTree X path) (walkFsLinked X path) := by
  refine mirrors_bind ?_ fun items => mirrors_blind (blind_emitAll _ _ _)
  intro s hs
  refine ⟨hs, ?_⟩
  have h : (walkLive { (s.fs.asDisk limit).toLinkFs.sights X.E X.glob [] with take := fun _ _ => .ok true } path X.depth [] ((), 0)).1 = walkReal s.fs (fun _ _ => .ok true) X.depth path := by
    rw [sights_unbroken hs]
    obtain ⟨t, ht⟩ := asks_walk (E := X.E) (fs := s.fs) (filter := fun _ _ => .ok true) path X.depth [] () 0
    exact congrArg Prod.fst ht
  rw [SM.read_apply, SM.read_apply]
  simp only [h]

theorem linked_plain (X : Ctx) (R : Repo) (limit : Nat) (cmd : Command) : Mirrors limit (cmd.inRepo X R) (cmd.linked X R) := by
  cases cmd with
  | insert path =>
    exact mirrors_seeing (y := fun fs => (Command.insert path).live X (Spec.still X.E fs (makeFilter X.glob R.folder)) R)
      (z := fun d => (Command.insert path).live X (d.answers X.E X.glob R.folder) R) (fun f => blind_insertLive X _ path)
      (fun s => live_still X R (.insert path) _ rfl s) (fun fs h => by rw [answers_unbroken h])
  | commit path m r =>
    exact mirrors_seeing (y := fun fs => (Command.commit path m r).live X (Spec.still X.E fs (makeFilter X.glob R.folder)) R)
      (z := fun d => (Command.commit path m r).live X (d.answers X.E X.glob R.folder) R) (fun f => blind_commitLive X _ R path m r)
      (fun s => live_still X R (.commit path m r) _ rfl s) (fun fs h => by rw [answers_unbroken h])
  | compare path key stat =>
    exact mirrors_seeing (y := fun fs => (Command.compare path key stat).racing X (Spec.resting X.E fs (makeFilter X.glob R.folder)) R)
      (z := fun d => (Command.compare path key stat).racing X (d.sights X.E X.glob R.folder) R) (fun f => blind_cmpLive X _ R path key stat)
      (fun s => (racing_still X R s.fs (.compare path key stat) rfl s rfl).1) (fun fs h => by rw [sights_unbroken h])
  | status =>
    exact mirrors_seeing (y := fun fs => (Command.status).racing X (Spec.resting X.E fs (makeFilter X.glob R.folder)) R)
      (z := fun d => (Command.status).racing X (d.sights X.E X.glob R.folder) R) (fun f => blind_statusLive X _ R)
      (fun s => (racing_still X R s.fs .status rfl s rfl).1) (fun fs h => by rw [sights_unbroken h])
  | checkoutHead n =>
    exact mirrors_seeing (y := fun fs => (Command.checkoutHead n).racing X (Spec.resting X.E fs (makeFilter X.glob R.folder)) R)
      (z := fun d => (Command.checkoutHead n).racing X (d.sights X.E X.glob R.folder) R) (fun f => blind_checkoutHeadLive X _ R n)
      (fun s => (racing_still X R s.fs (.checkoutHead n) rfl s rfl).1) (fun fs h => by rw [sights_unbroken h])
  | fetch key dest =>
    refine mirrors_bind (mirrors_blind (blind_readDb _)) fun k => ?_
    intro s hs
    obtain ⟨h1, h2⟩ := plainly_get (limit := limit) s.db X.depth k dest s.fs hs
    refine ⟨h1, ?_⟩
    simp only [SM.snd, h2]
    rfl
  | checkout =>
    refine mirrors_bind (mirrors_blind (blind_readDb _)) fun k => mirrors_bind (mirrors_blind (blind_readDb _)) fun c => ?_
    intro s hs
    obtain ⟨h1, h2⟩ := plainly_checkout (limit := limit) s.db X.glob R.folder X.iterNames X.depth c.tree R.root s.fs hs
    refine ⟨h1, ?_⟩
    simp only [SM.snd, h2]
    rfl
  | walkFsTree path => exact mirrors_walkFs X limit path
  | _ => exact mirrors_blind (blind_inRepo X R _ rfl)

theorem linkedOut_plain (X : Ctx) (limit : Nat) (cmd : Command) : Mirrors limit (cmd.body X none) (cmd.linkedOut X) := by
  cases cmd with
  | walkFsTree path => exact mirrors_walkFs X limit path
  | _ => exact fun s hs => ⟨hs, rfl⟩

theorem exists_unbroken {fs : Fs} (h : Unbroken fs) (limit : Nat) (p : Path) : (fs.asDisk limit).toLinkFs.exists p = fs.exists p := by
  unfold LinkFs.exists Fs.exists
  rw [asdisk_metadata h limit]
  cases fs.metadata p <;> rfl

theorem find_unbroken {fs : Fs} (h : Unbroken fs) (limit : Nat) (name : Path) : findLinked (fs.asDisk limit).toLinkFs name = findDbFolder fs name := by
  have : ∀ n d, findLinkedFrom (fs.asDisk limit).toLinkFs name n d = findFrom fs name n d := by
    intro n
    induction n with
    | zero => intro d; rfl
    | succ n ih =>
      intro d
      unfold findLinkedFrom findFrom
      rw [exists_unbroken h]
      split
      · rfl
      · cases Path.parent d with
        | some p => exact ih p
        | none => rfl
  exact this _ _

theorem open_unbroken {fs : Fs} (h : Unbroken fs) (limit : Nat) (p : Path) : openLinked (fs.asDisk limit).toLinkFs p = openDb fs p := by
  unfold openLinked openDb
  have := asdisk_locate h limit (Path.join p sDbFile)
  rw [show (fs.asDisk limit).toLinkFs.locate (Path.join p sDbFile) = _ from this]
  cases fs.locate (Path.join p sDbFile) <;> rfl

theorem init_unbroken (X : Ctx) (w : World) (h : Unbroken w.fs) (limit : Nat) :
    Unbroken (runInit X w).2.fs ∧ runInitLinked X (w.asLinked limit) = ((runInit X w).1, (runInit X w).2.asLinked limit) := by
  obtain ⟨h1, h2⟩ : Unbroken (Fs.createDirAll X.dbPath w.fs).2 ∧ Disk.createDirAll X.dbPath (w.fs.asDisk limit) = ((Fs.createDirAll X.dbPath w.fs).1, (Fs.createDirAll X.dbPath w.fs).2.asDisk limit) :=
    plainly_createDirAllN _ _ w.fs h
  unfold runInitLinked runInit
  rw [show (w.asLinked limit).disk = w.fs.asDisk limit from rfl, h2]
  rcases hc : Fs.createDirAll X.dbPath w.fs with ⟨r, fs⟩
  rw [hc] at h1
  cases r with
  | ok u =>
    simp only
    rw [open_unbroken h1]
    cases openDb fs X.dbPath <;> exact ⟨h1, rfl⟩
  | _ => exact ⟨h1, rfl⟩

theorem runIn_unbroken (X : Ctx) (R : Repo) (q : List Bytes) (cmd : Command) (hi : cmd ≠ .init) (w : World) (h : Unbroken w.fs) (limit : Nat) :
    Unbroken (runIn X R q cmd w).2.2.fs ∧
    runInLinked X R q cmd (w.asLinked limit) = ((runIn X R q cmd w).1, (runIn X R q cmd w).2.1, (runIn X R q cmd w).2.2.asLinked limit) := by
  obtain ⟨h1, h2⟩ := linked_plain X R limit cmd { db := (Conn.mk (w.dbs q) none).begin.2.view, cache := w.cache, fs := w.fs } h
  have hb : cmd.body X (some R) = cmd.inRepo X R := by cases cmd <;> first | rfl | exact absurd rfl hi
  unfold runInLinked runIn
  rw [hb]
  refine ⟨h1, ?_⟩
  simp only [World.asLinked, h2]
  rfl

theorem runOut_unbroken (X : Ctx) (cmd : Command) (w : World) (h : Unbroken w.fs) (limit : Nat) :
    Unbroken (runOut X cmd w).2.2.fs ∧
    runOutLinked X cmd (w.asLinked limit) = ((runOut X cmd w).1, (runOut X cmd w).2.1, (runOut X cmd w).2.2.asLinked limit) := by
  obtain ⟨h1, h2⟩ := linkedOut_plain X limit cmd { db := {}, cache := w.cache, fs := w.fs } h
  unfold runOutLinked runOut
  refine ⟨h1, ?_⟩
  simp only [World.asLinked, h2]

/-- **C101** (without links): where there are no symbolic links, the program with links does what the program of all the other theorems does: the same result, output, databases,
cache and files; and no links come to be. -/
theorem C101_plain (X : Ctx) (cmd : Command) (w : World) (h : ∀ e ∈ w.fs.ents, e.2 ≠ .broken) (limit : Nat) :
    (∀ e ∈ (mainRun X cmd w).2.2.fs.ents, e.2 ≠ .broken) ∧
    mainLinked X cmd (w.asLinked limit) = ((mainRun X cmd w).1, (mainRun X cmd w).2.1, (mainRun X cmd w).2.2.asLinked limit) := by
  have h : Unbroken w.fs := h
  show Unbroken (mainRun X cmd w).2.2.fs ∧ _
  unfold mainLinked mainRun
  rw [show (w.asLinked limit).disk = w.fs.asDisk limit from rfl, find_unbroken h]
  cases findDbFolder w.fs X.dbPath with
  | err e => exact ⟨h, rfl⟩
  | panic => exact ⟨h, rfl⟩
  | fuel => exact ⟨h, rfl⟩
  | ok found =>
    have hi : ∀ repo : Option (Repo × List Bytes), Unbroken (match cmd with
      | .init => (exitOf (runInit X w).1 (Cache.finish (runInit X w).1 w.cache w.cache).1, ([] : List Out), { (runInit X w).2 with cache := (Cache.finish (runInit X w).1 w.cache w.cache).2 })
      | _ => match repo with
        | some (R, q) => runIn X R q cmd w
        | none => runOut X cmd w).2.2.fs ∧ (match cmd with
      | .init =>
        let r := runInitLinked X (w.asLinked limit)
        let ca := Cache.finish r.1 w.cache w.cache
        (exitOf r.1 ca.1, ([] : List Out), { r.2 with cache := ca.2 })
      | _ => match repo with
        | some (R, q) => runInLinked X R q cmd (w.asLinked limit)
        | none => runOutLinked X cmd (w.asLinked limit)) = (fun r : Exit × List Out × World => (r.1, r.2.1, r.2.2.asLinked limit)) (match cmd with
      | .init => (exitOf (runInit X w).1 (Cache.finish (runInit X w).1 w.cache w.cache).1, ([] : List Out), { (runInit X w).2 with cache := (Cache.finish (runInit X w).1 w.cache w.cache).2 })
      | _ => match repo with
        | some (R, q) => runIn X R q cmd w
        | none => runOut X cmd w) := by
      intro repo
      by_cases hc : cmd = .init
      · subst hc
        obtain ⟨h1, h2⟩ := init_unbroken X w h limit
        refine ⟨h1, ?_⟩
        simp only [h2]
        rfl
      · cases repo with
        | none =>
          have := runOut_unbroken X cmd w h limit
          cases cmd <;> first | exact this | exact absurd rfl hc
        | some r =>
          have := runIn_unbroken X r.1 r.2 cmd hc w h limit
          cases cmd <;> first | exact this | exact absurd rfl hc
    cases found with
    | none => exact hi none
    | some x =>
      simp only
      cases Path.parent x with
      | none => exact ⟨h, rfl⟩
      | some root =>
        simp only
        rw [open_unbroken h]
        cases openDb w.fs x with
        | ok q => exact hi (some (⟨x, root⟩, q))
        | err e => exact ⟨h, rfl⟩
        | panic => exact ⟨h, rfl⟩
        | fuel => exact ⟨h, rfl⟩

/-! ### Databases -/

/-- `/r`, with a repository, is the current directory. -/
def homeFs : Fs := { ents := [([[114]], .dir), ([[114], [46, 115]], .dir)], cwd := [[114]] }
/-- `/r/.s` -/
def homeRepo : Repo := ⟨[47, 114, 47, 46, 115], [47, 114]⟩
/-- `/r/.s/snapcd.db` -/
def home : List Bytes := [[114], [46, 115], sDbFile]

/-- A database that some world as in `World.Sound` has. -/
def Made (H : Bytes → Key) (db : Db) : Prop := ∃ v : World, v.Sound H ∧ v.fs = homeFs ∧ v.dbs home = db

theorem home_sane : homeFs.Sane := (wf_of_list (by decide) (by decide) (by decide) (by decide)).sane

theorem home_opens (X : Ctx) {v : World} (h : v.fs = homeFs) : Opens { X with dbPath := [46, 115] } v homeRepo home := by
  unfold Opens
  rw [h]
  exact ⟨by rfl, by rfl, by rfl⟩

theorem made_same {H : Bytes → Key} {a b : Db} (h : SameDb a b) (hb : Made H b) : Made H a := by
  obtain ⟨v, h1, h2, h3⟩ := hb
  obtain ⟨g1, g2, g3, _⟩ := attained_edit (w := v) (q := home) (db := a) h1 rfl (by rw [h3]; exact h) (fun _ _ => rfl)
  exact ⟨_, g1, g2.trans h2, g3⟩

theorem made_fresh {H : Bytes → Key} {db : Db} (h1 : db.data = []) (h2 : db.state = []) (h3 : db.reflog = []) : Made H db :=
  ⟨⟨homeFs, fun _ => db, {}⟩, .fresh _ (fun _ => ⟨h1, h2, h3⟩) home_sane, rfl, rfl⟩

theorem made_of_attained {H : Bytes → Key} {v : World} {db : Db} (hv : v.fs = homeFs) (h : Attained H v home db) : Made H db := by
  obtain ⟨v', h1, h2, h3, _⟩ := h
  exact made_same h3 ⟨v', h1, h2.trans hv, rfl⟩

theorem made_read {X : Ctx} {evs : List ReadEv} {len : Nat} {db d : Db} {k : Key} (hp : putRead X.E evs len db = (.ok k, d)) (h : Made X.E.H db) : Made X.E.H d := by
  obtain ⟨v, h1, h2, h3⟩ := h
  exact made_of_attained h2 (attained_read (home_opens X h2) (by decide) hp ⟨v, h1, rfl, by rw [h3]; exact SameDb.refl _, fun _ _ => rfl⟩)

theorem made_head {H : Bytes → Key} {n : Bytes} {db : Db} (X : Ctx) (hX : X.E.H = H) (h : Made H db) : Made H (putHead n db).2 := by
  subst hX
  rcases hp : putHead n db with ⟨r, d⟩
  cases r with
  | ok u =>
    obtain ⟨v, h1, h2, h3⟩ := h
    exact made_of_attained h2 (attained_head (home_opens X h2) hp ⟨v, h1, rfl, by rw [h3]; exact SameDb.refl _, fun _ _ => rfl⟩)
  | _ =>
    have := hp
    unfold putHead rawPutState at this
    rcases write_cases (fun db => { db with state := insertReplace db.state sHEAD n }) db with ⟨fs, _, e⟩ | e
    · rw [e] at this
      simp only [Prod.mk.injEq] at this
      obtain ⟨_, rfl⟩ := this
      exact made_same (SameDb.faults db fs) h
    · rw [e] at this
      simp at this

/-- What a database is when the process ends. -/
theorem finish_db {a b : Db} (hk : ∀ x ∈ a.hashed, x ∈ b.hashed) (r : Res Unit) :
    SameDb (Conn.finish r (Conn.mk a (some b))).durable a ∨ (r = .ok () ∧ SameDb (Conn.finish r (Conn.mk a (some b))).durable b) := by
  cases r with
  | ok u =>
    simp only [Conn.finish, Conn.commit]
    split
    · exact .inl ⟨⟨rfl, rfl, rfl⟩, hk⟩
    · exact .inr ⟨trivial, ⟨rfl, rfl, rfl⟩, fun x h => h⟩
  | err e => exact .inl ⟨⟨rfl, rfl, rfl⟩, hk⟩
  | panic => exact .inl ⟨⟨rfl, rfl, rfl⟩, hk⟩
  | fuel => exact .inl ⟨⟨rfl, rfl, rfl⟩, hk⟩

/-- What becomes of the database `db` when a command ends like this. -/
def ended (db : Db) (r : Res Unit × Sys) : Db := (Conn.finish r.1 (Conn.mk db (some r.2.db))).durable

theorem made_live {X : Ctx} {A : Answers} (hA : Spec.Proper A) {R : Repo} {cmd : Command} {path : Path} (hc : cmd.stores R = some path) {db : Db} {ca : Cache} (h : Made X.E.H db) :
    Made X.E.H (ended db (cmd.live X A R { db := db, cache := ca })) := by
  obtain ⟨v, h1, h2, h3⟩ := h
  have h1' : World.Sound X.E.H { v with cache := ca } := h1.step (.edit _ _ fun _ => SameDb.refl _) (by rw [h2]; exact home_sane)
  have hs := C93_sound { X with dbPath := [46, 115] } A hA { v with cache := ca } h1' homeRepo home (home_opens X h2) (by decide) (cmd.aim path) (aim_ne_init (stores_ne_init hc) path) homeFs home_sane
  refine ⟨_, hs, rfl, ?_⟩
  have hl : (cmd.aim path).live { X with dbPath := [46, 115] } A homeRepo = cmd.live X A R := by
    cases cmd <;> simp only [Command.stores, reduceCtorEq, Option.some.injEq] at hc <;> subst hc <;> rfl
  have hb : Blind (cmd.live X A R) := by
    cases cmd <;> simp only [Command.stores, reduceCtorEq] at hc
    · exact blind_insertLive X A _
    · exact blind_commitLive X A R _ _ _
  have hst : startOf { v with cache := ca } home = { ({ db := db, cache := ca } : Sys) with fs := homeFs } := by
    unfold startOf
    simp only [h2, h3]
  have e : (runLive { X with dbPath := [46, 115] } A homeRepo home (cmd.aim path) homeFs { v with cache := ca }).2.2.dbs home =
      (Conn.finish ((cmd.aim path).live { X with dbPath := [46, 115] } A homeRepo (startOf { v with cache := ca } home)).1
        (Conn.mk (v.dbs home) (some ((cmd.aim path).live { X with dbPath := [46, 115] } A homeRepo (startOf { v with cache := ca } home)).2.db))).durable := rfl
  rw [e, hl, hst, hb, h3]
  rfl

theorem made_racing {X : Ctx} {A : Sights} {R : Repo} {cmd : Command} (hc : cmd.compares = true) {db : Db} {s : Sys} (hs : s.db = db) (h : Made X.E.H db) :
    Made X.E.H (ended db (cmd.racing X A R s)) := by
  subst hs
  rcases finish_db (racing_hashed X A R cmd hc s) (cmd.racing X A R s).1 with g | ⟨g1, g2⟩
  · exact made_same g h
  · refine made_same g2 ?_
    exact racing_holdOk (I := fun s => Made X.E.H s.1) X A R cmd hc (compareLive_holdOk (I := fun s => Made X.E.H s.1) X.E A (fun p s k s' hs hI => by
      obtain ⟨⟨db, ca⟩, t⟩ := s
      obtain ⟨⟨db', ca'⟩, t'⟩ := s'
      obtain ⟨len, ck, evs, _, _, _, h3⟩ := hashLive_ok hs
      rcases h3 with ⟨_, rfl, _⟩ | ⟨_, h3, _⟩
      · exact hI
      · exact made_read h3 hI) X.iter X.depth) (fun n db db' ca hp hI => by have := made_head (n := n) X rfl hI; rwa [hp] at this) s () (cmd.racing X A R s).2 (Prod.ext g1 rfl) h

theorem made_blind {X : Ctx} {R : Repo} {cmd : Command} (hf : Command.files cmd = false) (hi : cmd ≠ .init) {db : Db} {ca : Cache} (h : Made X.E.H db) :
    Made X.E.H (ended db (cmd.inRepo X R { db := db, cache := ca })) := by
  obtain ⟨v, h1, h2, h3⟩ := h
  have h1' : World.Sound X.E.H { v with cache := ca } := h1.step (.edit _ _ fun _ => SameDb.refl _) (by rw [h2]; exact home_sane)
  have hs := h1'.run { X with dbPath := [46, 115] } cmd
  rw [mainRun_open hi (home_opens (v := { v with cache := ca }) X h2)] at hs
  have hl : cmd.inRepo { X with dbPath := [46, 115] } homeRepo = cmd.inRepo X R := by cases cmd <;> first | rfl | simp [Command.files] at hf
  have hb := blind_inRepo X R cmd hf
  have hst : startOf { v with cache := ca } home = { ({ db := db, cache := ca } : Sys) with fs := homeFs } := by
    unfold startOf
    simp only [h2, h3]
  refine ⟨_, hs, ?_, ?_⟩
  · rw [runIn_eq, hl, hst, hb]
    rfl
  · rw [runIn_eq, hl, hst, hb]
    simp only [World.setDb, if_true]
    rw [h3]
    rfl

theorem emitAll_db {α} (order : List Path → List Path) (m : PMap α) (line : Path → α → Out) (s : Sys) : (emitAll order m line s).2.db = s.db := by
  have h : ∀ (f : Path → C Unit), (∀ p s, (f p s).2.db = s.db) → ∀ l s, (SM.each f l s).2.db = s.db := by
    intro f hf l
    induction l with
    | nil => intro s; rfl
    | cons a l ih =>
      intro s
      have h1 := hf a s
      rw [show SM.each f (a :: l) = (f a >>= fun _ => SM.each f l) from rfl, SM.bind_apply]
      rcases hfa : f a s with ⟨r, s'⟩
      rw [hfa] at h1
      cases r with
      | ok u => exact (ih s').trans h1
      | _ => exact h1
  refine h _ (fun p s => ?_) _ s
  cases m.get p <;> rfl

theorem keepsDb_bind {α β} {x : CL α} {f : α → CL β} (hx : ∀ s, (x s).2.1.db = s.1.db) (hf : ∀ a s, (f a s).2.1.db = s.1.db) (s : Sys × Disk) : ((x >>= f) s).2.1.db = s.1.db := by
  have h := hx s
  rw [SM.bind_apply]
  rcases hr : x s with ⟨r, s'⟩
  rw [hr] at h
  cases r with
  | ok a => exact (hf a s').trans h
  | _ => exact h

theorem fetchLinked_db (X : Ctx) (key : Keyish) (dest : Path) (s : Sys × Disk) : (fetchLinked X key dest s).2.1.db = s.1.db :=
  keepsDb_bind (fun _ => rfl) (fun _ _ => rfl) s

theorem checkoutLinked_db (X : Ctx) (R : Repo) (s : Sys × Disk) : (checkoutCmdLinked X R s).2.1.db = s.1.db :=
  keepsDb_bind (fun _ => rfl) (fun _ => keepsDb_bind (fun _ => rfl) fun _ _ => rfl) s

theorem walkFsLinked_db (X : Ctx) (path : Path) (s : Sys × Disk) : (walkFsLinked X path s).2.1.db = s.1.db :=
  keepsDb_bind (fun _ => rfl) (fun _ s => emitAll_db _ _ _ s.1) s

theorem made_linked {X : Ctx} {R : Repo} {cmd : Command} (hi : cmd ≠ .init) {d : Disk} (hs : d.toLinkFs.Sane) {db : Db} {ca : Cache} (h : Made X.E.H db) :
    Made X.E.H (ended db ((cmd.linked X R ({ db := db, cache := ca }, d)).1, (cmd.linked X R ({ db := db, cache := ca }, d)).2.1)) := by
  have hkeep : ∀ r : Res Unit × (Sys × Disk), r.2.1.db = db → Made X.E.H (ended db (r.1, r.2.1)) := by
    intro r hr
    rcases finish_db (a := db) (b := r.2.1.db) (fun x hx => by rw [hr]; exact hx) r.1 with g | ⟨_, g⟩
    · exact made_same g h
    · exact made_same g (hr ▸ h)
  cases cmd with
  | init => exact absurd rfl hi
  | insert path => exact made_live (lproper hs X.E X.glob R.folder) (R := R) (cmd := .insert path) rfl h
  | commit path m r => exact made_live (lproper hs X.E X.glob R.folder) (cmd := .commit path m r) rfl h
  | compare path key stat => exact made_racing (cmd := .compare path key stat) rfl rfl h
  | status => exact made_racing (cmd := .status) rfl rfl h
  | checkoutHead n => exact made_racing (cmd := .checkoutHead n) rfl rfl h
  | fetch key dest => exact hkeep _ (fetchLinked_db X key dest _)
  | checkout => exact hkeep _ (checkoutLinked_db X R _)
  | walkFsTree path => exact hkeep _ (walkFsLinked_db X path _)
  | _ => exact made_blind rfl (by simp) h

theorem made_init {X : Ctx} {w : LinkWorld} (h : ∀ q, Made X.E.H (w.dbs q)) (q : List Bytes) : Made X.E.H ((runInitLinked X w).2.dbs q) := by
  unfold runInitLinked
  rcases Disk.createDirAll X.dbPath w.disk with ⟨r, d⟩
  cases r with
  | ok u =>
    simp only
    cases openLinked d.toLinkFs X.dbPath with
    | ok q' =>
      simp only [LinkWorld.setDb]
      split
      · exact made_head X rfl (h q')
      · exact h q
    | _ => exact h q
  | _ => exact h q

theorem made_main {X : Ctx} {cmd : Command} {w : LinkWorld} (hs : w.disk.toLinkFs.Sane) (h : ∀ q, Made X.E.H (w.dbs q)) (q : List Bytes) : Made X.E.H ((mainLinked X cmd w).2.2.dbs q) := by
  have hin : ∀ R q', cmd ≠ .init → Made X.E.H ((runInLinked X R q' cmd w).2.2.dbs q) := by
    intro R q' hi
    have e : (runInLinked X R q' cmd w).2.2.dbs q = if q = q' then ended (w.dbs q')
      ((cmd.linked X R ({ db := w.dbs q', cache := w.cache }, w.disk)).1, (cmd.linked X R ({ db := w.dbs q', cache := w.cache }, w.disk)).2.1) else w.dbs q := rfl
    rw [e]
    split
    · exact made_linked hi hs (h q')
    · exact h q
  unfold mainLinked
  cases findLinked w.disk.toLinkFs X.dbPath with
  | ok found =>
    have key : ∀ repo : Option (Repo × List Bytes), Made X.E.H ((match cmd with
      | .init =>
        let r := runInitLinked X w
        let ca := Cache.finish r.1 w.cache w.cache
        (exitOf r.1 ca.1, ([] : List Out), { r.2 with cache := ca.2 })
      | _ => match repo with
        | some (R, q) => runInLinked X R q cmd w
        | none => runOutLinked X cmd w).2.2.dbs q) := by
      intro repo
      by_cases hc : cmd = .init
      · subst hc
        exact made_init h q
      · cases repo with
        | none =>
          have := h q
          cases cmd <;> first | exact this | exact absurd rfl hc
        | some r =>
          have := hin r.1 r.2 hc
          cases cmd <;> first | exact this | exact absurd rfl hc
    cases found with
    | none => exact key none
    | some x =>
      simp only
      cases Path.parent x with
      | none => exact h q
      | some root =>
        simp only
        cases openLinked w.disk.toLinkFs x with
        | ok q' => exact key (some (⟨x, root⟩, q'))
        | _ => exact h q
  | _ => exact h q

namespace Spec

/-- Databases that only the program has written: any number of commands with any options, each finding the files, links and cache in any state, with faults anywhere in between. -/
inductive Written (H : Bytes → Key) : (List Bytes → Db) → Prop where
  | fresh (dbs : List Bytes → Db) (h : ∀ q, (dbs q).data = [] ∧ (dbs q).state = [] ∧ (dbs q).reflog = []) : Written H dbs
  | run {dbs : List Bytes → Db} (h : Written H dbs) (X : Ctx) (hX : X.E.H = H) (cmd : Command) (disk : Disk) (hs : disk.toLinkFs.Sane) (cache : Cache) :
      Written H (mainLinked X cmd ⟨disk, dbs, cache⟩).2.2.dbs
  | fault {dbs dbs' : List Bytes → Db} (h : Written H dbs) (hs : ∀ q, SameDb (dbs' q) (dbs q)) : Written H dbs'

end Spec

/-- **C101** (the databases): each database that commands made through whatever links, on files that may be anything each time, is one that commands make where there are no links. So all
that is proved of the databases of such worlds (`World.Sound`, `World.Reachable`) holds. -/
theorem C101_sound {H : Bytes → Key} {dbs : List Bytes → Db} (h : Spec.Written H dbs) (q : List Bytes) : ∃ (v : World) (q' : List Bytes), v.Sound H ∧ v.dbs q' = dbs q := by
  have key : ∀ q, Made H (dbs q) := by
    induction h with
    | fresh dbs h => exact fun q => made_fresh (h q).1 (h q).2.1 (h q).2.2
    | run h X hX cmd disk hs cache ih =>
      subst hX
      exact fun q => made_main hs ih q
    | fault h hs ih => exact fun q => made_same (hs q) (ih q)
  obtain ⟨v, h1, _, h3⟩ := key q
  exact ⟨v, home, h1, h3⟩

/-! ### Where the database is -/

theorem findLinkedFrom_spec (fs : LinkFs) (name : Path) (l : List Bytes) (h : ∀ n ∈ l, okComp n) :
    (∃ a b, l = a ++ b ∧ findLinkedFrom fs name (l.length + 1) (joins sSlash l) = .ok (some (Path.join (joins sSlash a) name)) ∧ fs.exists (Path.join (joins sSlash a) name) = true ∧
      ∀ a' b', l = a' ++ b' → a.length < a'.length → fs.exists (Path.join (joins sSlash a') name) = false) ∨
    (findLinkedFrom fs name (l.length + 1) (joins sSlash l) = .ok none ∧ ∀ a b, l = a ++ b → fs.exists (Path.join (joins sSlash a) name) = false) := by
  induction l using snocInd with
  | h0 =>
    simp only [findLinkedFrom, joins_nil, List.length_nil]
    by_cases hx : fs.exists (Path.join sSlash name) = true
    · left
      refine ⟨[], [], rfl, by rw [if_pos hx]; rfl, hx, ?_⟩
      intro a' b' e
      obtain ⟨rfl, rfl⟩ := List.append_eq_nil_iff.mp e.symm
      simp
    · right
      rw [if_neg hx, parent_root]
      refine ⟨rfl, ?_⟩
      intro a b e
      obtain ⟨rfl, rfl⟩ := List.append_eq_nil_iff.mp e.symm
      simpa using hx
  | h1 l n ih =>
    have ih := ih fun m hm => h m (by simp [hm])
    rw [List.length_append, List.length_singleton]
    rw [findLinkedFrom]
    by_cases hx : fs.exists (Path.join (joins sSlash (l ++ [n])) name) = true
    · left
      refine ⟨l ++ [n], [], by simp, by rw [if_pos hx], hx, ?_⟩
      intro a' b' e hl
      have := congrArg List.length e
      simp at this hl
      omega
    · rw [if_neg hx, parent_abs h]
      simp only
      have case : ∀ a b, l ++ [n] = a ++ b → (∃ b', l = a ++ b') ∨ a = l ++ [n] := by
        intro a b e
        rcases List.eq_nil_or_concat b with rfl | ⟨b', m, rfl⟩
        · right; simpa using e.symm
        · left
          rw [List.concat_eq_append, ← List.append_assoc] at e
          exact ⟨b', (List.append_inj' e rfl).1⟩
      rcases ih with ⟨a, b, e, g1, g2, g3⟩ | ⟨g1, g2⟩
      · left
        refine ⟨a, b ++ [n], by rw [e, List.append_assoc], g1, g2, ?_⟩
        intro a' b' e' hl
        rcases case a' b' e' with ⟨b'', e''⟩ | rfl
        · exact g3 a' b'' e'' hl
        · simpa using hx
      · right
        refine ⟨g1, ?_⟩
        intro a b e
        rcases case a b e with ⟨b', e'⟩ | rfl
        · exact g2 a b' e'
        · simpa using hx

/-- **C101** (which folder): the search ends, and finds the database folder in the nearest ancestor of the current directory (or in itself) in which there is something of that name, links
being followed; it finds none iff there is none. -/
theorem C101_nearest (fs : LinkFs) (hcwd : ∀ n ∈ fs.cwd, okComp n) (name : Path) :
    (∀ p, findLinked fs name = .ok (some p) ↔ ∃ up down, fs.cwd = up ++ down ∧ p = Path.join (joins sSlash up) name ∧ fs.exists p = true ∧
      ∀ up' down', fs.cwd = up' ++ down' → up.length < up'.length → fs.exists (Path.join (joins sSlash up') name) = false) ∧
    (findLinked fs name = .ok none ↔ ∀ up down, fs.cwd = up ++ down → fs.exists (Path.join (joins sSlash up) name) = false) ∧
    ∃ r, findLinked fs name = .ok r := by
  unfold findLinked
  rw [ofComps_abs]
  rcases findLinkedFrom_spec fs name fs.cwd hcwd with ⟨a, b, e, g1, g2, g3⟩ | ⟨g1, g2⟩
  · refine ⟨?_, ?_, _, g1⟩
    · intro p
      rw [g1]
      constructor
      · intro h
        simp only [Res.ok.injEq, Option.some.injEq] at h
        subst h
        exact ⟨a, b, e, rfl, g2, g3⟩
      · rintro ⟨up, down, e', rfl, h1, h2⟩
        have : up = a := by
          have hl : up.length = a.length := by
            rcases Nat.lt_trichotomy up.length a.length with hl | hl | hl
            · rw [h2 a b e hl] at g2; simp at g2
            · exact hl
            · rw [g3 up down e' hl] at h1; simp at h1
          exact (List.append_inj (e'.symm.trans e) hl).1
        rw [this]
    · rw [g1]
      constructor
      · intro h; simp at h
      · intro h
        rw [h a b e] at g2
        simp at g2
  · refine ⟨?_, ?_, _, g1⟩
    · intro p
      rw [g1]
      constructor
      · intro h; simp at h
      · rintro ⟨up, down, e, rfl, h1, _⟩
        rw [g2 up down e] at h1
        simp at h1
    · rw [g1]
      simp only [true_iff]
      exact g2


/-- With a link to spare. -/
theorem lwalk_fewer {fs : LinkFs} {k : Nat} {cur l : List Bytes} {j : Nat} {c : List Bytes} (h : fs.walk (k + 1) cur l = .ok (j + 1, c)) : fs.walk k cur l = .ok (j, c) := by
  have key : ∀ (k : Nat) (next : List Bytes → List Bytes → Res (Nat × List Bytes)), (∀ cur l, fs.walk k cur l = .ok (j + 1, c) → next cur l = .ok (j, c)) → ∀ l cur,
      fs.steps (k + 1) (fs.walk k) cur l = .ok (j + 1, c) → fs.steps k next cur l = .ok (j, c) := by
    intro k next hx l
    induction l with
    | nil => intro cur h; simp only [LinkFs.steps, Res.ok.injEq, Prod.mk.injEq] at h ⊢; exact ⟨by omega, h.2⟩
    | cons s l ih =>
      intro cur h
      simp only [LinkFs.steps] at h ⊢
      split at h
      · split at h
        · rw [if_pos ‹_›]; exact ih _ h
        · rw [if_neg ‹_›]
          split at h
          · rw [if_pos ‹_›]; exact ih _ h
          · rw [if_neg ‹_›]
            split at h
            · split at h
              · simp at h
              · rw [if_neg ‹_›]; exact hx _ _ h
            · exact ih _ h
      · simp at h
      · simp at h
  induction k generalizing cur l with
  | zero => exact key 0 _ (fun cur l h => by have := lwalk_le fs h; omega) l cur h
  | succ k ih => exact key (k + 1) _ (fun cur l h => ih h) l cur h

theorem lwalk_dirs {fs : LinkFs} (k : Nat) : ∀ (l cur : List Bytes), (∀ n ∈ l, okName n) → (∀ r, r <+: l → fs.at (cur ++ r) = some .dir) → fs.walk k cur l = .ok (k, cur ++ l) := by
  have key : ∀ next, ∀ (l cur : List Bytes), (∀ n ∈ l, okName n) → (∀ r, r <+: l → fs.at (cur ++ r) = some .dir) → fs.steps k next cur l = .ok (k, cur ++ l) := by
    intro next l
    induction l with
    | nil => intro cur _ _; simp [LinkFs.steps]
    | cons s l ih =>
      intro cur hn hd
      have h0 := hd [] (List.nil_prefix)
      have h1 := hd [s] ⟨l, rfl⟩
      have hs := hn s (by simp)
      rw [List.append_nil] at h0
      simp only [LinkFs.steps, h0, h1]
      rw [if_neg (by simp [hs.1, hs.2.1]), if_neg hs.2.2.1, ih (cur ++ [s]) (fun n h => hn n (by simp [h])) (fun r hr => by
        rw [List.append_assoc]
        exact hd (s :: r) ((List.prefix_cons_inj s).mpr hr))]
      simp
  cases k with
  | zero => exact key _
  | succ k => exact key _

/-- A place whose ancestors are directories and not links. -/
theorem llocate_abs {fs : LinkFs} {up : List Bytes} (hn : ∀ n ∈ up, okName n) (hd : ∀ r, r <+: up → fs.at r = some .dir) : fs.locate (joins sSlash up) = .ok (fs.limit, up) := by
  have h0 : fs.locate sSlash = .ok (fs.limit, []) := by
    unfold LinkFs.locate
    rw [if_neg (by decide), if_neg (by decide)]
    have : fs.at [] = some .dir := by simp [LinkFs.at]
    cases fs.limit <;> simp [LinkFs.walk, LinkFs.steps, sSlash, Path.isAbs, splitSlash, this]
  rw [llocate_joins (by decide) hn, h0, Res.ok_bind]
  exact lwalk_dirs _ up [] hn (by simpa using hd)

theorem lexists_iff {fs : LinkFs} {p : Path} : fs.exists p = true ↔ ∃ k q e, fs.locate p = .ok (k, q) ∧ fs.at q = some e := by
  unfold LinkFs.exists
  constructor
  · intro h
    cases hm : fs.metadata p with
    | ok e =>
      obtain ⟨q, h1, h2⟩ := lmeta_iff.mp hm
      obtain ⟨k, _, h3, _⟩ := lcanon_iff.mp h1
      exact ⟨k, q, e, h3, h2⟩
    | _ => simp [hm] at h
  · rintro ⟨k, q, e, h1, h2⟩
    rw [lmeta_iff.mpr ⟨q, lcanon_iff.mpr ⟨k, e, h1, h2⟩, h2⟩]

/-- **C101** (what counts as there): in terms of places, for a plain name (the default is `.snapcd`). A directory, file or special file counts; a link counts if the path in it leads to something
from there, with one more link followed than on that way. -/
theorem C101_places (fs : LinkFs) (up : List Bytes) (name : Bytes) (h : ∀ n ∈ up, okName n) (hn : okName name) (hd : ∀ r, r <+: up → fs.at r = some .dir) :
    fs.exists (Path.join (joins sSlash up) name) = true ↔
      (∃ e, fs.at (up ++ [name]) = some e ∧ ∀ t, e ≠ .link t) ∨
      (∃ t k q e, fs.at (up ++ [name]) = some (.link t) ∧ fs.walk fs.limit (if Path.isAbs t then [] else up) (splitSlash t) = .ok (k + 1, q) ∧ t ≠ [] ∧ fs.at q = some e) := by
  have hne : joins sSlash up ≠ [] := by
    intro e
    have := llocate_abs (fs := fs) h hd
    rw [e] at this
    simp [LinkFs.locate] at this
  have hl : fs.locate (Path.join (joins sSlash up) name) = fs.walk fs.limit up [name] := by rw [llocate_join fs hne hn, llocate_abs h hd, Res.ok_bind]
  have hup := hd up (List.prefix_refl _)
  have step : ∀ k next, fs.steps k next up [name] = match fs.at (up ++ [name]) with
      | some (.link t) => if t = [] then .err .enoent else next (if Path.isAbs t then [] else up) (splitSlash t ++ [])
      | _ => .ok (k, up ++ [name]) := by
    intro k next
    simp only [LinkFs.steps, hup]
    rw [if_neg (by simp [hn.1, hn.2.1]), if_neg hn.2.2.1]
    cases fs.at (up ++ [name]) with
    | none => rfl
    | some e => cases e <;> rfl
  rw [lexists_iff, hl]
  constructor
  · rintro ⟨k, q, e, h1, h2⟩
    have key : ∀ k' next, fs.steps k' next up [name] = .ok (k, q) → (∃ e, fs.at (up ++ [name]) = some e ∧ ∀ t, e ≠ .link t) ∨
        ∃ t, fs.at (up ++ [name]) = some (.link t) ∧ t ≠ [] ∧ next (if Path.isAbs t then [] else up) (splitSlash t) = .ok (k, q) := by
      intro k' next hs
      rw [step] at hs
      split at hs
      · rename_i t ht
        split at hs
        · simp at hs
        · rename_i h0
          rw [List.append_nil] at hs
          exact .inr ⟨t, ht, h0, hs⟩
      · rename_i hno
        simp only [Res.ok.injEq, Prod.mk.injEq] at hs
        exact .inl ⟨e, by rw [hs.2]; exact h2, fun t ht => hno t (by rw [hs.2, h2, ht])⟩
    cases hlim : fs.limit with
    | zero =>
      rw [hlim] at h1
      rcases key _ _ h1 with g | ⟨t, _, _, g⟩
      · exact .inl g
      · simp at g
    | succ m =>
      rw [hlim] at h1
      rcases key _ _ h1 with g | ⟨t, g1, g2, g3⟩
      · exact .inl g
      · exact .inr ⟨t, k, q, e, g1, lwalk_more fs g3 1, g2, h2⟩
  · rintro (⟨e, h1, h2⟩ | ⟨t, k, q, e, h1, h2, h3, h4⟩)
    · refine ⟨fs.limit, up ++ [name], e, ?_, h1⟩
      have : ∀ next, fs.steps fs.limit next up [name] = .ok (fs.limit, up ++ [name]) := by
        intro next
        rw [step, h1]
        cases e with
        | link t => exact (h2 t rfl).elim
        | _ => rfl
      generalize fs.limit = lim at this ⊢
      cases lim <;> exact this _
    · refine ⟨k, q, e, ?_, h4⟩
      cases hlim : fs.limit with
      | zero =>
        rw [hlim] at h2
        have := lwalk_le fs h2
        omega
      | succ m =>
        rw [hlim] at h2
        show fs.steps (m + 1) (fs.walk m) up [name] = _
        rw [step, h1]
        simp only
        rw [if_neg h3, List.append_nil]
        exact lwalk_fewer h2

/-- The repository that `main` opens, and its database; as `Opens`. -/
def OpensLinked (X : Ctx) (w : LinkWorld) (R : Repo) (q : List Bytes) : Prop :=
  findLinked w.disk.toLinkFs X.dbPath = .ok (some R.folder) ∧ Path.parent R.folder = some R.root ∧ openLinked w.disk.toLinkFs R.folder = .ok q

theorem mainLinked_open {X : Ctx} {cmd : Command} (hc : cmd ≠ .init) {w : LinkWorld} {R : Repo} {q : List Bytes} (ho : OpensLinked X w R q) :
    mainLinked X cmd w = runInLinked X R q cmd w := by
  obtain ⟨h1, h2, h3⟩ := ho
  unfold mainLinked
  rw [h1]
  simp only [h2, h3]
  cases cmd <;> first | rfl | exact absurd rfl hc

/-- **C101** (which database): `snapcd.db` in the directory that the folder leads to. -/
theorem C101_where (fs : LinkFs) (folder : Path) (hf : folder ≠ []) (d : List Bytes) (hc : fs.canonicalize folder = .ok d) (hd : fs.at d = some .dir)
    (hl : ∀ t, fs.at (d ++ [sDbFile]) ≠ some (.link t)) : openLinked fs folder = .ok (d ++ [sDbFile]) := by
  obtain ⟨k, e, h1, h2⟩ := lcanon_iff.mp hc
  have hn : okName sDbFile := by decide +kernel
  unfold openLinked
  rw [llocate_join fs hf hn, h1, Res.ok_bind]
  have : ∀ next, fs.steps k next d [sDbFile] = .ok (k, d ++ [sDbFile]) := by
    intro next
    simp only [LinkFs.steps, hd]
    rw [if_neg (by simp [hn.1, hn.2.1]), if_neg hn.2.2.1]
  have hw : fs.walk k d [sDbFile] = .ok (k, d ++ [sDbFile]) := by cases k <;> exact this _
  simp only [hw]

/-- **C101** (one database, several repositories): where the folders of two repositories lead to the same directory, every command that does not look at files does the same in the one as in the
other: it ends the same way and prints the same, and leaves the same in all databases. -/
theorem C101_shared (X : Ctx) (name : Path) (cmd : Command) (hf : ¬ Command.files cmd) (hi : cmd ≠ .init) (w w' : LinkWorld) (hdb : w'.dbs = w.dbs) (hca : w'.cache = w.cache) (R R' : Repo) (q q' d : List Bytes)
    (ho : OpensLinked X w R q) (ho' : OpensLinked { X with dbPath := name } w' R' q') (hR : R.folder ≠ []) (hR' : R'.folder ≠ [])
    (hc : w.disk.canonicalize R.folder = .ok d) (hc' : w'.disk.canonicalize R'.folder = .ok d) (hd : w.disk.at d = some .dir) (hd' : w'.disk.at d = some .dir)
    (hl : ∀ t, w.disk.at (d ++ [sDbFile]) ≠ some (.link t)) (hl' : ∀ t, w'.disk.at (d ++ [sDbFile]) ≠ some (.link t)) :
    (mainLinked { X with dbPath := name } cmd w').1 = (mainLinked X cmd w).1 ∧ (mainLinked { X with dbPath := name } cmd w').2.1 = (mainLinked X cmd w).2.1 ∧
    (mainLinked { X with dbPath := name } cmd w').2.2.dbs = (mainLinked X cmd w).2.2.dbs := by
  have e1 : q = d ++ [sDbFile] := by have := ho.2.2.symm.trans (C101_where _ _ hR d hc hd hl); simpa using this
  have e2 : q' = d ++ [sDbFile] := by have := ho'.2.2.symm.trans (C101_where _ _ hR' d hc' hd' hl'); simpa using this
  subst e1 e2
  rw [mainLinked_open hi ho, mainLinked_open hi ho']
  have hb : ∀ Y : Ctx, ∀ Q : Repo, cmd.linked Y Q = SM.fst (cmd.inRepo Y Q) := by
    intro Y Q
    cases cmd <;> first | rfl | exact absurd rfl hf
  have hx : cmd.inRepo { X with dbPath := name } R' = cmd.inRepo X R := by cases cmd <;> first | rfl | exact absurd rfl hf
  unfold runInLinked
  rw [hb, hb, hx, hdb, hca]
  refine ⟨rfl, rfl, ?_⟩
  simp only [LinkWorld.setDb, SM.fst]

/-- **C101** (no other database): a command on a repository changes no database but the one that its folder leads to, and without a repository none. -/
theorem C101_only (X : Ctx) (cmd : Command) (hi : cmd ≠ .init) (w : LinkWorld) :
    (∀ R q, OpensLinked X w R q → ∀ q', q' ≠ q → (mainLinked X cmd w).2.2.dbs q' = w.dbs q') ∧ ((¬ ∃ R q, OpensLinked X w R q) → (mainLinked X cmd w).2.2.dbs = w.dbs) := by
  constructor
  · intro R q ho q' hq
    rw [mainLinked_open hi ho]
    simp [runInLinked, LinkWorld.setDb, hq]
  · intro hno
    unfold mainLinked
    cases hf : findLinked w.disk.toLinkFs X.dbPath with
    | ok found =>
      cases found with
      | none => cases cmd <;> first | rfl | exact absurd rfl hi
      | some x =>
        simp only
        cases hp : Path.parent x with
        | none => rfl
        | some root =>
          simp only
          cases hq : openLinked w.disk.toLinkFs x with
          | ok q => exact (hno ⟨⟨x, root⟩, q, hf, hp, hq⟩).elim
          | _ => rfl
    | _ => rfl

/-- **C101** (init): when it succeeds, the database that the folder leads to has `master` as its HEAD, no other database has changed, and what was there is there. -/
theorem C101_init (X : Ctx) (w : LinkWorld) (h : (mainLinked X .init w).1 = .success) :
    ∃ q, openLinked (mainLinked X .init w).2.2.disk.toLinkFs X.dbPath = .ok q ∧ getHead ((mainLinked X .init w).2.2.dbs q) = .ok (some sMaster) ∧
      (∀ q', q' ≠ q → (mainLinked X .init w).2.2.dbs q' = w.dbs q') ∧ ∀ p e, w.disk.at p = some e → (mainLinked X .init w).2.2.disk.at p = some e := by
  have hrun : mainLinked X .init w = (exitOf (runInitLinked X w).1 (Cache.finish (runInitLinked X w).1 w.cache w.cache).1, [],
      { (runInitLinked X w).2 with cache := (Cache.finish (runInitLinked X w).1 w.cache w.cache).2 }) := by
    unfold mainLinked at h ⊢
    cases hf : findLinked w.disk.toLinkFs X.dbPath with
    | ok found =>
      rw [hf] at h
      cases found with
      | none => rfl
      | some x =>
        simp only at h ⊢
        cases hp : Path.parent x with
        | none => rw [hp] at h; simp at h
        | some root =>
          rw [hp] at h
          simp only at h ⊢
          cases hq : openLinked w.disk.toLinkFs x with
          | ok q => rfl
          | _ => rw [hq] at h; simp at h
    | _ => rw [hf] at h; simp at h
  rw [hrun] at h ⊢
  simp only at h ⊢
  have hr : (runInitLinked X w).1 = .ok () := by
    cases hr : (runInitLinked X w).1 with
    | ok u => rfl
    | _ => rw [hr] at h; simp [exitOf] at h
  unfold runInitLinked at hr ⊢
  have hadd : Spec.Adds w.disk (Disk.createDirAll X.dbPath w.disk).2 :=
    (tracks_createDirAllN (P := fun _ => True) (d0 := w.disk) (X.dbPath.comps.length + 1) (p := X.dbPath) (fun _ _ => trivial) w.disk (Tracks.refl w.disk)).1.adds
  rcases hc : Disk.createDirAll X.dbPath w.disk with ⟨r, d⟩
  rw [hc] at hr hadd
  cases r with
  | ok u =>
    simp only at hr ⊢
    cases hq : openLinked d.toLinkFs X.dbPath with
    | ok q =>
      rw [hq] at hr
      simp only at hr ⊢
      refine ⟨q, hq, ?_, fun q' hq' => by simp [LinkWorld.setDb, hq'], fun p e hp => hadd.kept p e hp⟩
      simp only [LinkWorld.setDb, if_true]
      exact (C15_head _ _ utf8_master _ (Prod.ext hr rfl)).1
    | _ => rw [hq] at hr; simp at hr
  | _ => simp at hr

/-- **C101** (init where a link is in the way): where the name is a link that does not lead to a directory, be it dangling, `init` fails and changes nothing. -/
theorem C101_dangling (X : Ctx) (w : LinkWorld) (hn : okName X.dbPath) (t : Path) (hd : w.disk.at w.disk.cwd = some .dir) (hl : w.disk.at (w.disk.cwd ++ [X.dbPath]) = some (.link t))
    (hx : w.disk.isDir X.dbPath = false) :
    (mainLinked X .init w).1 ≠ .success ∧ (mainLinked X .init w).2.2.dbs = w.dbs ∧ (mainLinked X .init w).2.2.disk.toLinkFs = w.disk.toLinkFs := by
  have hs : w.disk.spotOf dropTrailing X.dbPath = .ok (w.disk.cwd ++ [X.dbPath]) := by
    unfold LinkFs.spotOf
    rw [if_neg hn.1, if_neg hn.2.2.2.2, splitSlash_noslash hn.comp.2.2, show dropTrailing [X.dbPath] = [X.dbPath] by simp [dropTrailing, hn.1], hn.comp.notAbs]
    unfold LinkFs.spot
    have hw : w.disk.walk w.disk.limit w.disk.cwd [] = .ok (w.disk.limit, w.disk.cwd) := by cases w.disk.limit <;> rfl
    simp only [List.getLast?_singleton, List.dropLast_singleton, Bool.false_eq_true, if_false, hw, Res.ok_bind, hd]
    rw [if_neg (by simp [hn.1, hn.2.1]), if_neg hn.2.2.1]
  have hmk : ∃ d, Disk.mkdir X.dbPath w.disk = (.err .io, d) ∧ d.toLinkFs = w.disk.toLinkFs := by
    unfold Disk.mkdir Disk.call
    split
    · exact ⟨_, rfl, rfl⟩
    · refine ⟨{ w.disk with faults := w.disk.faults.tail }, ?_, rfl⟩
      have hs' : ({ w.disk with faults := w.disk.faults.tail } : Disk).spotOf dropTrailing X.dbPath = .ok (w.disk.cwd ++ [X.dbPath]) := hs
      have hl' : ({ w.disk with faults := w.disk.faults.tail } : Disk).at (w.disk.cwd ++ [X.dbPath]) = some (.link t) := hl
      simp only [hs', hl']
  obtain ⟨d, hm, hdl⟩ := hmk
  have hc : Disk.createDirAll X.dbPath w.disk = (.err .io, d) := by
    unfold Disk.createDirAll Disk.createDirAllN
    rw [if_neg (by rw [comps_ok hn.comp]; simp), hm]
    simp only
    rw [hdl, hx]
    rfl
  have hi : runInitLinked X w = (.err .io, { w with disk := d }) := by
    unfold runInitLinked
    rw [hc]
  unfold mainLinked
  cases findLinked w.disk.toLinkFs X.dbPath with
  | ok found =>
    have key : (exitOf (runInitLinked X w).1 (Cache.finish (runInitLinked X w).1 w.cache w.cache).1) ≠ .success ∧ (runInitLinked X w).2.dbs = w.dbs ∧ (runInitLinked X w).2.disk.toLinkFs = w.disk.toLinkFs := by
      rw [hi]
      exact ⟨by simp [exitOf], rfl, hdl⟩
    cases found with
    | none => exact key
    | some x =>
      simp only
      cases Path.parent x with
      | none => exact ⟨by simp, rfl, rfl⟩
      | some root =>
        simp only
        cases openLinked w.disk.toLinkFs x with
        | ok q => exact key
        | _ => exact ⟨by simp, rfl, rfl⟩
  | _ => exact ⟨by simp, rfl, rfl⟩

end Snap.Props
