import Verif.Lemmas.Steps
import Verif.Props.Store
import Verif.Model.Start
/-! Properties C41–C47: commands and their transactions. -/
namespace Snap.Props
open Snap
set_option linter.unusedSectionVars false
variable [Serde] [LawfulSerde]


/-! ### The calls a command may make -/

/-- What a command may do to the database. -/
def _root_.Snap.Command.mayCall : Command → Call → Prop
  | .insert _, c => c.isPut
  | .commit _ _ _, c => c.isPut ∨ ∃ n k, c = .reflogPush n none k
  | .compare _ _ _, c => c.isPut
  | .status, c => c.isPut
  | .checkoutHead n, c => c.isPut ∨ c = .putHead n
  | .refUpdate _ _, c => ∃ n k, c = .reflogPush n none k
  | .commitTree _ _, c => c.isPut
  | .reflogPush _ n r, c => ∃ k, c = .reflogPush n r k
  | .setHead n, c => c = .putHead n
  | _, _ => False

variable {K : Call → Prop} {H : Bytes → Key} {α : Type}

theorem traced_onDb {I : Db → Prop} {x : M α} (h : Keeps id H I K x) : Keeps Sys.db H I K (onDb x) := steps_on h (fun _ => rfl) (fun _ _ => rfl)
theorem traced_onDbCache {I : Db → Prop} {x : SM (Db × Cache) α} (h : Keeps Prod.fst H I K x) : Keeps Sys.db H I K (onDbCache x) := steps_on h (fun _ => rfl) (fun _ _ => rfl)
theorem traced_onFs (x : SM Fs α) : Traced Sys.db H K (onFs x) := traced_silent fun _ => rfl
theorem traced_onP {x : P α} (h : Traced Prod.fst H K x) : Traced Sys.db H K (onP x) := steps_on h (fun _ => rfl) (fun _ _ => rfl)
theorem traced_readDb {I : Db → Prop} (f : Db → Res α) : Keeps Sys.db H I K (readDb f) := traced_read _
theorem traced_emit {I : Db → Prop} (o : Out) : Keeps Sys.db H I K (emit o) := traced_silent fun _ => rfl

theorem traced_reflogPush (n : Bytes) (r : Option Bytes) (k : Key) : Traced id H (fun c => c = .reflogPush n r k) (reflogPush n r k) := by
  intro s _ _
  exact ⟨[.reflogPush n r k], by simp, rfl, fun _ _ => trivial, fun _ _ => trivial⟩
theorem traced_putHead (n : Bytes) : Traced id H (fun c => c = .putHead n) (putHead n) := by
  intro s _ _
  exact ⟨[.putHead n], by simp, rfl, fun _ _ => trivial, fun _ _ => trivial⟩

theorem traced_compareDb (E : Env) (fs : Fs) (iter : Nat → List Path → List Path) (n : Nat) (source to : Option Key) : Traced (Prod.fst : Db × List Out → Db) H K (compareDb E fs iter n source to) := by
  refine traced_silent fun s => ?_
  unfold compareDb
  cases source with
  | none => rfl
  | some k => simp only [compare_database_state]

theorem traced_say (o : Out) : Traced (Prod.fst : Db × List Out → Db) H K (say o) := traced_silent fun _ => rfl

theorem traced_displayChanges (E : Env) (lib : DiffLib) (fs : Fs) (iter : Nat → List Path → List Path) (n : Nat) (kind : Kind) (c : Commit) :
    Traced (Prod.fst : Db × List Out → Db) H K (displayChanges E lib fs iter n kind c) := by
  unfold displayChanges
  refine traced_bind ?_ fun t => traced_bind (traced_unwrap (traced_compareDb _ _ _ _ _ _)) fun dr => ?_
  · cases c.parents with
    | nil => exact traced_pure _
    | cons p ps => exact traced_bind (traced_read _) fun _ => traced_pure _
  · cases kind with
    | stat => exact traced_bind (traced_read _) fun _ => traced_say _
    | patch => exact traced_bind (traced_read _) fun _ => traced_say _

theorem traced_displayObj (E : Env) (lib : DiffLib) (fs : Fs) (iter : Nat → List Path → List Path) (n : Nat) (kind : Kind) (f : Nat) (k : Key) :
    Traced (Prod.fst : Db × List Out → Db) H K (displayObj E lib fs iter n kind f k) := by
  induction f generalizing k with
  | zero => exact traced_lift _
  | succ f ih =>
    unfold displayObj
    refine traced_bind (traced_read _) fun o => ?_
    cases o.objtype with
    | fileBlobTree => exact traced_silent fun _ => rfl
    | fileBlob => exact traced_silent fun _ => rfl
    | fsItemFile =>
      simp only
      split
      · exact ih _
      · exact traced_panic
    | commit => exact traced_bind (traced_lift _) fun c => traced_bind (traced_say _) fun _ => traced_displayChanges _ _ _ _ _ _ _
    | fsItemDir => exact traced_say _
    | unknown => exact traced_panic

theorem traced_logLoop (E : Env) (lib : DiffLib) (fs : Fs) (iter : Nat → List Path → List Path) (n : Nat) (kind : Kind) (f : Nat) (c : Commit) :
    Traced (Prod.fst : Db × List Out → Db) H K (logLoop E lib fs iter n kind f c) := by
  induction f generalizing c with
  | zero => exact traced_lift _
  | succ f ih =>
    unfold logLoop
    cases c.parents with
    | nil => exact traced_pure _
    | cons p ps => exact traced_bind (traced_displayObj _ _ _ _ _ _ _ _) fun _ => traced_bind (traced_read _) fun c => ih c

theorem traced_logObj (E : Env) (lib : DiffLib) (fs : Fs) (iter : Nat → List Path → List Path) (n : Nat) (kind : Kind) (k : Key) :
    Traced (Prod.fst : Db × List Out → Db) H K (logObj E lib fs iter n kind k) := by
  unfold logObj
  refine traced_bind (traced_read _) fun o => ?_
  cases o.objtype with
  | commit => exact traced_bind (traced_displayObj _ _ _ _ _ _ _ _) fun _ => traced_bind (traced_read _) fun c => traced_logLoop _ _ _ _ _ _ _ _
  | _ => exact traced_panic

theorem traced_compareWork (X : Ctx) (R : Repo) (path : Path) (to : Option Key) : Traced Sys.db X.E.H Call.isPut (compareWork X R path to) := by
  unfold compareWork
  exact traced_self fun s => traced_onDbCache (traced_compare X.E s.fs _ _ _ _)

theorem traced_put_onDb (X : Ctx) (R : Repo) (path : Path) : Traced Sys.db X.E.H Call.isPut (fun s => onDb (putFsItem X.E s.fs (makeFilter X.glob R.folder) X.depth path) s : C Key) :=
  traced_self fun s => traced_onDb (traced_isPuts (isPuts_putFsItem X.E s.fs _ _ _))

theorem traced_emitAll {K : Call → Prop} {H : Bytes → Key} {α} (order : List Path → List Path) (m : PMap α) (line : Path → α → Out) : Traced Sys.db H K (emitAll order m line) := by
  refine traced_each (fun p => ?_) _
  cases m.get p with
  | none => exact traced_pure _
  | some v => exact traced_emit _

/-- Every command only makes calls of its kind. -/
theorem traced_command (X : Ctx) (R : Repo) (cmd : Command) : Traced Sys.db X.E.H cmd.mayCall (cmd.inRepo X R) := by
  cases cmd with
  | insert path => exact traced_bind (traced_put_onDb X R path) fun _ => traced_emit _
  | commit path message refname =>
    refine traced_bind (traced_readDb _) fun r => traced_bind (traced_readDb _) fun ps => traced_bind (traced_mono (traced_put_onDb X R _) fun _ h => Or.inl h) fun key =>
      traced_bind (traced_onDb (traced_mono (traced_isPuts (isPuts_commitTree _ _ _ _)) fun _ h => Or.inl h)) fun ck => traced_onDb (traced_mono (traced_reflogPush _ _ _) fun c h => Or.inr ⟨_, _, h⟩)
  | fetch key dest => exact traced_bind (traced_readDb _) fun k => traced_self fun s => traced_onFs _
  | init => exact traced_pure _
  | «show» key => exact traced_bind (traced_readDb _) fun k => traced_self fun s => traced_onP (traced_displayObj _ _ _ _ _ _ _ _)
  | log key => exact traced_bind (traced_readDb _) fun k => traced_self fun s => traced_onP (traced_logObj _ _ _ _ _ _ _)
  | compare path key stat =>
    exact traced_bind (traced_readDb _) fun k => traced_bind (traced_compareWork X R _ _) fun r => traced_ite (traced_bind (traced_readDb _) fun l => traced_emit _) (traced_emit _)
  | status =>
    refine traced_bind (traced_readDb _) fun h => traced_bind (traced_read _) fun o => ?_
    cases o with
    | none => exact traced_emit _
    | some k => exact traced_bind (traced_emit _) fun _ => traced_bind (traced_readDb _) fun c => traced_bind (traced_compareWork X R _ _) fun r => traced_emit _
  | checkout => exact traced_bind (traced_readDb _) fun k => traced_bind (traced_readDb _) fun c => traced_self fun s => traced_onFs _
  | checkoutHead refname =>
    refine traced_bind (traced_readDb _) fun h => traced_bind (traced_read _) fun o => traced_bind (traced_readDb _) fun t =>
      traced_bind (traced_mono (traced_compareWork X R _ _) fun _ h => Or.inl h) fun r =>
      traced_ite (traced_bind (traced_onDb (traced_mono (traced_putHead _) fun _ h => Or.inr h)) fun _ => traced_emit _) (traced_bind (traced_emit _) fun _ => traced_emit _)
  | refLog refname remote => exact traced_bind (traced_readDb _) fun r => traced_bind (traced_readDb _) fun ks => traced_each (fun k => traced_emit _) _
  | refUpdate key refname =>
    exact traced_bind (traced_readDb _) fun k => traced_bind (traced_readDb _) fun r => traced_onDb (traced_mono (traced_reflogPush _ _ _) fun c h => ⟨_, _, h⟩)
  | prettyPrint key => exact traced_bind (traced_readDb _) fun k => traced_bind (traced_readDb _) fun o => traced_emit _
  | commitTree tree parents =>
    exact traced_bind (traced_readDb _) fun t => traced_bind (traced_readDb _) fun ps => traced_bind (traced_onDb (traced_isPuts (isPuts_commitTree _ _ _ _))) fun k => traced_emit _
  | reflogGet refname remote => exact traced_bind (traced_readDb _) fun k => traced_emit _
  | reflogPush key refname remote => exact traced_bind (traced_readDb _) fun k => traced_onDb (traced_mono (traced_reflogPush _ _ _) fun c h => ⟨_, h⟩)
  | walkTree key => exact traced_bind (traced_readDb _) fun k => traced_bind (traced_readDb _) fun o => traced_emitAll _ _ _
  | walkFsTree path => exact traced_bind (traced_read _) fun o => traced_emitAll _ _ _
  | setHead refname => exact traced_onDb (traced_putHead _)
  | getHead =>
    exact traced_bind (traced_readDb _) fun h => traced_emit _

/-! ### What remains of it -/

/-- The tables of `b`; of the ghost list of all strings ever hashed, nothing is forgotten. -/
def SameDb (a b : Db) : Prop := SameTables a b ∧ ∀ x ∈ b.hashed, x ∈ a.hashed

theorem SameDb.refl (a : Db) : SameDb a a := ⟨SameTables.refl a, fun _ h => h⟩
theorem SameDb.trans {a b c : Db} (h : SameDb a b) (g : SameDb b c) : SameDb a c := ⟨h.1.trans g.1, fun x hx => h.2 x (g.2 x hx)⟩
theorem SameDb.inv {H : Bytes → Key} {a b : Db} (h : SameDb a b) (hi : Inv H b) : Inv H a :=
  ⟨by rw [h.1.1]; exact hi.nodup, fun r hr => by rw [h.1.1] at hr; exact ⟨(hi.rows r hr).1, h.2 _ (hi.rows r hr).2⟩⟩
theorem SameDb.noColl {H : Bytes → Key} {a b : Db} (h : SameDb a b) (hc : NoColl H a) : NoColl H b := fun x hx y hy => hc x (h.2 x hx) y (h.2 y hy)

theorem command_hashed (X : Ctx) (R : Repo) (cmd : Command) (s : Sys) : ∀ x ∈ s.db.hashed, x ∈ (cmd.inRepo X R s).2.db.hashed := by
  obtain ⟨cs, _, g2, _⟩ := traced_command X R cmd s trivial trivial
  rw [g2]
  exact calls_hashed _ _ _

/-- The database at `q` after `runIn`. -/
theorem runIn_dbs (X : Ctx) (R : Repo) (q : List Bytes) (cmd : Command) (w : World) (q' : List Bytes) (hq : q' ≠ q) : (runIn X R q cmd w).2.2.dbs q' = w.dbs q' := by
  simp [runIn, World.setDb, hq]

/-- The state in which a command starts, and its result. -/
def startOf (w : World) (q : List Bytes) : Sys := { db := w.dbs q, cache := w.cache, fs := w.fs }
/-- `COMMIT` will succeed. -/
def commitOk (db : Db) : Prop := ∀ fs, db.faults ≠ true :: fs

theorem runIn_committed (X : Ctx) (R : Repo) (q : List Bytes) (cmd : Command) (w : World) (u : Unit) (h1 : (cmd.inRepo X R (startOf w q)).1 = .ok u)
    (h2 : commitOk (cmd.inRepo X R (startOf w q)).2.db) : SameDb ((runIn X R q cmd w).2.2.dbs q) (cmd.inRepo X R (startOf w q)).2.db := by
  have hk : ∀ x ∈ (cmd.inRepo X R (startOf w q)).2.db.hashed, x ∈ (cmd.inRepo X R (startOf w q)).2.db.hashed := fun _ h => h
  simp only [runIn, World.setDb, if_true, Conn.begin, Conn.exec, Conn.view, Option.getD_some, Command.body]
  change SameDb (Conn.finish (cmd.inRepo X R (startOf w q)).1 _).durable _
  rw [h1]
  simp only [Conn.finish, Conn.commit]
  split
  · rename_i fs hf
    exact (h2 fs hf).elim
  · exact ⟨⟨rfl, rfl, rfl⟩, hk⟩

theorem runIn_lost (X : Ctx) (R : Repo) (q : List Bytes) (cmd : Command) (w : World)
    (h : (∀ u, (cmd.inRepo X R (startOf w q)).1 ≠ .ok u) ∨ ¬ commitOk (cmd.inRepo X R (startOf w q)).2.db) : SameDb ((runIn X R q cmd w).2.2.dbs q) (w.dbs q) := by
  have hk : ∀ x ∈ (w.dbs q).hashed, x ∈ (cmd.inRepo X R (startOf w q)).2.db.hashed := command_hashed X R cmd (startOf w q)
  simp only [runIn, World.setDb, if_true, Conn.begin, Conn.exec, Conn.view, Option.getD_some, Command.body]
  change SameDb (Conn.finish (cmd.inRepo X R (startOf w q)).1 (Conn.mk (w.dbs q) (some (cmd.inRepo X R (startOf w q)).2.db))).durable _
  cases hr : (cmd.inRepo X R (startOf w q)).1 with
  | ok u =>
    rcases h with h | h
    · exact (h u hr).elim
    · simp only [Conn.finish, Conn.commit]
      split
      · exact ⟨⟨rfl, rfl, rfl⟩, hk⟩
      · rename_i hf
        exact (h fun fs e => hf fs e).elim
  | err e => exact ⟨⟨rfl, rfl, rfl⟩, hk⟩
  | panic => exact ⟨⟨rfl, rfl, rfl⟩, hk⟩
  | fuel => exact ⟨⟨rfl, rfl, rfl⟩, hk⟩

/-- `main` works on the repository `R` whose database is at `q`. -/
def Opens (X : Ctx) (w : World) (R : Repo) (q : List Bytes) : Prop :=
  findDbFolder w.fs X.dbPath = .ok (some R.folder) ∧ Path.parent R.folder = some R.root ∧ openDb w.fs R.folder = .ok q

theorem mainRun_cases (X : Ctx) (cmd : Command) (hc : cmd ≠ .init) (w : World) :
    (∃ R q, Opens X w R q ∧ mainRun X cmd w = runIn X R q cmd w) ∨ (mainRun X cmd w).2.2.dbs = w.dbs := by
  unfold mainRun
  cases hf : findDbFolder w.fs X.dbPath with
  | err e => right; rfl
  | panic => right; rfl
  | fuel => right; rfl
  | ok found =>
    cases found with
    | none =>
      right
      cases cmd <;> first | exact (hc rfl).elim | rfl
    | some x =>
      simp only
      cases hp : Path.parent x with
      | none => right; rfl
      | some root =>
        simp only
        cases ho : openDb w.fs x with
        | err e => right; rfl
        | panic => right; rfl
        | fuel => right; rfl
        | ok q =>
          left
          refine ⟨⟨x, root⟩, q, ⟨hf, hp, ho⟩, ?_⟩
          cases cmd <;> first | exact (hc rfl).elim | rfl

/-- The durable effect of a command: some calls of its kind, or nothing. -/
theorem main_calls (X : Ctx) (cmd : Command) (hc : cmd ≠ .init) (w : World) (q : List Bytes) :
    ∃ cs : List Call, (∀ c ∈ cs, cmd.mayCall c) ∧ SameDb ((mainRun X cmd w).2.2.dbs q) (runCalls X.E.H cs (w.dbs q)) := by
  rcases mainRun_cases X cmd hc w with ⟨R, q', hop, e⟩ | e
  · rw [e]
    by_cases hq : q = q'
    · subst hq
      by_cases h : (∃ u, (cmd.inRepo X R (startOf w q)).1 = .ok u) ∧ commitOk (cmd.inRepo X R (startOf w q)).2.db
      · obtain ⟨⟨u, h1⟩, h2⟩ := h
        obtain ⟨cs, g1, g2, _⟩ := traced_command X R cmd (startOf w q) trivial trivial
        refine ⟨cs, g1, ?_⟩
        have := runIn_committed X R q cmd w u h1 h2
        rw [g2] at this
        exact this
      · refine ⟨[], by simp, runIn_lost X R q cmd w ?_⟩
        by_cases h1 : ∃ u, (cmd.inRepo X R (startOf w q)).1 = .ok u
        · exact Or.inr fun h2 => h ⟨h1, h2⟩
        · exact Or.inl fun u hu => h1 ⟨u, hu⟩
    · rw [runIn_dbs X R q' cmd w q hq]
      exact ⟨[], by simp, SameDb.refl _⟩
  · rw [e]
    exact ⟨[], by simp, SameDb.refl _⟩

/-! ### C41 -/

/-- **C41**: a command (other than init) that ends in an error or panics leaves every database as it was. -/
theorem C41_failed (X : Ctx) (cmd : Command) (hc : cmd ≠ .init) (w : World) (h : (∃ e, (mainRun X cmd w).1 = .fatal e) ∨ (mainRun X cmd w).1 = .panicked ∨ (mainRun X cmd w).1 = .fuel)
    (q : List Bytes) : SameTables ((mainRun X cmd w).2.2.dbs q) (w.dbs q) := by
  rcases mainRun_cases X cmd hc w with ⟨R, q', hop, e⟩ | e
  · rw [e] at h ⊢
    by_cases hq : q = q'
    · subst hq
      refine (runIn_lost X R q cmd w (Or.inl fun u hu => ?_)).1
      have : (runIn X R q cmd w).1 = exitOf (cmd.inRepo X R (startOf w q)).1 (Cache.finish (cmd.inRepo X R (startOf w q)).1 w.cache (cmd.inRepo X R (startOf w q)).2.cache).1 := rfl
      rw [this, hu] at h
      simp only [exitOf] at h
      split at h <;> simp at h
    · rw [runIn_dbs X R q' cmd w q hq]
      exact SameTables.refl _
  · rw [e]
    exact SameTables.refl _

/-- C41, the other direction: the exit status does not tell whether the changes have been kept. If `COMMIT` fails, a command that succeeded still exits with the status of
success (or, if the cache cannot be committed either, 1), and nothing has changed. -/
theorem C41_lost_commit (X : Ctx) (R : Repo) (q : List Bytes) (cmd : Command) (hc : cmd ≠ .init) (w : World) (ho : Opens X w R q)
    (hr : (cmd.inRepo X R (startOf w q)).1 = .ok ()) (hf : ¬ commitOk (cmd.inRepo X R (startOf w q)).2.db) :
    SameTables ((mainRun X cmd w).2.2.dbs q) (w.dbs q) ∧ (w.cache.faults = [] → (cmd.inRepo X R (startOf w q)).2.cache.faults = [] → (mainRun X cmd w).1 = .success) := by
  have e : mainRun X cmd w = runIn X R q cmd w := by
    obtain ⟨h1, h2, h3⟩ := ho
    unfold mainRun
    rw [h1]
    simp only
    rw [h2]
    simp only [h3]
    cases cmd <;> first | exact (hc rfl).elim | rfl
  rw [e]
  refine ⟨(runIn_lost X R q cmd w (Or.inr hf)).1, fun _ h2 => ?_⟩
  have : (runIn X R q cmd w).1 = exitOf (cmd.inRepo X R (startOf w q)).1 (Cache.finish (cmd.inRepo X R (startOf w q)).1 w.cache (cmd.inRepo X R (startOf w q)).2.cache).1 := rfl
  rw [this, hr]
  simp [Cache.finish, h2, exitOf]

/-! ### C42 -/

theorem conn_calls (H : Bytes → Key) (d v : Db) (cs : List Call) (rest : List ConnOp) :
    (Conn.mk d (some v)).run H (cs.map .call ++ rest) = (Conn.mk d (some (runCalls H cs v))).run H rest := by
  induction cs generalizing v with
  | nil => rfl
  | cons c cs ih => exact ih _

theorem conn_append (H : Bytes → Key) (c : Conn) (a b : List ConnOp) : c.run H (a ++ b) = (c.run H a).run H b := by
  induction a generalizing c with
  | nil => rfl
  | cons x a ih => exact ih _

/-- **C42**: what a command (other than init) does to the database is: begin, some calls of its kind, the end of the transaction, and the end of the connection. If the
process is killed at any point of this, what is left is the database before the command or the one after it. -/
theorem C42_atomic (X : Ctx) (cmd : Command) (hc : cmd ≠ .init) (w : World) (R : Repo) (q : List Bytes) (ho : Opens X w R q) :
    ∃ cs last, (∀ c ∈ cs, cmd.mayCall c) ∧ (last = .commit ∨ last = .rollback ∨ last = .crash) ∧
      (cmd.inRepo X R (startOf w q)).2.db = runCalls X.E.H cs (w.dbs q) ∧
      ((Conn.mk (w.dbs q) none).run X.E.H (.begin :: cs.map .call ++ [last, .crash])).durable = (mainRun X cmd w).2.2.dbs q ∧
      ∀ ops, ops <+: .begin :: cs.map .call ++ [last, .crash] →
        SameDb ((Conn.mk (w.dbs q) none).run X.E.H ops).crash.durable (w.dbs q) ∨
        SameDb ((Conn.mk (w.dbs q) none).run X.E.H ops).crash.durable ((mainRun X cmd w).2.2.dbs q) := by
  have e : mainRun X cmd w = runIn X R q cmd w := by
    obtain ⟨h1, h2, h3⟩ := ho
    unfold mainRun
    rw [h1]
    simp only
    rw [h2]
    simp only [h3]
    cases cmd <;> first | exact (hc rfl).elim | rfl
  obtain ⟨cs, g1, g2, _⟩ := traced_command X R cmd (startOf w q) trivial trivial
  let last : ConnOp := match (cmd.inRepo X R (startOf w q)).1 with | .ok _ => .commit | .err _ => .rollback | _ => .crash
  have hlast : last = .commit ∨ last = .rollback ∨ last = .crash := by
    simp only [last]
    split <;> simp
  have hrun : ∀ rest, (Conn.mk (w.dbs q) none).run X.E.H (.begin :: cs.map .call ++ rest) = (Conn.mk (w.dbs q) (some (runCalls X.E.H cs (w.dbs q)))).run X.E.H rest :=
    fun rest => conn_calls X.E.H (w.dbs q) (w.dbs q) cs rest
  have hfin : ((Conn.mk (w.dbs q) none).run X.E.H (.begin :: cs.map .call ++ [last, .crash])).durable = (mainRun X cmd w).2.2.dbs q := by
    rw [e, hrun]
    have hd : (runIn X R q cmd w).2.2.dbs q = (Conn.finish (cmd.inRepo X R (startOf w q)).1 (Conn.mk (w.dbs q) (some (cmd.inRepo X R (startOf w q)).2.db))).durable := by
      simp only [runIn, World.setDb, if_true, Conn.begin, Conn.exec, Conn.view, Option.getD_some, Command.body]
      rfl
    rw [hd, g2]
    simp only [last]
    cases (cmd.inRepo X R (startOf w q)).1 <;> rfl
  refine ⟨cs, last, g1, hlast, g2, hfin, ?_⟩
  intro ops hop
  rcases prefix_split hop with hop | ⟨es, rfl, he⟩
  · left
    cases ops with
    | nil => exact SameDb.refl _
    | cons o os =>
      obtain ⟨t, ht⟩ := hop
      simp only [List.cons_append, List.cons.injEq] at ht
      obtain ⟨rfl, ht⟩ := ht
      have : ∃ ds : List Call, os = ds.map .call := by
        obtain ⟨a, b, _, h2, _⟩ := List.map_eq_append_iff.mp ht.symm
        exact ⟨a, h2.symm⟩
      obtain ⟨ds, rfl⟩ := this
      have := conn_calls X.E.H (w.dbs q) (w.dbs q) ds []
      rw [List.append_nil] at this
      show SameDb ((Conn.mk (w.dbs q) (some (w.dbs q))).run X.E.H (ds.map .call)).crash.durable _
      rw [this]
      exact ⟨⟨rfl, rfl, rfl⟩, calls_hashed _ _ _⟩
  · cases es with
    | nil =>
      left
      have := hrun []
      rw [this]
      exact ⟨⟨rfl, rfl, rfl⟩, calls_hashed _ _ _⟩
    | cons o es =>
      right
      rw [← hfin, hrun, hrun]
      obtain ⟨t, ht⟩ := he
      simp only [List.cons_append, List.cons.injEq] at ht
      obtain ⟨rfl, ht⟩ := ht
      cases es with
      | nil => exact SameDb.refl _
      | cons o' es =>
        simp only [List.cons_append, List.cons.injEq] at ht
        obtain ⟨rfl, ht⟩ := ht
        have := List.append_eq_nil_iff.mp ht
        obtain ⟨rfl, _⟩ := this
        exact ⟨⟨rfl, rfl, rfl⟩, fun _ h => h⟩

/-! ### What calls leave alone -/

def _root_.Snap.Call.onData : Call → Prop
  | .put _ | .rawPut _ _ => True
  | _ => False
def _root_.Snap.Call.onState : Call → Prop
  | .putState _ _ | .putHead _ => True
  | _ => False
def _root_.Snap.Call.onReflog : Call → Prop
  | .reflogPush _ _ _ => True
  | _ => False

theorem run_keeps (H : Bytes → Key) (db : Db) (c : Call) : (¬ c.onData → (c.run H db).2.data = db.data) ∧ (¬ c.onState → (c.run H db).2.state = db.state) ∧
    (¬ c.onReflog → (c.run H db).2.reflog = db.reflog) := by
  rcases c.run_cases H db with ⟨_, h1, h2, h3⟩ | ⟨_, h1, h2, h3⟩
  · exact ⟨fun _ => h1, fun _ => h2, fun _ => h3⟩
  · rw [h1, h2, h3]
    cases c <;> simp [Call.onData, Call.onState, Call.onReflog, Call.eff]

theorem calls_data (H : Bytes → Key) (cs : List Call) (db : Db) (h : ∀ c ∈ cs, ¬ c.onData) : (runCalls H cs db).data = db.data := by
  induction cs generalizing db with
  | nil => rfl
  | cons c cs ih => exact (ih _ fun c hc => h c (by simp [hc])).trans ((run_keeps H db c).1 (h c (by simp)))

theorem calls_state (H : Bytes → Key) (cs : List Call) (db : Db) (h : ∀ c ∈ cs, ¬ c.onState) : (runCalls H cs db).state = db.state := by
  induction cs generalizing db with
  | nil => rfl
  | cons c cs ih => exact (ih _ fun c hc => h c (by simp [hc])).trans ((run_keeps H db c).2.1 (h c (by simp)))

theorem calls_reflog (H : Bytes → Key) (cs : List Call) (db : Db) (h : ∀ c ∈ cs, ¬ c.onReflog) : (runCalls H cs db).reflog = db.reflog := by
  induction cs generalizing db with
  | nil => rfl
  | cons c cs ih => exact (ih _ fun c hc => h c (by simp [hc])).trans ((run_keeps H db c).2.2 (h c (by simp)))

/-- Every list of calls only adds to the reflog, and what it adds are the encodings of keys. -/
theorem calls_reflog_prefix (H : Bytes → Key) (cs : List Call) (db : Db) :
    ∃ l : List (Bytes × Option Bytes × Key), (runCalls H cs db).reflog = db.reflog ++ l.map fun e => ⟨e.1, e.2.1, e.2.2.asDbKey⟩ := by
  induction cs generalizing db with
  | nil => exact ⟨[], by simp [runCalls]⟩
  | cons c cs ih =>
    obtain ⟨l, hl⟩ := ih (c.run H db).2
    have : ∃ l : List (Bytes × Option Bytes × Key), (c.run H db).2.reflog = db.reflog ++ l.map fun e => ⟨e.1, e.2.1, e.2.2.asDbKey⟩ := by
      rcases c.run_cases H db with ⟨_, _, _, h⟩ | ⟨_, _, _, h⟩
      · exact ⟨[], by simpa using h⟩
      · rw [h]
        cases c with
        | reflogPush n r k => exact ⟨[(n, r, k)], by simp [Call.eff]⟩
        | put => exact ⟨[], by simp [Call.eff]⟩
        | rawPut => exact ⟨[], by simp [Call.eff]⟩
        | putState => exact ⟨[], by simp [Call.eff]⟩
        | putHead => exact ⟨[], by simp [Call.eff]⟩
    obtain ⟨l', hl'⟩ := this
    refine ⟨l' ++ l, ?_⟩
    show (runCalls H cs (c.run H db).2).reflog = _
    rw [hl, hl']
    simp

/-- State entries that are not written keep their value. -/
theorem calls_state_key (H : Bytes → Key) (cs : List Call) (db : Db) (k : Bytes) (h : ∀ c ∈ cs, Spec.stateWrites k [c] = []) :
    rawGetState (runCalls H cs db) k = rawGetState db k := by
  induction cs generalizing db with
  | nil => rfl
  | cons c cs ih =>
    refine (ih (c.run H db).2 fun c hc => h c (by simp [hc])).trans ?_
    have := h c (by simp)
    rcases c.run_cases H db with ⟨_, hs⟩ | ⟨_, hs⟩
    · simp only [rawGetState, hs.2.1]
    · simp only [rawGetState, hs.2.1]
      cases c with
      | putState a v =>
        have : ¬ a = k := by simpa [Spec.stateWrites] using this
        simp [Call.eff, insertReplace_assoc, this]
      | putHead v =>
        have : ¬ sHEAD = k := by simpa [Spec.stateWrites, sHEAD] using this
        simp [Call.eff, insertReplace_assoc, this]
      | put d => rfl
      | rawPut a v => rfl
      | reflogPush a b d => rfl

/-! ### C44 -/

theorem runInit_cases (X : Ctx) (w : World) : ((runInit X w).2.dbs = w.dbs ∧ (runInit X w).1 ≠ .ok ()) ∨
    ∃ q, openDb (runInit X w).2.fs X.dbPath = .ok q ∧ (runInit X w).2.dbs = (w.setDb q (putHead sMaster (w.dbs q)).2).dbs ∧
      (runInit X w).1 = (putHead sMaster (w.dbs q)).1 := by
  unfold runInit
  cases hcd : Fs.createDirAll X.dbPath w.fs with
  | mk r fs =>
    cases r with
    | ok u =>
      simp only
      cases ho : openDb fs X.dbPath with
      | ok q => right; exact ⟨q, ho, rfl, rfl⟩
      | err e => left; exact ⟨rfl, nofun⟩
      | panic => left; exact ⟨rfl, nofun⟩
      | fuel => left; exact ⟨rfl, nofun⟩
    | err e => left; exact ⟨rfl, nofun⟩
    | panic => left; exact ⟨rfl, nofun⟩
    | fuel => left; exact ⟨rfl, nofun⟩

theorem init_main (X : Ctx) (w : World) : ((mainRun X .init w).2.2 = w ∧ (mainRun X .init w).1 ≠ .success) ∨
    ((mainRun X .init w).2.2.dbs = (runInit X w).2.dbs ∧ (mainRun X .init w).2.2.fs = (runInit X w).2.fs ∧
      ((mainRun X .init w).1 = .success → (runInit X w).1 = .ok ())) := by
  have hs : ∀ (r : Res Unit) b, exitOf r b = .success → r = .ok () := by
    intro r b h
    cases r <;> simp [exitOf] at h
    rfl
  unfold mainRun
  cases hf : findDbFolder w.fs X.dbPath with
  | err e => left; exact ⟨rfl, nofun⟩
  | panic => left; exact ⟨rfl, nofun⟩
  | fuel => left; exact ⟨rfl, nofun⟩
  | ok found =>
    cases found with
    | none => right; exact ⟨rfl, rfl, hs _ _⟩
    | some x =>
      simp only
      cases hp : Path.parent x with
      | none => left; exact ⟨rfl, nofun⟩
      | some root =>
        simp only
        cases ho : openDb w.fs x with
        | err e => left; exact ⟨rfl, nofun⟩
        | panic => left; exact ⟨rfl, nofun⟩
        | fuel => left; exact ⟨rfl, nofun⟩
        | ok q => right; exact ⟨rfl, rfl, hs _ _⟩

theorem init_calls (X : Ctx) (w : World) (q : List Bytes) :
    ∃ cs : List Call, (∀ c ∈ cs, c = .putHead sMaster) ∧ SameDb ((mainRun X .init w).2.2.dbs q) (runCalls X.E.H cs (w.dbs q)) := by
  have none' : (mainRun X .init w).2.2.dbs = w.dbs → ∃ cs : List Call, (∀ c ∈ cs, c = .putHead sMaster) ∧ SameDb ((mainRun X .init w).2.2.dbs q) (runCalls X.E.H cs (w.dbs q)) :=
    fun h => ⟨[], by simp, by rw [h]; exact SameDb.refl _⟩
  rcases init_main X w with ⟨h, _⟩ | ⟨h, _, _⟩
  · exact none' (by rw [h])
  · rcases runInit_cases X w with ⟨h', _⟩ | ⟨q', _, h', _⟩
    · exact none' (h.trans h')
    · by_cases hq : q = q'
      · subst hq
        refine ⟨[.putHead sMaster], by simp, ?_⟩
        rw [h, h']
        simp only [World.setDb, if_true]
        exact SameDb.refl _
      · refine ⟨[], by simp, ?_⟩
        rw [h, h']
        simp [World.setDb, hq]
        exact SameDb.refl _

theorem utf8_master : utf8 sMaster = true := by decide +kernel

/-- **C44**: `init` keeps the objects and the refs of every database, and every state entry but HEAD; after a successful one HEAD of the database at the given path is
"master" (whatever it was before) and no other database has changed. -/
theorem C44_init (X : Ctx) (w : World) :
    (∀ q, ((mainRun X .init w).2.2.dbs q).data = (w.dbs q).data ∧ ((mainRun X .init w).2.2.dbs q).reflog = (w.dbs q).reflog ∧
      ∀ k, k ≠ sHEAD → rawGetState ((mainRun X .init w).2.2.dbs q) k = rawGetState (w.dbs q) k) ∧
    ((mainRun X .init w).1 = .success → ∃ q, openDb (mainRun X .init w).2.2.fs X.dbPath = .ok q ∧ getHead ((mainRun X .init w).2.2.dbs q) = .ok (some sMaster) ∧
      ∀ q', q' ≠ q → (mainRun X .init w).2.2.dbs q' = w.dbs q') := by
  constructor
  · intro q
    obtain ⟨cs, h1, ⟨h2, h3, h4⟩, _⟩ := init_calls X w q
    refine ⟨h2.trans (calls_data _ _ _ fun c hc => ?_), h4.trans (calls_reflog _ _ _ fun c hc => ?_), fun k hk => ?_⟩
    · rw [h1 c hc]; exact nofun
    · rw [h1 c hc]; exact nofun
    · have : rawGetState ((mainRun X .init w).2.2.dbs q) k = rawGetState (runCalls X.E.H cs (w.dbs q)) k := by
        simp only [rawGetState, h3]
      refine this.trans (calls_state_key _ _ _ _ fun c hc => ?_)
      rw [h1 c hc]
      have : ¬ sHEAD = k := fun e => hk e.symm
      simpa [Spec.stateWrites, sHEAD] using this
  · intro hs
    rcases init_main X w with ⟨_, h⟩ | ⟨h, hfs, h1⟩
    · exact (h hs).elim
    · rcases runInit_cases X w with ⟨_, h'⟩ | ⟨q, a1, a2, a3⟩
      · exact (h' (h1 hs)).elim
      · refine ⟨q, by rw [hfs, a1], ?_, fun q' hq => by rw [h, a2]; simp [World.setDb, hq]⟩
        rw [h, a2]
        simp only [World.setDb, if_true]
        exact (C15_head _ _ utf8_master _ (Prod.ext (a3 ▸ h1 hs) rfl)).1

/-! ### C43 -/

/-- What may happen to the world: a command is run, with any options; a command is run and killed at some point (`C42_atomic` says what that leaves of the databases);
anything is done to the files and to the cache; a command is run though something fails as the program starts or ends, so perhaps without a transaction, where each of its
writes stays. (That such a command is killed before a write is represented by that write failing, which is then its last: `C91_stops`.) -/
inductive _root_.Snap.World.Step (H : Bytes → Key) : World → World → Prop where
  | run (X : Ctx) (hX : X.E.H = H) (cmd : Command) (w : World) : Step H w (mainRun X cmd w).2.2
  | killed (X : Ctx) (hX : X.E.H = H) (cmd : Command) (w w' : World)
      (h : ∀ q, SameDb (w'.dbs q) (w.dbs q) ∨ SameDb (w'.dbs q) ((mainRun X cmd w).2.2.dbs q)) : Step H w w'
  | edit (w w' : World) (h : ∀ q, SameDb (w'.dbs q) (w.dbs q)) : Step H w w'
  | started (st : Starts) (X : Ctx) (hX : X.E.H = H) (cmd : Command) (w w' : World) (h : ∀ q, SameDb (w'.dbs q) ((mainStart st X cmd w).2.2.dbs q)) : Step H w w'

theorem starts_finish (st : Starts) (r : Res Unit) (d v : Db) : (st.finish r (Conn.mk d (some v))).durable = (Conn.finish r (Conn.mk d (some v))).durable := by
  cases r with
  | err e =>
    simp only [Starts.finish, Conn.finish]
    split <;> rfl
  | ok u => rfl
  | panic => rfl
  | fuel => rfl

/-- With its transaction a command does what it does in `mainRun`, whether or not rolling back succeeds. -/
theorem runStarted_held {st : Starts} (hb : st.begins = true) (X : Ctx) (R : Repo) (q : List Bytes) (cmd : Command) (w : World) :
    runStarted st X R q cmd w = (st.exit (runIn X R q cmd w).1, (runIn X R q cmd w).2) := by
  simp only [runStarted, runIn, hb, if_true, Conn.begin, Conn.exec, Conn.view, Option.getD_some, starts_finish]

/-- A command without its transaction: all that it wrote stays, and nothing else is different. -/
theorem runStarted_unheld {st : Starts} (hb : st.begins = false) (X : Ctx) (R : Repo) (q : List Bytes) (cmd : Command) (w : World) :
    runStarted st X R q cmd w = (st.exit (runIn X R q cmd w).1, (runIn X R q cmd w).2.1, (runIn X R q cmd w).2.2.setDb q (cmd.inRepo X R (startOf w q)).2.db) := by
  have e : runStarted st X R q cmd w = (let s := cmd.inRepo X R (startOf w q)
      let ca := Cache.finish s.1 w.cache s.2.cache
      (st.exit (exitOf s.1 ca.1), s.2.out, World.setDb { w with fs := s.2.fs, cache := ca.2 } q (st.finish s.1 (Conn.mk s.2.db none)).durable)) := by
    simp only [runStarted, hb]; rfl
  have e' : runIn X R q cmd w = (let s := cmd.inRepo X R (startOf w q)
      let ca := Cache.finish s.1 w.cache s.2.cache
      (exitOf s.1 ca.1, s.2.out, World.setDb { w with fs := s.2.fs, cache := ca.2 } q (Conn.finish s.1 (Conn.mk (w.dbs q) (some s.2.db))).durable)) := rfl
  have hf : ∀ (r : Res Unit) d, (st.finish r (Conn.mk d none)).durable = d := by
    intro r d
    cases r with
    | err e => simp only [Starts.finish]; split <;> rfl
    | ok u => rfl
    | panic => rfl
    | fuel => rfl
  rw [e, e']
  simp only [hf, World.setDb]
  refine congrArg _ (congrArg _ (congrArg (fun f => World.mk _ f _) (funext fun q' => ?_)))
  split <;> rfl

/-- Nothing fails before the command. -/
def _root_.Snap.Starts.ready (st : Starts) : Prop := st.callback = true ∧ st.cache = true ∧ st.cacheBegins = true

/-- Failing to start, starting as usual, or going without a transaction. -/
theorem mainStart_cases (st : Starts) (X : Ctx) (cmd : Command) (w : World) :
    (¬ st.ready ∧ (mainStart st X cmd w).2 = ([], w) ∧ ((∃ e, (mainStart st X cmd w).1 = .failure e) ∨ (mainStart st X cmd w).1 = .panicked ∨ (mainStart st X cmd w).1 = .fuel)) ∨
    (st.ready ∧ mainStart st X cmd w = (st.exit (mainRun X cmd w).1, (mainRun X cmd w).2)) ∨
    (st.ready ∧ st.begins = false ∧ cmd ≠ .init ∧ ∃ R q, Opens X w R q ∧ mainStart st X cmd w = runStarted st X R q cmd w) := by
  by_cases hr : st.ready
  · obtain ⟨h1, h2, h3⟩ := id hr
    refine .inr ?_
    simp only [mainStart, h1, h2, h3, Bool.not_true, Bool.false_eq_true, if_false]
    unfold mainRun
    cases hf : findDbFolder w.fs X.dbPath with
    | err e => exact .inl ⟨hr, rfl⟩
    | panic => exact .inl ⟨hr, rfl⟩
    | fuel => exact .inl ⟨hr, rfl⟩
    | ok found =>
      cases found with
      | none => exact .inl ⟨hr, by cases cmd <;> rfl⟩
      | some x =>
        simp only
        cases hp : Path.parent x with
        | none => exact .inl ⟨hr, rfl⟩
        | some root =>
          simp only
          cases ho : openDb w.fs x with
          | err e => exact .inl ⟨hr, rfl⟩
          | panic => exact .inl ⟨hr, rfl⟩
          | fuel => exact .inl ⟨hr, rfl⟩
          | ok q =>
            cases h4 : st.begins with
            | true => exact .inl ⟨hr, by cases cmd <;> first | rfl | exact runStarted_held h4 X _ _ _ _⟩
            | false =>
              by_cases hi : cmd = .init
              · subst hi; exact .inl ⟨hr, rfl⟩
              · exact .inr ⟨hr, rfl, hi, ⟨x, root⟩, q, ⟨hf, hp, ho⟩, by cases cmd <;> first | exact (hi rfl).elim | rfl⟩
  · refine .inl ⟨hr, ?_⟩
    unfold mainStart
    cases h1 : st.callback with
    | false => exact ⟨rfl, .inl ⟨_, rfl⟩⟩
    | true =>
      simp only [Bool.not_true, Bool.false_eq_true, if_false]
      have hrest : ∀ r : Exit × List Out × World, let x := (if (!st.cache) = true then (Exit.failure .io, [], w) else if (!st.cacheBegins) = true then (.failure .sqlite, [], w) else r)
          x.2 = ([], w) ∧ ((∃ e, x.1 = .failure e) ∨ x.1 = .panicked ∨ x.1 = .fuel) := by
        intro r
        cases h2 : st.cache with
        | false => exact ⟨rfl, .inl ⟨_, rfl⟩⟩
        | true =>
          cases h3 : st.cacheBegins with
          | false => exact ⟨rfl, .inl ⟨_, rfl⟩⟩
          | true => exact (hr ⟨h1, h2, h3⟩).elim
      cases hf : findDbFolder w.fs X.dbPath with
      | err e => exact ⟨rfl, .inl ⟨_, rfl⟩⟩
      | panic => exact ⟨rfl, .inr (.inl rfl)⟩
      | fuel => exact ⟨rfl, .inr (.inr rfl)⟩
      | ok found =>
        cases found with
        | none => exact hrest _
        | some x =>
          simp only
          cases hp : Path.parent x with
          | none => exact ⟨rfl, .inr (.inl rfl)⟩
          | some root =>
            simp only
            cases ho : openDb w.fs x with
            | err e => exact ⟨rfl, .inl ⟨_, rfl⟩⟩
            | panic => exact ⟨rfl, .inr (.inl rfl)⟩
            | fuel => exact ⟨rfl, .inr (.inr rfl)⟩
            | ok q => exact hrest _

/-- What can have become of a database. -/
theorem mainStart_dbs (st : Starts) (X : Ctx) (cmd : Command) (w : World) (q : List Bytes) :
    (mainStart st X cmd w).2.2.dbs q = w.dbs q ∨ (mainStart st X cmd w).2.2.dbs q = (mainRun X cmd w).2.2.dbs q ∨
    ∃ R, Opens X w R q ∧ (mainStart st X cmd w).2.2.dbs q = (cmd.inRepo X R (startOf w q)).2.db := by
  rcases mainStart_cases st X cmd w with ⟨_, e, _⟩ | ⟨_, e⟩ | ⟨_, hb, _, R, q', ho, e⟩
  · exact .inl (by rw [e])
  · exact .inr (.inl (by rw [e]))
  · rw [e, runStarted_unheld hb]
    by_cases hq : q = q'
    · subst hq
      exact .inr (.inr ⟨R, ho, by simp [World.setDb]⟩)
    · exact .inl (by simp only [World.setDb, hq, if_false]; exact runIn_dbs X R q' cmd w q hq)

/-- Any number of these. -/
inductive _root_.Snap.World.Steps (H : Bytes → Key) : World → World → Prop where
  | refl (w : World) : Steps H w w
  | tail {a b c : World} (h : Steps H a b) (s : World.Step H b c) : Steps H a c

/-- The calls of all commands. -/
def _root_.Snap.Command.calls (cmd : Command) (c : Call) : Prop := cmd.mayCall c ∨ (cmd = .init ∧ c = .putHead sMaster)

theorem any_calls (X : Ctx) (cmd : Command) (w : World) (q : List Bytes) :
    ∃ cs : List Call, (∀ c ∈ cs, cmd.calls c) ∧ SameDb ((mainRun X cmd w).2.2.dbs q) (runCalls X.E.H cs (w.dbs q)) := by
  by_cases h : cmd = .init
  · subst h
    obtain ⟨cs, h1, h2⟩ := init_calls X w q
    exact ⟨cs, fun c hc => Or.inr ⟨rfl, h1 c hc⟩, h2⟩
  · obtain ⟨cs, h1, h2⟩ := main_calls X cmd h w q
    exact ⟨cs, fun c hc => Or.inl (h1 c hc), h2⟩

theorem step_calls {H : Bytes → Key} {w w' : World} (h : World.Step H w w') (q : List Bytes) :
    ∃ cs : List Call, (∀ c ∈ cs, ∃ cmd : Command, cmd.calls c) ∧ SameDb (w'.dbs q) (runCalls H cs (w.dbs q)) := by
  cases h with
  | run X hX cmd w =>
    obtain ⟨cs, h1, h2⟩ := any_calls X cmd w q
    exact ⟨cs, fun c hc => ⟨cmd, h1 c hc⟩, hX ▸ h2⟩
  | killed X hX cmd w w' h =>
    rcases h q with h | h
    · exact ⟨[], by simp, h⟩
    · obtain ⟨cs, h1, h2⟩ := any_calls X cmd w q
      exact ⟨cs, fun c hc => ⟨cmd, h1 c hc⟩, h.trans (hX ▸ h2)⟩
  | edit w w' h => exact ⟨[], by simp, h q⟩
  | started st X hX cmd w w' h =>
    have hq := h q
    rcases mainStart_dbs st X cmd w q with e | e | ⟨R, _, e⟩
    · exact ⟨[], by simp, e ▸ hq⟩
    · obtain ⟨cs, h1, h2⟩ := any_calls X cmd w q
      exact ⟨cs, fun c hc => ⟨cmd, h1 c hc⟩, (e ▸ hq).trans (hX ▸ h2)⟩
    · obtain ⟨cs, g1, g2, _⟩ := traced_command X R cmd (startOf w q) trivial trivial
      rw [e, g2, hX] at hq
      exact ⟨cs, fun c hc => ⟨cmd, .inl (g1 c hc)⟩, hq⟩

theorem mapRes_append_ok {α β : Type} {f : α → Res β} {l m : List α} {xs ys : List β} (h1 : mapRes f l = .ok xs) (h2 : mapRes f m = .ok ys) :
    mapRes f (l ++ m) = .ok (xs ++ ys) := by
  induction l generalizing xs with
  | nil => simp only [mapRes, Res.ok.injEq] at h1; subst h1; exact h2
  | cons a l ih =>
    simp only [List.cons_append, mapRes] at h1 ⊢
    obtain ⟨b, hb, h1⟩ := Res.bind_eq_ok h1
    obtain ⟨bs, hbs, h1⟩ := Res.bind_eq_ok h1
    simp only [pure, Res.ok.injEq] at h1
    subst h1
    rw [hb, ih hbs]
    rfl

theorem reflogWalk_append {a b : Db} {l : List (Bytes × Option Bytes × Key)} (h : b.reflog = a.reflog ++ l.map fun e => ⟨e.1, e.2.1, e.2.2.asDbKey⟩)
    {n : Bytes} {r : Option Bytes} {ks : List Key} (hk : reflogWalk a n r = .ok ks) :
    reflogWalk b n r = .ok (((l.filter fun e => decide (e.1 = n ∧ e.2.1 = r)).map (·.2.2)).reverse ++ ks) := by
  have hrows : refRows b n r = refRows a n r ++ (l.filter fun e => decide (e.1 = n ∧ e.2.1 = r)).map fun e => ⟨e.1, e.2.1, e.2.2.asDbKey⟩ := by
    simp only [refRows, h, List.filter_append, List.filter_map]
    congr 2
    apply List.filter_congr
    intro e _
    rw [Bool.eq_iff_iff]
    simp
  unfold reflogWalk at hk ⊢
  rw [hrows, List.reverse_append]
  refine mapRes_append_ok (mapRes_fromDbKey ((l.filter fun e => decide (e.1 = n ∧ e.2.1 = r)).map (·.2.2)).reverse _ (by simp [List.map_reverse])) hk

/-- **C43**: whatever commands are run, completed or killed: what was stored is stored, unchanged, and the history of every ref is continued, in every database. -/
theorem C43_kept {H : Bytes → Key} {w w' : World} (h : World.Steps H w w') (q : List Bytes) :
    (∀ k v, rawGet (w.dbs q) k = .ok v → rawGet (w'.dbs q) k = .ok v) ∧
    ∀ n r ks, reflogWalk (w.dbs q) n r = .ok ks → ∃ new, reflogWalk (w'.dbs q) n r = .ok (new ++ ks) := by
  induction h with
  | refl => exact ⟨fun _ _ h => h, fun _ _ ks h => ⟨[], h⟩⟩
  | tail h s ih =>
    rename_i b c
    obtain ⟨cs, _, ⟨h1, h2, h3⟩, _⟩ := step_calls s q
    obtain ⟨i1, i2⟩ := ih
    constructor
    · intro k v hv
      have := i1 k v hv
      have hp := runCalls_data_prefix H cs (b.dbs q)
      rw [← h1] at hp
      exact rawGet_mono hp this
    · intro n r ks hk
      obtain ⟨new, hn⟩ := i2 n r ks hk
      obtain ⟨l, hl⟩ := calls_reflog_prefix H cs (b.dbs q)
      rw [← h3] at hl
      exact ⟨_, by rw [reflogWalk_append hl hn, ← List.append_assoc]⟩

/-! ### C45, C46 -/

/-- **C45**: the commands that only read change no database, whatever their outcome. -/
theorem C45_readonly (X : Ctx) (cmd : Command) (hc : (∃ k d, cmd = .fetch k d) ∨ (∃ k, cmd = .show k) ∨ (∃ k, cmd = .log k) ∨ cmd = .checkout ∨ (∃ n r, cmd = .refLog n r) ∨
      (∃ k, cmd = .prettyPrint k) ∨ (∃ k, cmd = .walkTree k) ∨ (∃ p, cmd = .walkFsTree p) ∨ (∃ n r, cmd = .reflogGet n r) ∨ cmd = .getHead)
    (w : World) (q : List Bytes) : SameTables ((mainRun X cmd w).2.2.dbs q) (w.dbs q) := by
  have hno : ∀ c, ¬ cmd.mayCall c := by
    rcases hc with ⟨_, _, rfl⟩ | ⟨_, rfl⟩ | ⟨_, rfl⟩ | rfl | ⟨_, _, rfl⟩ | ⟨_, rfl⟩ | ⟨_, rfl⟩ | ⟨_, rfl⟩ | ⟨_, _, rfl⟩ | rfl <;> exact fun c h => h
  have hi : cmd ≠ .init := by
    rcases hc with ⟨_, _, rfl⟩ | ⟨_, rfl⟩ | ⟨_, rfl⟩ | rfl | ⟨_, _, rfl⟩ | ⟨_, rfl⟩ | ⟨_, rfl⟩ | ⟨_, rfl⟩ | ⟨_, _, rfl⟩ | rfl <;> exact nofun
  obtain ⟨cs, h1, h2⟩ := main_calls X cmd hi w q
  cases cs with
  | nil => exact h2.1
  | cons c cs => exact (hno c (h1 c (by simp))).elim

theorem isPut_keeps {c : Call} (h : c.isPut) : ¬ c.onState ∧ ¬ c.onReflog := by
  cases c <;> simp_all [Call.isPut, Call.onState, Call.onReflog]

/-- **C46**: status, compare, insert and commit-tree move no ref and not HEAD, whatever their outcome, and keep every object (C43). -/
theorem C46_refs_kept (X : Ctx) (cmd : Command) (hc : (∃ p k b, cmd = .compare p k b) ∨ cmd = .status ∨ (∃ p, cmd = .insert p) ∨ (∃ t ps, cmd = .commitTree t ps))
    (w : World) (q : List Bytes) : ((mainRun X cmd w).2.2.dbs q).state = (w.dbs q).state ∧ ((mainRun X cmd w).2.2.dbs q).reflog = (w.dbs q).reflog ∧
      ∀ k v, rawGet (w.dbs q) k = .ok v → rawGet ((mainRun X cmd w).2.2.dbs q) k = .ok v := by
  have hput : ∀ c, cmd.mayCall c → c.isPut := by
    rcases hc with ⟨_, _, _, rfl⟩ | rfl | ⟨_, rfl⟩ | ⟨_, _, rfl⟩ <;> exact fun c h => h
  have hi : cmd ≠ .init := by
    rcases hc with ⟨_, _, _, rfl⟩ | rfl | ⟨_, rfl⟩ | ⟨_, _, rfl⟩ <;> exact nofun
  obtain ⟨cs, h1, ⟨h2, h3, h4⟩, _⟩ := main_calls X cmd hi w q
  refine ⟨h3.trans (calls_state _ _ _ fun c hc => (isPut_keeps (hput c (h1 c hc))).1), h4.trans (calls_reflog _ _ _ fun c hc => (isPut_keeps (hput c (h1 c hc))).2), ?_⟩
  exact (C43_kept ((World.Steps.refl w).tail (.run X rfl cmd w)) q).1

/-! ### Reachable worlds -/

/-- Reached from a world without any stored data. -/
def _root_.Snap.World.Reachable (H : Bytes → Key) (w : World) : Prop :=
  ∃ w₀ : World, (∀ q, (w₀.dbs q).data = [] ∧ (w₀.dbs q).state = [] ∧ (w₀.dbs q).reflog = []) ∧ World.Steps H w₀ w

theorem World.Reachable.step {H : Bytes → Key} {w w' : World} (h : w.Reachable H) (s : World.Step H w w') : w'.Reachable H := by
  obtain ⟨w₀, h0, hs⟩ := h
  exact ⟨w₀, h0, hs.tail s⟩

theorem calls_inv {H : Bytes → Key} {cs : List Call} (h : ∀ c ∈ cs, ∃ cmd : Command, cmd.calls c) {db : Db} (hi : Inv H db) : Inv H (runCalls H cs db) := by
  induction cs generalizing db with
  | nil => exact hi
  | cons c cs ih =>
    refine ih (fun c hc => h c (by simp [hc])) ?_
    obtain ⟨cmd, hc⟩ := h c (by simp)
    have keep : c.onData ∨ ¬ c.onData := Classical.em _
    rcases keep with hd | hd
    · cases c with
      | put d =>
        have := inv_put hi d
        simp only [Call.run, SM.bind_apply]
        rcases put_cases H d db with e | e <;> rw [e] at this ⊢ <;> exact this
      | rawPut k v => rcases hc with hc | ⟨_, hc⟩
                      · cases cmd <;> simp [Command.mayCall, Call.isPut] at hc
                      · simp at hc
      | putState => simp [Call.onData] at hd
      | putHead => simp [Call.onData] at hd
      | reflogPush => simp [Call.onData] at hd
    · have h1 := (run_keeps H db c).1 hd
      have h2 := call_hashed H c db
      exact ⟨by rw [h1]; exact hi.nodup, fun r hr => by rw [h1] at hr; exact ⟨(hi.rows r hr).1, h2 _ (hi.rows r hr).2⟩⟩

/-- In reachable worlds every row is stored under its hash. -/
theorem World.Reachable.inv {H : Bytes → Key} {w : World} (h : w.Reachable H) (q : List Bytes) : Inv H (w.dbs q) := by
  obtain ⟨w₀, h0, hs⟩ := h
  induction hs with
  | refl => exact ⟨by simp [(h0 q).1], by simp [(h0 q).1]⟩
  | tail _ s ih =>
    obtain ⟨cs, h1, h2⟩ := step_calls s q
    exact h2.inv (calls_inv h1 ih)

end Snap.Props
