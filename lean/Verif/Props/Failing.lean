import Verif.Model.Auto
import Verif.Props.Commands
/-! Property C91: a failed write is the last one; SQLite rolling back by itself changes nothing. -/
namespace Snap.Props
open Snap
set_option linter.unusedSectionVars false
variable [Serde] [LawfulSerde]

/-- All calls succeed. -/
def Spec.Smooth (H : Bytes → Key) : List Call → Db → Prop
  | [], _ => True
  | c :: cs, d => (c.run H d).1.isOk = true ∧ Spec.Smooth H cs (c.run H d).2

/-- All calls succeed, or only the last one fails and the computation ends with SQLite's error or a panic. -/
def Spec.Stops {α} (H : Bytes → Key) (cs : List Call) (d : Db) (r : Res α) : Prop :=
  Spec.Smooth H cs d ∨ ((r = .err .sqlite ∨ r = .panic) ∧ ∃ cs' c, cs = cs' ++ [c] ∧ Spec.Smooth H cs' d ∧ (c.run H (runCalls H cs' d)).1.isOk = false)

theorem smooth_append {H : Bytes → Key} {a b : List Call} {d : Db} : Spec.Smooth H (a ++ b) d ↔ Spec.Smooth H a d ∧ Spec.Smooth H b (runCalls H a d) := by
  induction a generalizing d with
  | nil => simp [Spec.Smooth, runCalls]
  | cons c a ih => simp only [List.cons_append, Spec.Smooth, runCalls, ih, and_assoc]

/-- The computation performs calls of the kind `C` and stops at the first that fails. -/
def Strict {σ α} (π : σ → Db) (H : Bytes → Key) (C : Call → Prop) (x : SM σ α) : Prop :=
  ∀ s, ∃ cs : List Call, (∀ c ∈ cs, C c) ∧ π (x s).2 = runCalls H cs (π s) ∧ Spec.Stops H cs (π s) (x s).1

section
variable {σ τ α β : Type} {π : σ → Db} {H : Bytes → Key} {C : Call → Prop}

theorem strict_silent {x : SM σ α} (h : ∀ s, π (x s).2 = π s) : Strict π H C x := fun s => ⟨[], by simp, h s, .inl trivial⟩
theorem strict_pure (a : α) : Strict π H C (pure a : SM σ α) := strict_silent fun _ => rfl
theorem strict_lift (r : Res α) : Strict π H C (SM.lift r : SM σ α) := strict_silent fun _ => rfl
theorem strict_throw (e : Err) : Strict π H C (SM.throw e : SM σ α) := strict_silent fun _ => rfl
theorem strict_panic : Strict π H C (SM.panic : SM σ α) := strict_silent fun _ => rfl
theorem strict_read (f : σ → Res α) : Strict π H C (SM.read f) := strict_silent fun _ => rfl
theorem strict_bind {x : SM σ α} {f : α → SM σ β} (hx : Strict π H C x) (hf : ∀ a, Strict π H C (f a)) : Strict π H C (x >>= f) := by
  intro s
  obtain ⟨cs, h1, h2, h3⟩ := hx s
  rw [SM.bind_apply]
  cases hxs : x s with
  | mk r s' =>
    rw [hxs] at h2 h3
    simp only at h2 h3
    cases r with
    | ok a =>
      obtain ⟨ds, g1, g2, g3⟩ := hf a s'
      have hsm : Spec.Smooth H cs (π s) := by
        rcases h3 with h3 | ⟨h3 | h3, _⟩
        · exact h3
        · cases h3
        · cases h3
      rw [h2] at g2 g3
      refine ⟨cs ++ ds, ?_, ?_, ?_⟩
      · intro c hc
        rcases List.mem_append.mp hc with hc | hc
        · exact h1 c hc
        · exact g1 c hc
      · rw [runCalls_append]; exact g2
      · rcases g3 with g3 | ⟨hr, cs', c, rfl, g4, g5⟩
        · exact .inl (smooth_append.mpr ⟨hsm, g3⟩)
        · refine .inr ⟨hr, cs ++ cs', c, by simp, smooth_append.mpr ⟨hsm, g4⟩, ?_⟩
          rw [runCalls_append]; exact g5
    | err e =>
      refine ⟨cs, h1, h2, ?_⟩
      rcases h3 with h3 | ⟨h3 | h3, h4⟩
      · exact .inl h3
      · cases h3; exact .inr ⟨.inl rfl, h4⟩
      · cases h3
    | panic =>
      refine ⟨cs, h1, h2, ?_⟩
      rcases h3 with h3 | ⟨_, h4⟩
      · exact .inl h3
      · exact .inr ⟨.inr rfl, h4⟩
    | fuel =>
      refine ⟨cs, h1, h2, ?_⟩
      rcases h3 with h3 | ⟨h3 | h3, h4⟩
      · exact .inl h3
      · cases h3
      · cases h3
theorem strict_unwrap {x : SM σ α} (h : Strict π H C x) : Strict π H C (SM.unwrap x) := by
  intro s
  obtain ⟨cs, h1, h2, h3⟩ := h s
  refine ⟨cs, h1, h2, ?_⟩
  rcases h3 with h3 | ⟨h3 | h3, h4⟩
  · exact .inl h3
  · exact .inr ⟨.inr (by simp [SM.unwrap, h3, Res.unwrap]), h4⟩
  · exact .inr ⟨.inr (by simp [SM.unwrap, h3, Res.unwrap]), h4⟩
theorem strict_self {x : σ → SM σ α} (h : ∀ s, Strict π H C (x s)) : Strict π H C (fun s => x s s) := fun s => h s s
theorem strict_mono {C' : Call → Prop} {x : SM σ α} (h : Strict π H C x) (hc : ∀ c, C c → C' c) : Strict π H C' x := by
  intro s
  obtain ⟨cs, h1, h2⟩ := h s
  exact ⟨cs, fun c hm => hc c (h1 c hm), h2⟩
theorem strict_each {f : α → SM σ Unit} (h : ∀ a, Strict π H C (f a)) (l : List α) : Strict π H C (SM.each f l) := by
  induction l with
  | nil => exact strict_pure _
  | cons a l ih => exact strict_bind (h a) fun _ => ih
theorem strict_mapSM {f : α → SM σ β} (h : ∀ a, Strict π H C (f a)) (l : List α) : Strict π H C (mapSM f l) := by
  induction l with
  | nil => exact strict_pure _
  | cons a l ih => exact strict_bind (h a) fun b => strict_bind ih fun r => strict_pure _
theorem strict_ite {c : Prop} [Decidable c] {x y : SM σ α} (hx : Strict π H C x) (hy : Strict π H C y) : Strict π H C (if c then x else y) := by split <;> assumption
theorem strict_on {get : σ → τ} {set : τ → σ → σ} {x : SM τ α} {ρ : τ → Db} (h : Strict ρ H C x) (h1 : ∀ s, ρ (get s) = π s)
    (h2 : ∀ t s, π (set t s) = ρ t) : Strict π H C (SM.on get set x) := by
  intro s
  obtain ⟨cs, g1, g2, g3⟩ := h (get s)
  rw [h1] at g2 g3
  refine ⟨cs, g1, ?_, g3⟩
  show π (set (x (get s)).2 s) = _
  rw [h2, g2]

/-- One write. -/
theorem strict_call {x : M Unit} (c : Call) (h : c.run H = x) : Strict id H (fun c' => c' = c) x := by
  intro s
  subst h
  refine ⟨[c], by simp, rfl, ?_⟩
  rcases c.run_cases H s with ⟨e, _⟩ | ⟨e, _⟩
  · exact .inr ⟨.inl e, [], c, rfl, trivial, by change (c.run H s).1.isOk = _; rw [e]; rfl⟩
  · exact .inl ⟨by change (c.run H s).1.isOk = _; rw [e]; rfl, trivial⟩
theorem strict_put (d : Bytes) : Strict id H Call.isPut (put H d) := by
  intro s
  refine ⟨[.put d], by simp [Call.isPut], (call_put_result H d s).symm, ?_⟩
  rcases put_cases H d s with e | e
  · refine .inr ⟨.inl (by rw [e]), [], .put d, rfl, trivial, ?_⟩
    change ((Call.put d).run H s).1.isOk = _
    simp only [Call.run, SM.bind_apply, e]; rfl
  · refine .inl ⟨?_, trivial⟩
    change ((Call.put d).run H s).1.isOk = _
    simp only [Call.run, SM.bind_apply, e]; rfl

theorem strict_isPuts {x : M α} (h : IsPuts H x) : Strict id H Call.isPut x := by
  obtain ⟨ws, r, h⟩ := h
  have e : x = execPuts H ws r := SM.ext' h
  subst e
  clear h
  induction ws with
  | nil => exact strict_lift _
  | cons w ws ih => exact strict_bind (strict_put w) fun _ => ih
theorem strict_fst {x : SM Db α} (h : Strict id H C x) : Strict (Prod.fst : Db × τ → Db) H C (SM.fst x) := fun s => h s.1

theorem strict_hashFsItem (E : Env) (fs : Fs) (hp : ∀ path c, Strict id E.H Call.isPut (putFile E path c)) (path : Path) : Strict Prod.fst E.H Call.isPut (hashFsItem E fs path) := by
  unfold hashFsItem
  refine strict_bind (strict_lift _) fun e => ?_
  cases e with
  | file c md =>
    refine strict_bind (strict_read _) fun o => ?_
    cases o with
    | some h => exact strict_pure _
    | none => exact strict_bind (strict_fst (hp path c)) fun k => strict_bind (strict_silent fun _ => rfl) fun _ => strict_pure _
  | dir => exact strict_throw _
  | special => exact strict_throw _
  | broken => exact strict_throw _

theorem strict_compare (E : Env) (fs : Fs) (hp : ∀ path c, Strict id E.H Call.isPut (putFile E path c)) (iter : Nat → List Path → List Path) (n : Nat) (source : Target) (to : Option Key) :
    Strict Prod.fst E.H Call.isPut (compare E fs iter n source to) := by
  unfold compare
  refine strict_bind ?_ fun m => strict_bind ?_ fun B => ?_
  · cases source with
    | fileSystem path glob dbPath => exact strict_bind (strict_lift _) fun _ => strict_pure _
    | database key => exact strict_bind (strict_read _) fun _ => strict_pure _
  · cases to with
    | none => exact strict_pure _
    | some t => exact strict_read _
  · refine strict_bind (strict_mapSM (fun x => ?_) _) fun a => strict_bind (strict_mapSM (fun x => strict_lift _) _) fun d => strict_bind (strict_mapSM (fun x => ?_) _) fun mo => strict_pure _
    · unfold addedOf
      refine strict_bind ?_ fun _ => strict_bind (strict_lift _) fun _ => strict_pure _
      cases m with
      | left y =>
        refine strict_bind (strict_lift _) fun b => strict_ite (strict_pure _) (strict_bind (strict_unwrap (strict_hashFsItem E fs hp x)) fun _ => strict_pure _)
      | right y => simp only; cases y.get x with
        | some b => exact strict_pure _
        | none => exact strict_panic
    · unfold modifiedOf
      refine strict_bind ?_ fun f => ?_
      · cases m with
        | left y =>
          simp only
          cases hy : y.get x with
          | none => exact strict_panic
          | some b =>
            cases b with
            | true => exact strict_pure _
            | false => exact strict_bind (strict_hashFsItem E fs hp _) fun _ => strict_pure _
        | right y => simp only; cases y.get x with
          | some b => exact strict_pure _
          | none => exact strict_panic
      · cases f with
        | none => exact strict_pure _
        | some f =>
          simp only
          cases B.get x with
          | none => exact strict_panic
          | some t => exact strict_pure _

theorem strict_compare' (E : Env) (fs : Fs) (iter : Nat → List Path → List Path) (n : Nat) (source : Target) (to : Option Key) :
    Strict Prod.fst E.H Call.isPut (compare E fs iter n source to) := strict_compare E fs (fun _ _ => strict_isPuts (isPuts_putFile E _ _)) iter n source to
end

variable {K : Call → Prop} {H : Bytes → Key} {α : Type}

theorem strict_onDb {x : M α} (h : Strict id H K x) : Strict Sys.db H K (onDb x) := strict_on h (fun _ => rfl) (fun _ _ => rfl)
theorem strict_onDbCache {x : SM (Db × Cache) α} (h : Strict Prod.fst H K x) : Strict Sys.db H K (onDbCache x) := strict_on h (fun _ => rfl) (fun _ _ => rfl)
theorem strict_onFs (x : SM Fs α) : Strict Sys.db H K (onFs x) := strict_silent fun _ => rfl
theorem strict_onP {x : P α} (h : Strict Prod.fst H K x) : Strict Sys.db H K (onP x) := strict_on h (fun _ => rfl) (fun _ _ => rfl)
theorem strict_readDb (f : Db → Res α) : Strict Sys.db H K (readDb f) := strict_read _
theorem strict_emit (o : Out) : Strict Sys.db H K (emit o) := strict_silent fun _ => rfl
theorem strict_reflogPush (n : Bytes) (r : Option Bytes) (k : Key) : Strict id H (fun c => c = .reflogPush n r k) (reflogPush n r k) := strict_call _ rfl
theorem strict_putHead (n : Bytes) : Strict id H (fun c => c = .putHead n) (putHead n) := strict_call _ rfl

theorem strict_compareDb (E : Env) (fs : Fs) (iter : Nat → List Path → List Path) (n : Nat) (source to : Option Key) : Strict (Prod.fst : Db × List Out → Db) H K (compareDb E fs iter n source to) := by
  refine strict_silent fun s => ?_
  unfold compareDb
  cases source with
  | none => rfl
  | some k => simp only [compare_database_state]

theorem strict_say (o : Out) : Strict (Prod.fst : Db × List Out → Db) H K (say o) := strict_silent fun _ => rfl

theorem strict_displayChanges (E : Env) (lib : DiffLib) (fs : Fs) (iter : Nat → List Path → List Path) (n : Nat) (kind : Kind) (c : Commit) :
    Strict (Prod.fst : Db × List Out → Db) H K (displayChanges E lib fs iter n kind c) := by
  unfold displayChanges
  refine strict_bind ?_ fun t => strict_bind (strict_unwrap (strict_compareDb _ _ _ _ _ _)) fun dr => ?_
  · cases c.parents with
    | nil => exact strict_pure _
    | cons p ps => exact strict_bind (strict_read _) fun _ => strict_pure _
  · cases kind with
    | stat => exact strict_bind (strict_read _) fun _ => strict_say _
    | patch => exact strict_bind (strict_read _) fun _ => strict_say _

theorem strict_displayObj (E : Env) (lib : DiffLib) (fs : Fs) (iter : Nat → List Path → List Path) (n : Nat) (kind : Kind) (f : Nat) (k : Key) :
    Strict (Prod.fst : Db × List Out → Db) H K (displayObj E lib fs iter n kind f k) := by
  induction f generalizing k with
  | zero => exact strict_lift _
  | succ f ih =>
    unfold displayObj
    refine strict_bind (strict_read _) fun o => ?_
    cases o.objtype with
    | fileBlobTree => exact strict_silent fun _ => rfl
    | fileBlob => exact strict_silent fun _ => rfl
    | fsItemFile =>
      simp only
      split
      · exact ih _
      · exact strict_panic
    | commit => exact strict_bind (strict_lift _) fun c => strict_bind (strict_say _) fun _ => strict_displayChanges _ _ _ _ _ _ _
    | fsItemDir => exact strict_say _
    | unknown => exact strict_panic

theorem strict_logLoop (E : Env) (lib : DiffLib) (fs : Fs) (iter : Nat → List Path → List Path) (n : Nat) (kind : Kind) (f : Nat) (c : Commit) :
    Strict (Prod.fst : Db × List Out → Db) H K (logLoop E lib fs iter n kind f c) := by
  induction f generalizing c with
  | zero => exact strict_lift _
  | succ f ih =>
    unfold logLoop
    cases c.parents with
    | nil => exact strict_pure _
    | cons p ps => exact strict_bind (strict_displayObj _ _ _ _ _ _ _ _) fun _ => strict_bind (strict_read _) fun c => ih c

theorem strict_logObj (E : Env) (lib : DiffLib) (fs : Fs) (iter : Nat → List Path → List Path) (n : Nat) (kind : Kind) (k : Key) :
    Strict (Prod.fst : Db × List Out → Db) H K (logObj E lib fs iter n kind k) := by
  unfold logObj
  refine strict_bind (strict_read _) fun o => ?_
  cases o.objtype with
  | commit => exact strict_bind (strict_displayObj _ _ _ _ _ _ _ _) fun _ => strict_bind (strict_read _) fun c => strict_logLoop _ _ _ _ _ _ _ _
  | _ => exact strict_panic

theorem strict_compareWork (X : Ctx) (R : Repo) (path : Path) (to : Option Key) : Strict Sys.db X.E.H Call.isPut (compareWork X R path to) := by
  unfold compareWork
  exact strict_self fun s => strict_onDbCache (strict_compare' X.E s.fs _ _ _ _)

theorem strict_put_onDb (X : Ctx) (R : Repo) (path : Path) : Strict Sys.db X.E.H Call.isPut (fun s => onDb (putFsItem X.E s.fs (makeFilter X.glob R.folder) X.depth path) s : C Key) :=
  strict_self fun s => strict_onDb (strict_isPuts (isPuts_putFsItem X.E s.fs _ _ _))

theorem strict_emitAll {K : Call → Prop} {H : Bytes → Key} {α} (order : List Path → List Path) (m : PMap α) (line : Path → α → Out) : Strict Sys.db H K (emitAll order m line) := by
  refine strict_each (fun p => ?_) _
  cases m.get p with
  | none => exact strict_pure _
  | some v => exact strict_emit _

/-- Every command only makes calls of its kind. -/
theorem strict_command (X : Ctx) (R : Repo) (cmd : Command) : Strict Sys.db X.E.H cmd.mayCall (cmd.inRepo X R) := by
  cases cmd with
  | insert path => exact strict_bind (strict_put_onDb X R path) fun _ => strict_emit _
  | commit path message refname =>
    refine strict_bind (strict_readDb _) fun r => strict_bind (strict_readDb _) fun ps => strict_bind (strict_mono (strict_put_onDb X R _) fun _ h => Or.inl h) fun key =>
      strict_bind (strict_onDb (strict_mono (strict_isPuts (isPuts_commitTree _ _ _ _)) fun _ h => Or.inl h)) fun ck => strict_onDb (strict_mono (strict_reflogPush _ _ _) fun c h => Or.inr ⟨_, _, h⟩)
  | fetch key dest => exact strict_bind (strict_readDb _) fun k => strict_self fun s => strict_onFs _
  | init => exact strict_pure _
  | «show» key => exact strict_bind (strict_readDb _) fun k => strict_self fun s => strict_onP (strict_displayObj _ _ _ _ _ _ _ _)
  | log key => exact strict_bind (strict_readDb _) fun k => strict_self fun s => strict_onP (strict_logObj _ _ _ _ _ _ _)
  | compare path key stat =>
    exact strict_bind (strict_readDb _) fun k => strict_bind (strict_compareWork X R _ _) fun r => strict_ite (strict_bind (strict_readDb _) fun l => strict_emit _) (strict_emit _)
  | status =>
    refine strict_bind (strict_readDb _) fun h => strict_bind (strict_read _) fun o => ?_
    cases o with
    | none => exact strict_emit _
    | some k => exact strict_bind (strict_emit _) fun _ => strict_bind (strict_readDb _) fun c => strict_bind (strict_compareWork X R _ _) fun r => strict_emit _
  | checkout => exact strict_bind (strict_readDb _) fun k => strict_bind (strict_readDb _) fun c => strict_self fun s => strict_onFs _
  | checkoutHead refname =>
    refine strict_bind (strict_readDb _) fun h => strict_bind (strict_read _) fun o => strict_bind (strict_readDb _) fun t =>
      strict_bind (strict_mono (strict_compareWork X R _ _) fun _ h => Or.inl h) fun r =>
      strict_ite (strict_bind (strict_onDb (strict_mono (strict_putHead _) fun _ h => Or.inr h)) fun _ => strict_emit _) (strict_bind (strict_emit _) fun _ => strict_emit _)
  | refLog refname remote => exact strict_bind (strict_readDb _) fun r => strict_bind (strict_readDb _) fun ks => strict_each (fun k => strict_emit _) _
  | refUpdate key refname =>
    exact strict_bind (strict_readDb _) fun k => strict_bind (strict_readDb _) fun r => strict_onDb (strict_mono (strict_reflogPush _ _ _) fun c h => ⟨_, _, h⟩)
  | prettyPrint key => exact strict_bind (strict_readDb _) fun k => strict_bind (strict_readDb _) fun o => strict_emit _
  | commitTree tree parents =>
    exact strict_bind (strict_readDb _) fun t => strict_bind (strict_readDb _) fun ps => strict_bind (strict_onDb (strict_isPuts (isPuts_commitTree _ _ _ _))) fun k => strict_emit _
  | reflogGet refname remote => exact strict_bind (strict_readDb _) fun k => strict_emit _
  | reflogPush key refname remote => exact strict_bind (strict_readDb _) fun k => strict_onDb (strict_mono (strict_reflogPush _ _ _) fun c h => ⟨_, h⟩)
  | walkTree key => exact strict_bind (strict_readDb _) fun k => strict_bind (strict_readDb _) fun o => strict_emitAll _ _ _
  | walkFsTree path => exact strict_bind (strict_read _) fun o => strict_emitAll _ _ _
  | setHead refname => exact strict_onDb (strict_putHead _)
  | getHead =>
    exact strict_bind (strict_readDb _) fun h => strict_emit _

/-! How many writes were attempted -/

theorem call_faults (H : Bytes → Key) (c : Call) (d : Db) : (c.run H d).2.faults = d.faults.tail ∧ ((c.run H d).1.isOk = false ↔ ∃ t, d.faults = true :: t) := by
  obtain ⟨da, st, rl, ha, f⟩ := d
  cases f with
  | nil => exact ⟨by cases c <;> rfl, ⟨fun h => (by cases c <;> cases h), fun ⟨t, h⟩ => by cases h⟩⟩
  | cons b t =>
    cases b with
    | false => exact ⟨by cases c <;> rfl, ⟨fun h => (by cases c <;> cases h), fun ⟨t, h⟩ => by cases h⟩⟩
    | true => exact ⟨by cases c <;> rfl, ⟨fun _ => ⟨t, rfl⟩, fun _ => by cases c <;> rfl⟩⟩

theorem runCalls_faults (H : Bytes → Key) (cs : List Call) (d : Db) : (runCalls H cs d).faults = d.faults.drop cs.length := by
  induction cs generalizing d with
  | nil => rfl
  | cons c cs ih => rw [runCalls, ih, (call_faults H c d).1]; simp [List.drop_tail]

theorem smooth_count {H : Bytes → Key} {cs : List Call} {d : Db} (h : Spec.Smooth H cs d) {pre t : List Bool} (hf : d.faults = pre ++ true :: t) : cs.length ≤ pre.length := by
  induction cs generalizing d pre with
  | nil => simp
  | cons c cs ih =>
    cases pre with
    | nil =>
      have := (call_faults H c d).2.mpr ⟨t, hf⟩
      rw [h.1] at this
      cases this
    | cons b pre =>
      have := ih h.2 (by rw [(call_faults H c d).1, hf]; rfl)
      simp only [List.length_cons]
      omega

/-- **C91**: what a command does to the database is a list of its writes, all of which succeed, or all but the last; in the second case the command ends with SQLite's error
or panics. So a command that ends well had no failed write. -/
theorem C91_stops (X : Ctx) (R : Repo) (cmd : Command) (s : Sys) :
    ∃ cs, (∀ c ∈ cs, cmd.mayCall c) ∧ (cmd.inRepo X R s).2.db = runCalls X.E.H cs s.db ∧ Spec.Stops X.E.H cs s.db (cmd.inRepo X R s).1 ∧
      ((cmd.inRepo X R s).1.isOk = true → Spec.Smooth X.E.H cs s.db) := by
  obtain ⟨cs, h1, h2, h3⟩ := strict_command X R cmd s
  refine ⟨cs, h1, h2, h3, fun h => ?_⟩
  rcases h3 with h3 | ⟨h3 | h3, _⟩
  · exact h3
  · rw [h3] at h; cases h
  · rw [h3] at h; cases h

/-- **C91**: if the first write to fail is the one after `pre.length` others, either the command makes at most `pre.length` writes, or that write is the last one it makes
and the command does not end well. -/
theorem C91_last (X : Ctx) (R : Repo) (cmd : Command) (s : Sys) (pre t : List Bool) (hpre : ∀ b ∈ pre, b = false) (hf : s.db.faults = pre ++ true :: t) :
    (∃ post, post <:+ pre ∧ (cmd.inRepo X R s).2.db.faults = post ++ true :: t) ∨
    ((cmd.inRepo X R s).2.db.faults = t ∧ ((cmd.inRepo X R s).1 = .err .sqlite ∨ (cmd.inRepo X R s).1 = .panic)) := by
  obtain ⟨cs, _, h2, h3, _⟩ := C91_stops X R cmd s
  have e := runCalls_faults X.E.H cs s.db
  rw [← h2, hf] at e
  rcases h3 with h3 | ⟨hr, cs', c, rfl, g1, g2⟩
  · have hl := smooth_count h3 hf
    refine .inl ⟨pre.drop cs.length, List.drop_suffix _ _, ?_⟩
    rw [e, List.drop_append_of_le_length hl]
  · have hl := smooth_count g1 hf
    refine .inr ⟨?_, hr⟩
    have hn : cs'.length = pre.length := by
      obtain ⟨t', ht⟩ := (call_faults X.E.H c _).2.mp g2
      rw [runCalls_faults, hf, List.drop_append_of_le_length hl] at ht
      cases hd : pre.drop cs'.length with
      | nil =>
        have := List.drop_eq_nil_iff.mp hd
        omega
      | cons b r =>
        rw [hd] at ht
        simp only [List.cons_append, List.cons.injEq] at ht
        have := hpre b (List.mem_of_mem_drop (i := cs'.length) (by rw [hd]; simp))
        rw [ht.1] at this
        cases this
    rw [e, List.length_append, hn]
    simp

/-! SQLite rolling back by itself -/

theorem calls_smooth {H : Bytes → Key} {cs : List Call} {v : Db} (h : Spec.Smooth H cs v) (d : Db) (as : List Bool) (hl : as.length = cs.length) :
    (Conn.mk d (some v)).callsAuto H (cs.zip as) = Conn.mk d (some (runCalls H cs v)) := by
  induction cs generalizing v as with
  | nil => rfl
  | cons c cs ih =>
    cases as with
    | nil => cases hl
    | cons a as =>
      simp only [List.zip_cons_cons, Conn.callsAuto, runCalls]
      have e : (Conn.mk d (some v)).callAuto H c a = Conn.mk d (some (c.run H v).2) := by
        simp [Conn.callAuto, Conn.exec, h.1]
      rw [e]
      exact ih h.2 as (by simpa using hl)

theorem callsAuto_append (H : Bytes → Key) (c : Conn) (a b : List (Call × Bool)) : c.callsAuto H (a ++ b) = (c.callsAuto H a).callsAuto H b := by
  induction a generalizing c with
  | nil => rfl
  | cons x a ih => exact ih _

theorem finishAuto_open (r : Res Unit) (auto : Bool) (d v : Db) : (Conn.finishAuto r auto (Conn.mk d (some v))).durable = (Conn.finish r (Conn.mk d (some v))).durable := by
  cases r with
  | ok u =>
    simp only [Conn.finishAuto, Conn.finish]
    split <;> rfl
  | err e => rfl
  | panic => rfl
  | fuel => rfl

/-- **C91**: whichever of its failing statements make SQLite roll the transaction back by itself, a command leaves the database as if none had: since the failing one was
the last, nothing is written outside of the transaction afterwards, and the error of the `ROLLBACK` or `COMMIT` that then finds no transaction is ignored. -/
theorem C91_autorollback (X : Ctx) (cmd : Command) (hc : cmd ≠ .init) (w : World) (R : Repo) (q : List Bytes) (ho : Opens X w R q) :
    ∃ cs, (∀ c ∈ cs, cmd.mayCall c) ∧ (cmd.inRepo X R (startOf w q)).2.db = runCalls X.E.H cs (w.dbs q) ∧
      Spec.Stops X.E.H cs (w.dbs q) (cmd.inRepo X R (startOf w q)).1 ∧
      ∀ as auto, as.length = cs.length →
        (((Conn.mk (w.dbs q) none).begin.2.callsAuto X.E.H (cs.zip as)).finishAuto (cmd.inRepo X R (startOf w q)).1 auto).durable = (mainRun X cmd w).2.2.dbs q := by
  obtain ⟨cs, h1, h2, h3, _⟩ := C91_stops X R cmd (startOf w q)
  refine ⟨cs, h1, h2, h3, fun as auto hl => ?_⟩
  rw [mainRun_open hc ho]
  simp only [runIn, World.setDb, if_true, Conn.begin, Conn.exec, Conn.view, Option.getD_some, Command.body]
  change _ = (Conn.finish (cmd.inRepo X R (startOf w q)).1 (Conn.mk (w.dbs q) (some (cmd.inRepo X R (startOf w q)).2.db))).durable
  rw [h2]
  change Spec.Stops X.E.H cs (w.dbs q) _ at h3
  rcases h3 with h3 | ⟨hr, cs', c, rfl, g1, g2⟩
  · rw [calls_smooth h3 _ _ hl, finishAuto_open]; rfl
  · have hl' : as.length = cs'.length + 1 := by simpa using hl
    have has : as = as.take cs'.length ++ [as[cs'.length]] := by
      rw [List.take_append_getElem, List.take_of_length_le (by omega)]
    have hz : (cs' ++ [c]).zip as = cs'.zip (as.take cs'.length) ++ [(c, as[cs'.length])] := by
      conv => lhs; rw [has]
      rw [List.zip_append (by simp [hl'])]
      rfl
    rw [hz, callsAuto_append, calls_smooth g1 _ _ (by simp [hl']), runCalls_append]
    simp only [Conn.callsAuto, Conn.callAuto, Conn.exec, Option.isSome_some, Bool.true_and, g2, Bool.not_false, startOf]
    cases as[cs'.length] with
    | false =>
      simp only [Bool.false_eq_true, if_false]
      rw [finishAuto_open]; rfl
    | true =>
      simp only [if_true]
      rcases hr with hr | hr <;> (simp only [startOf] at hr; rw [hr]; rfl)

end Snap.Props
