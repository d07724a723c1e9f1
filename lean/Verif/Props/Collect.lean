import Verif.Lemmas.Sim
import Verif.Props.Closed
import Verif.Props.Acyclic
/-! Objects that no ref leads to make no difference: C72. -/
namespace Snap.Props
open Snap
set_option linter.unusedSectionVars false
variable [Serde] [LawfulSerde]

variable {S : Key → Prop}

/-! ### Printing -/

theorem sim_say (o : Out) : Sim (AgreeFst S) (AgreeFst S) (say o) (fun _ => True) := sim_modify fun s t h => ⟨h.1, by simp only [h.2]⟩

theorem sim_compareDb (E : Env) (fs : Fs) (iter : Nat → List Path → List Path) (n : Nat) {k : Key} (hk : S k) (to : Option Key) (ht : ∀ k, to = some k → S k) :
    Sim (AgreeFst S) (AgreeFst S) (compareDb E fs iter n (some k) to) (DiffIn S) := by
  intro s t h
  obtain ⟨h1, h2, h3⟩ := sim_compare E fs iter n (.database k) to (fun k' hk' => by simp only [Target.database.injEq] at hk'; exact hk' ▸ hk) ht (s.1, {}) (t.1, {}) ⟨h.1, rfl⟩
  exact ⟨h1, ⟨h2.1, h.2⟩, h3⟩

theorem sim_displayChanges (E : Env) (lib : DiffLib) (fs : Fs) (iter : Nat → List Path → List Path) (n : Nat) (kind : Kind) (c : Commit) (ht : S c.tree) (hp : ∀ p ∈ c.parents, S p) :
    Sim (AgreeFst S) (AgreeFst S) (displayChanges E lib fs iter n kind c) (fun _ => True) := by
  unfold displayChanges
  refine sim_bind (Q := fun t => ∀ k, t = some k → S k) ?_ fun tree htree => ?_
  · match hl : c.parents with
    | [] => exact sim_pure (by simp)
    | p :: _ =>
      refine sim_bind (Q := fun c => S c.tree) (sim_read fun s t h => ?_) fun parent hpar => sim_pure ?_
      · have := agree_fromKey h.1 (hp p (by simp [hl]))
        exact ⟨this.1, fun c hc => (this.2 c hc).1⟩
      · intro k hk
        simp only [Option.some.injEq] at hk
        exact hk ▸ hpar
  refine sim_bind (sim_unwrap (sim_compareDb E fs iter n ht tree htree)) fun dr hdr => ?_
  cases kind with
  | stat => exact sim_bind (Q := fun _ => True) (sim_read fun s t h => ⟨agree_printedStat h.1 lib n hdr, fun _ _ => trivial⟩) fun l _ => sim_say _
  | patch => exact sim_bind (Q := fun _ => True) (sim_read fun s t h => ⟨agree_createPatch h.1 lib n hdr, fun _ _ => trivial⟩) fun l _ => sim_say _

theorem sim_readTo (sink : Bytes → SM (List Out) Unit) (n : Nat) {k : Key} (hk : S k) :
    Sim (AgreeFst S) (AgreeFst S) (fun s => let r := readDataTo s.1 sink n k s.2; (r.1, (s.1, r.2)) : P Unit) (fun _ => True) := by
  intro s t h
  simp only [agree_readDataTo h.1 sink n k hk, h.2]
  exact ⟨trivial, ⟨h.1, rfl⟩, fun _ _ => trivial⟩

theorem sim_displayObj (E : Env) (lib : DiffLib) (fs : Fs) (iter : Nat → List Path → List Path) (n : Nat) (kind : Kind) (f : Nat) (k : Key) (hk : S k) :
    Sim (AgreeFst S) (AgreeFst S) (displayObj E lib fs iter n kind f k) (fun _ => True) := by
  induction f generalizing k with
  | zero => exact sim_lift fun _ _ => trivial
  | succ f ih =>
    unfold displayObj
    refine sim_bind (Q := fun o => (∀ k' ∈ o.keys, S k') ∧ ∀ c, Commit.ofObject o = .ok c → S c.tree ∧ ∀ p ∈ c.parents, S p) (sim_read fun s t h => ?_) fun o ho => ?_
    · refine ⟨by rw [h.1.getObj hk], fun o ho => ?_⟩
      have ho : getObj s.1 k = .ok o := by
        cases hg : getObj s.1 k <;> rw [hg] at ho <;> simp [Res.unwrap] at ho
        rw [ho]
      exact ⟨h.1.keys k hk o ho, fun c hc => (agree_fromKey h.1 hk).2 c (fromKey_eq_ok.mpr ⟨o, ho, hc⟩)⟩
    cases o.objtype with
    | fileBlobTree => exact sim_readTo _ n hk
    | fileBlob => exact sim_readTo _ n hk
    | fsItemFile =>
      simp only
      match hl : o.keys with
      | [k'] => exact ih k' (ho.1 k' (by simp [hl]))
      | [] => exact sim_panic
      | _ :: _ :: _ => exact sim_panic
    | commit =>
      refine sim_bind (Q := fun c => S c.tree ∧ ∀ p ∈ c.parents, S p) (sim_lift fun c hc => ho.2 c ?_) fun c hc => sim_bind (sim_say _) fun _ _ => sim_displayChanges E lib fs iter n kind c hc.1 hc.2
      cases hg : Commit.ofObject o <;> rw [hg] at hc <;> simp [Res.unwrap] at hc
      rw [hc]
    | fsItemDir => exact sim_say _
    | unknown => exact sim_panic

theorem sim_fromKey {k : Key} (hk : S k) : Sim (AgreeFst S) (AgreeFst S) (SM.read (fun s => Commit.fromKey s.1 k) : P Commit) (fun c => S c.tree ∧ ∀ p ∈ c.parents, S p) :=
  sim_read fun _ _ h => agree_fromKey h.1 hk

theorem sim_logLoop (E : Env) (lib : DiffLib) (fs : Fs) (iter : Nat → List Path → List Path) (n : Nat) (kind : Kind) (f : Nat) (c : Commit) (hp : ∀ p ∈ c.parents, S p) :
    Sim (AgreeFst S) (AgreeFst S) (logLoop E lib fs iter n kind f c) (fun _ => True) := by
  induction f generalizing c with
  | zero => exact sim_lift fun _ _ => trivial
  | succ f ih =>
    unfold logLoop
    match hl : c.parents with
    | [] => exact sim_pure trivial
    | p :: _ =>
      have := hp p (by simp [hl])
      exact sim_bind (sim_displayObj E lib fs iter n kind n p this) fun _ _ => sim_bind (sim_fromKey this) fun c hc => ih c hc.2

theorem sim_logObj (E : Env) (lib : DiffLib) (fs : Fs) (iter : Nat → List Path → List Path) (n : Nat) (kind : Kind) (k : Key) (hk : S k) :
    Sim (AgreeFst S) (AgreeFst S) (logObj E lib fs iter n kind k) (fun _ => True) := by
  unfold logObj
  refine sim_bind (Q := fun _ => True) (sim_read fun s t h => ⟨by rw [h.1.getObj hk], fun _ _ => trivial⟩) fun o _ => ?_
  cases o.objtype with
  | commit => exact sim_bind (sim_displayObj E lib fs iter n kind n k hk) fun _ _ => sim_bind (sim_fromKey hk) fun c hc => sim_logLoop E lib fs iter n kind n c hc.2
  | _ => exact sim_panic

/-! ### Commands -/

/-- Databases related by `Agree`, the rest equal. -/
def AgreeSys (S : Key → Prop) (s t : Sys) : Prop := Agree S s.db t.db ∧ s.cache = t.cache ∧ s.fs = t.fs ∧ s.out = t.out

/-- Everything but the objects is equal. -/
def Kin (s t : Sys) : Prop := (s.db.state = t.db.state ∧ s.db.reflog = t.db.reflog ∧ s.db.faults = t.db.faults) ∧ s.cache = t.cache ∧ s.fs = t.fs ∧ s.out = t.out

theorem AgreeSys.alike (s t : Sys) (h : AgreeSys S s t) : Kin s t := ⟨⟨h.1.state, h.1.reflog, h.1.faults⟩, h.2⟩

/-- The abbreviations in `l` have the same meaning in both databases. -/
def AgreeArgs (S : Key → Prop) (l : List Keyish) (s t : Sys) : Prop :=
  AgreeSys S s t ∧ ∀ key ∈ l, canonicalize s.db key = canonicalize t.db key ∧ ∀ k, canonicalize s.db key = .ok k → S k

variable {α : Type} {Q : α → Prop} {l : List Keyish}

theorem sim_args {R' : Sys → Sys → Prop} {x : C α} (h : Sim (AgreeSys S) R' x Q) : Sim (AgreeArgs S l) R' x Q := fun s t hr => h s t hr.1

theorem sim_emit (o : Out) : Sim (AgreeSys S) (AgreeSys S) (emit o) (fun _ => True) := sim_modify fun s t h => ⟨h.1, h.2.1, h.2.2.1, by simp only [h.2.2.2]⟩
theorem sim_emit_alike (o : Out) : Sim Kin Kin (emit o) (fun _ => True) := sim_modify fun s t h => ⟨h.1, h.2.1, h.2.2.1, by simp only [h.2.2.2]⟩

theorem sim_readDb {f : Db → Res α} (h : ∀ a b, Agree S a b → f a = f b ∧ ∀ v, f a = .ok v → Q v) : Sim (AgreeSys S) (AgreeSys S) (readDb f) Q := sim_read fun s t hr => h s.db t.db hr.1

theorem sim_canon {key : Keyish} (hk : key ∈ l) : Sim (AgreeArgs S l) (AgreeArgs S l) (readDb fun db => canonicalize db key) S :=
  sim_read fun _ _ h => h.2 key hk

theorem sim_onDb {x : M α} (h : Sim (Agree S) (Agree S) x Q) : Sim (AgreeSys S) (AgreeSys S) (onDb x) Q := by
  intro s t hr
  obtain ⟨h1, h2, h3⟩ := h s.db t.db hr.1
  exact ⟨h1, ⟨h2, hr.2⟩, h3⟩

theorem agree_getHead {a b : Db} (h : Agree S a b) : getHead a = getHead b := by unfold getHead rawGetState; rw [h.state]
theorem agree_headName {a b : Db} (h : Agree S a b) : headName a = headName b := by unfold headName; rw [agree_getHead h]
theorem agree_refOrHead {a b : Db} (h : Agree S a b) (r : Option Bytes) : refOrHead a r = refOrHead b r := by cases r with
  | none => exact agree_headName h
  | some r => rfl
theorem agree_reflogGet {a b : Db} (h : Agree S a b) (n : Bytes) (r : Option Bytes) : reflogGet a n r = reflogGet b n r ∧ ∀ k, reflogGet a n r = .ok k → S k := by
  refine ⟨by unfold reflogGet refRows; rw [h.reflog], fun k hk => ?_⟩
  unfold reflogGet at hk
  cases hl : (refRows a n r).getLast? with
  | none => rw [hl] at hk; simp at hk
  | some row =>
    rw [hl] at hk
    obtain ⟨k', h1, h2⟩ := h.refs row (List.mem_filter.mp (List.mem_of_getLast? hl)).1
    simp only [h1, fromDbKey_asDbKey, Res.ok.injEq] at hk
    exact hk ▸ h2
theorem agree_getHeadKey {a b : Db} (h : Agree S a b) : getHeadKey a = getHeadKey b ∧ ∀ k, getHeadKey a = .ok k → S k := by
  unfold getHeadKey
  rw [← agree_headName h]
  cases hn : headName a with
  | ok n => exact agree_reflogGet h n none
  | err e => exact ⟨rfl, by simp⟩
  | panic => exact ⟨rfl, by simp⟩
  | fuel => exact ⟨rfl, by simp⟩

theorem sim_keyOrHead {key : Option Keyish} (hk : ∀ k, key = some k → k ∈ l) : Sim (AgreeArgs S l) (AgreeArgs S l) (readDb fun db => keyOrHead db key) S := by
  cases key with
  | some k => exact sim_canon (hk k rfl)
  | none => exact sim_read fun _ _ h => agree_getHeadKey h.1.1

/-- The arguments of a command that are keys: refs, or beginnings of keys. -/
def _root_.Snap.Command.args : Command → List Keyish
  | .fetch key _ => [key]
  | .show key => key.toList
  | .log key => key.toList
  | .compare _ key _ => key.toList
  | .refUpdate key _ => [key]
  | .prettyPrint key => [key]
  | .commitTree tree parents => tree :: parents
  | .reflogPush key _ _ => [key]
  | .walkTree key => [key]
  | _ => []

theorem write_alike {f : Db → Db} (hf : ∀ a b : Db, a.state = b.state → a.reflog = b.reflog → a.faults = b.faults →
      (f a).state = (f b).state ∧ (f a).reflog = (f b).reflog ∧ (f a).faults = (f b).faults) : Sim Kin Kin (onDb (write f)) (fun _ => True) := by
  intro s t h
  obtain ⟨⟨h1, h2, h3⟩, h4⟩ := h
  unfold onDb SM.on write
  rw [← h3]
  match s.db.faults with
  | true :: fs => exact ⟨rfl, ⟨⟨h1, h2, rfl⟩, h4⟩, fun _ _ => trivial⟩
  | false :: fs => exact ⟨rfl, ⟨hf _ _ h1 h2 rfl, h4⟩, fun _ _ => trivial⟩
  | [] => exact ⟨rfl, ⟨hf _ _ h1 h2 rfl, h4⟩, fun _ _ => trivial⟩

theorem sim_reflogPush (n : Bytes) (r : Option Bytes) (k : Key) : Sim Kin Kin (onDb (reflogPush n r k)) (fun _ => True) :=
  write_alike fun a b h1 h2 h3 => ⟨h1, by simp only [h2], h3⟩
theorem sim_putHead (n : Bytes) : Sim Kin Kin (onDb (putHead n)) (fun _ => True) :=
  write_alike fun a b h1 h2 h3 => ⟨by simp only [h1], h2, h3⟩
theorem sim_alike {x : C α} (h : Sim Kin Kin x Q) : Sim (AgreeSys S) Kin x Q := fun s t hr => h s t (AgreeSys.alike s t hr)

theorem sim_compareWork (X : Ctx) (R : Repo) (path : Path) (to : Option Key) (ht : ∀ k, to = some k → S k) : Sim (AgreeSys S) (AgreeSys S) (compareWork X R path to) (fun _ => True) := by
  intro s t h
  have := sim_compare X.E s.fs X.iter X.depth (.fileSystem path X.glob R.folder) to (by simp) ht (s.db, s.cache) (t.db, t.cache) ⟨h.1, h.2.1⟩
  obtain ⟨h1, h2, _⟩ := this
  unfold compareWork
  rw [← h.2.2.1]
  exact ⟨h1, ⟨h2.1, h2.2, h.2.2.1, h.2.2.2⟩, fun _ _ => trivial⟩

theorem sim_put_onDb (X : Ctx) (R : Repo) (path : Path) :
    Sim (AgreeSys S) (AgreeSys S) (fun s => onDb (putFsItem X.E s.fs (makeFilter X.glob R.folder) X.depth path) s : C Key) (fun _ => True) := by
  intro s t h
  have := sim_onDb (sim_isPuts (S := S) (isPuts_putFsItem X.E s.fs (makeFilter X.glob R.folder) X.depth path)) s t h
  show (onDb (putFsItem X.E s.fs (makeFilter X.glob R.folder) X.depth path) s).1 = (onDb (putFsItem X.E t.fs (makeFilter X.glob R.folder) X.depth path) t).1 ∧ _
  rw [← h.2.2.1]
  refine ⟨this.1, ?_, fun _ _ => trivial⟩
  show AgreeSys S _ (onDb (putFsItem X.E t.fs (makeFilter X.glob R.folder) X.depth path) t).2
  rw [← h.2.2.1]
  exact this.2.1

theorem sim_onP {x : Fs → P α} (h : ∀ fs, Sim (AgreeFst S) (AgreeFst S) (x fs) Q) : Sim (AgreeSys S) (AgreeSys S) (fun s => onP (x s.fs) s : C α) Q := by
  intro s t hr
  obtain ⟨h1, h2, h3⟩ := h s.fs (s.db, s.out) (t.db, t.out) ⟨hr.1, hr.2.2.2⟩
  refine ⟨?_, ?_, h3⟩
  · show _ = (onP (x t.fs) t).1
    rw [← hr.2.2.1]; exact h1
  · show AgreeSys S _ (onP (x t.fs) t).2
    rw [← hr.2.2.1]; exact ⟨h2.1, hr.2.1, hr.2.2.1, h2.2⟩

theorem sim_onFs {x : Db → SM Fs Unit} (h : ∀ a b, Agree S a b → x a = x b) : Sim (AgreeSys S) (AgreeSys S) (fun s => onFs (x s.db) s : C Unit) (fun _ => True) := by
  intro s t hr
  simp only [onFs, SM.on, h s.db t.db hr.1, hr.2.2.1]
  exact ⟨trivial, ⟨hr.1, hr.2.1, rfl, hr.2.2.2⟩, fun _ _ => trivial⟩

theorem sim_emitAll (order : List Path → List Path) (m : PMap α) (line : Path → α → Out) : Sim (AgreeSys S) (AgreeSys S) (emitAll order m line) (fun _ => True) := by
  refine sim_each fun p _ => ?_
  cases m.get p with
  | none => exact sim_pure trivial
  | some v => exact sim_emit _

theorem sim_command (X : Ctx) (R : Repo) (cmd : Command) (hc : ∀ p k, cmd ≠ .compare p k true) : Sim (AgreeArgs S cmd.args) Kin (cmd.inRepo X R) (fun _ => True) := by
  have hal := AgreeSys.alike (S := S)
  have haa : ∀ s t, AgreeArgs S cmd.args s t → Kin s t := fun s t h => hal s t h.1
  have hu : ∀ {x : C Unit}, Sim (AgreeSys S) (AgreeSys S) x (fun _ => True) → Sim (AgreeArgs S cmd.args) Kin x (fun _ => True) := fun h => sim_args (sim_post h hal)
  cases cmd with
  | insert path => exact hu (sim_bind (sim_put_onDb X R path) fun k _ => sim_emit _)
  | commit path message refname =>
    refine sim_args (sim_last (Q := fun _ => True) (sim_readDb fun a b h => ⟨agree_refOrHead h refname, fun _ _ => trivial⟩) hal fun r _ => ?_)
    refine sim_last (Q := fun _ => True) (sim_readDb fun a b h => ⟨by unfold parentsOf; rw [(agree_reflogGet h r none).1], fun _ _ => trivial⟩) hal fun ps _ => ?_
    exact sim_last (sim_put_onDb X R _) hal fun k _ => sim_last (sim_onDb (sim_isPuts (isPuts_commitTree X.E.H k ps _))) hal fun ck _ => sim_alike (sim_reflogPush _ _ _)
  | fetch key dest =>
    refine sim_last (sim_canon (by simp [Command.args])) haa fun k hk => hu ?_
    exact sim_onFs (x := fun db => getFsItem db X.depth k dest) fun a b h => agree_getFsItem h X.depth k dest hk
  | init => exact hu (sim_pure trivial)
  | «show» key =>
    refine sim_last (sim_keyOrHead (by rintro k rfl; simp [Command.args])) haa fun k hk => hu ?_
    exact sim_onP (x := fun fs => displayObj X.E X.lib fs X.iter X.depth .patch X.depth k) fun fs => sim_displayObj X.E X.lib fs X.iter X.depth .patch X.depth k hk
  | log key =>
    refine sim_last (sim_keyOrHead (by rintro k rfl; simp [Command.args])) haa fun k hk => hu ?_
    exact sim_onP (x := fun fs => logObj X.E X.lib fs X.iter X.depth .stat k) fun fs => sim_logObj X.E X.lib fs X.iter X.depth .stat k hk
  | compare path key stat =>
    cases stat with
    | true => exact (hc path key rfl).elim
    | false =>
      refine sim_last (R₁ := AgreeSys S) (Q := S) ?_ hal fun k hk => sim_post (sim_bind (sim_compareWork X R _ (some k) (by simpa using hk)) fun r _ => sim_emit _) hal
      cases key with
      | some key => exact sim_post (sim_canon (by simp [Command.args])) fun _ _ h => h.1
      | none =>
        refine sim_args (sim_readDb fun a b h => ?_)
        obtain ⟨h1, h2⟩ := agree_getHeadKey h
        simp only [← h1]
        cases hk : getHeadKey a with
        | ok k =>
          obtain ⟨h3, h4⟩ := agree_fromKey h (h2 k hk)
          simp only [Res.ok_bind, ← h3]
          cases hf : Commit.fromKey a k with
          | ok c => exact ⟨trivial, fun v hv => by simp at hv; exact hv ▸ (h4 c hf).1⟩
          | err e => exact ⟨trivial, by simp⟩
          | panic => exact ⟨trivial, by simp⟩
          | fuel => exact ⟨trivial, by simp⟩
        | err e => exact ⟨rfl, by simp⟩
        | panic => exact ⟨rfl, by simp⟩
        | fuel => exact ⟨rfl, by simp⟩
  | status =>
    refine hu ?_
    refine sim_bind (Q := fun _ => True) (sim_readDb fun a b h => ⟨agree_headName h, fun _ _ => trivial⟩) fun h _ => ?_
    refine sim_bind (Q := fun o => ∀ k, o = some k → S k) (sim_read fun s t hr => ?_) fun o ho => ?_
    · obtain ⟨h1, h2⟩ := agree_reflogGet hr.1 h none
      rw [← h1]
      refine ⟨rfl, fun v hv k hk => h2 k ?_⟩
      simp only [Res.ok.injEq] at hv
      rw [← hv] at hk
      cases hg : reflogGet s.db h none <;> rw [hg] at hk <;> simp [Res.toOption] at hk
      rw [hk]
    · cases o with
      | none => exact sim_emit _
      | some k =>
        refine sim_bind (sim_emit _) fun _ _ => sim_bind (Q := fun c => S c.tree) (sim_readDb fun a b hr => ?_) fun c hc => ?_
        · obtain ⟨h1, h2⟩ := agree_fromKey hr (ho k rfl)
          exact ⟨h1, fun c hc => (h2 c hc).1⟩
        · exact sim_bind (sim_compareWork X R _ _ (by simpa using hc)) fun r _ => sim_emit _
  | checkout =>
    refine hu ?_
    refine sim_bind (Q := S) (sim_readDb fun a b h => agree_getHeadKey h) fun k hk => sim_bind (Q := fun c => S c.tree) (sim_readDb fun a b hr => ?_) fun c hc => ?_
    · obtain ⟨h1, h2⟩ := agree_fromKey hr hk
      exact ⟨h1, fun c hc => (h2 c hc).1⟩
    · exact sim_onFs (x := fun db => checkoutFsItem db (makeFilter X.glob R.folder) X.iterNames X.depth c.tree R.root) fun a b h => agree_checkout h _ _ _ _ _ hc
  | checkoutHead refname =>
    refine sim_args ?_
    refine sim_last (Q := fun _ => True) (sim_readDb fun a b h => ⟨agree_headName h, fun _ _ => trivial⟩) hal fun h _ => ?_
    refine sim_last (Q := fun o => ∀ k, o = some k → S k) (sim_read fun s t hr => ?_) hal fun o ho => ?_
    · obtain ⟨h1, h2⟩ := agree_reflogGet hr.1 h none
      rw [← h1]
      refine ⟨rfl, fun v hv k hk => h2 k ?_⟩
      simp only [Res.ok.injEq] at hv
      rw [← hv] at hk
      cases hg : reflogGet s.db h none <;> rw [hg] at hk <;> simp [Res.toOption] at hk
      rw [hk]
    refine sim_last (Q := fun t => ∀ k, t = some k → S k) (sim_readDb fun a b hr => ?_) hal fun t ht => ?_
    · cases o with
      | none => exact ⟨rfl, fun v hv k hk => by simp at hv; subst hv; simp at hk⟩
      | some k =>
        obtain ⟨h1, h2⟩ := agree_fromKey hr (ho k rfl)
        simp only [← h1]
        cases hf : Commit.fromKey a k with
        | ok c => exact ⟨trivial, fun v hv k hk => by simp at hv; subst hv; simp at hk; exact hk ▸ (h2 c hf).1⟩
        | err e => exact ⟨trivial, by simp⟩
        | panic => exact ⟨trivial, by simp⟩
        | fuel => exact ⟨trivial, by simp⟩
    refine sim_last (sim_compareWork X R _ _ ht) hal fun r _ => sim_alike ?_
    exact sim_ite (sim_bind (sim_putHead _) fun _ _ => sim_emit_alike _) (sim_bind (sim_emit_alike _) fun _ _ => sim_emit_alike _)
  | refLog refname remote =>
    refine hu (sim_bind (Q := fun _ => True) (sim_readDb fun a b h => ⟨agree_refOrHead h refname, fun _ _ => trivial⟩) fun r _ => ?_)
    refine sim_bind (Q := fun _ => True) (sim_readDb fun a b h => ⟨?_, fun _ _ => trivial⟩) fun ks _ => sim_each fun _ _ => sim_emit _
    unfold reflogWalk refRows; rw [h.reflog]
  | refUpdate key refname =>
    refine sim_last (sim_canon (by simp [Command.args])) haa fun k hk => sim_args ?_
    exact sim_last (Q := fun _ => True) (sim_readDb fun a b h => ⟨agree_refOrHead h refname, fun _ _ => trivial⟩) hal fun r _ => sim_alike (sim_reflogPush _ _ _)
  | prettyPrint key =>
    refine sim_last (sim_canon (by simp [Command.args])) haa fun k hk => hu ?_
    exact sim_bind (Q := fun _ => True) (sim_readDb fun a b h => ⟨h.getObj hk, fun _ _ => trivial⟩) fun o _ => sim_emit _
  | commitTree tree parents =>
    refine sim_last (sim_canon (by simp [Command.args])) haa fun t ht => ?_
    refine sim_last (Q := fun _ => True) (sim_read fun a b h => ⟨mapRes_congr fun p hp => (h.2 p (by simp [Command.args, hp])).1, fun _ _ => trivial⟩) haa fun ps _ => hu ?_
    exact sim_bind (sim_onDb (sim_isPuts (isPuts_commitTree X.E.H t ps _))) fun k _ => sim_emit _
  | reflogGet refname remote => exact hu (sim_bind (Q := fun _ => True) (sim_readDb fun a b h => ⟨(agree_reflogGet h _ _).1, fun _ _ => trivial⟩) fun k _ => sim_emit _)
  | reflogPush key refname remote => exact sim_last (sim_canon (by simp [Command.args])) haa fun k hk => sim_args (sim_alike (sim_reflogPush _ _ _))
  | walkTree key =>
    refine sim_last (sim_canon (by simp [Command.args])) haa fun k hk => hu ?_
    exact sim_bind (Q := fun _ => True) (sim_readDb fun a b h => ⟨(agree_walk h _ hk).1, fun _ _ => trivial⟩) fun m _ => sim_emitAll _ _ _
  | walkFsTree path => exact hu (sim_bind (Q := fun _ => True) (sim_read fun a b h => ⟨by rw [h.2.2.1], fun _ _ => trivial⟩) fun m _ => sim_emitAll _ _ _)
  | setHead refname => exact sim_args (sim_alike (sim_putHead _))
  | getHead => exact hu (sim_bind (Q := fun _ => True) (sim_readDb fun a b h => ⟨agree_getHead h, fun _ _ => trivial⟩) fun k _ => sim_emit _)

/-! ### Worlds -/

/-- Files, cache, HEADs and refs are the same, and the same writes will fail; the databases hold possibly different objects, but of each the invariants of reachable worlds
hold. -/
structure Twins (H : Bytes → Key) (w v : World) : Prop where
  fs : w.fs = v.fs
  cache : w.cache = v.cache
  kin : ∀ q, (w.dbs q).state = (v.dbs q).state ∧ (w.dbs q).reflog = (v.dbs q).reflog ∧ (w.dbs q).faults = (v.dbs q).faults
  inv : ∀ q, Inv H (w.dbs q) ∧ Inv H (v.dbs q)
  closed : ∀ q, Closed (w.dbs q) ∧ Closed (v.dbs q)

/-- Of all strings ever hashed for either database no two have the same hash. -/
def Apart (H : Bytes → Key) (a b : Db) : Prop := ∀ x, (x ∈ a.hashed ∨ x ∈ b.hashed) → ∀ y, (y ∈ a.hashed ∨ y ∈ b.hashed) → H x = H y → x = y

theorem refs_stored {db : Db} (h : Closed db) {k : Key} {o : Object} (ho : Snap.getObj db k = .ok o) {k' : Key} (hk : k' ∈ o.keys) : Stored db k' := by
  obtain ⟨o', ho'⟩ := h.noDangling.objects k o ho k' hk
  simp only [Snap.getObj] at ho'
  obtain ⟨v, hv, _⟩ := Res.bind_eq_ok ho'
  exact ⟨v, hv⟩

theorem agree_of {H : Bytes → Key} {a b : Db} (ha : Closed a) (hb : Closed b) (hia : Inv H a) (hib : Inv H b) (hs : a.state = b.state) (hr : a.reflog = b.reflog) (hf : a.faults = b.faults)
    (hc : Apart H a b) : Agree (fun k => Stored a k ∧ Stored b k) a b := by
  have hsame : ∀ k, Stored a k → Stored b k → get a k = get b k := by
    rintro k ⟨x, hx⟩ ⟨y, hy⟩
    obtain ⟨h1, h2⟩ := get_hash hia hx
    obtain ⟨h3, h4⟩ := get_hash hib hy
    rw [hx, hy, hc x (Or.inl h2) y (Or.inr h4) (h1.trans h3.symm)]
  refine ⟨fun k h => hsame k h.1 h.2, fun k h => h.1, fun k h o ho k' hk => ⟨refs_stored ha ho hk, refs_stored hb (o := o) (k := k) ?_ hk⟩, hs, hr, hf, fun r h => ?_⟩
  · rw [← ho]; unfold Snap.getObj; rw [hsame k h.1 h.2]
  · obtain ⟨k, h1, h2⟩ := ha.refs r h
    obtain ⟨k', h3, h4⟩ := hb.refs r (hr ▸ h)
    have : k = k' := asDbKey_inj (h1.symm.trans h3)
    subst this
    exact ⟨k, h1, h2, h4⟩

theorem kin_finish {r : Res Unit} {c d : Conn} (h1 : c.durable.state = d.durable.state ∧ c.durable.reflog = d.durable.reflog)
    {a b : Db} (hc : c.work = some a) (hd : d.work = some b) (h2 : a.state = b.state ∧ a.reflog = b.reflog ∧ a.faults = b.faults) :
    (c.finish r).durable.state = (d.finish r).durable.state ∧ (c.finish r).durable.reflog = (d.finish r).durable.reflog ∧ (c.finish r).durable.faults = (d.finish r).durable.faults := by
  obtain ⟨cd, cw⟩ := c
  obtain ⟨dd, dw⟩ := d
  simp only at hc hd h1
  subst hc hd
  obtain ⟨g1, g2, g3⟩ := h2
  cases r with
  | ok u =>
    simp only [Conn.finish, Conn.commit]
    rw [← g3]
    match hf : a.faults with
    | true :: fs => exact ⟨h1.1, h1.2, rfl⟩
    | false :: fs => exact ⟨g1, g2, by simp only [Conn.crash, Conn.view, Db.restore, Option.getD]⟩
    | [] => exact ⟨g1, g2, by simp only [Conn.crash, Conn.view, Db.restore, Option.getD]⟩
  | err e => exact ⟨h1.1, h1.2, g3⟩
  | panic => exact ⟨h1.1, h1.2, g3⟩
  | fuel => exact ⟨h1.1, h1.2, g3⟩

/-- Results and prints of two runs, and the two worlds after them, as far as they have nothing to do with objects. -/
structure Matching (x y : Exit × List Out × World) : Prop where
  exit : x.1 = y.1
  out : x.2.1 = y.2.1
  fs : x.2.2.fs = y.2.2.fs
  cache : x.2.2.cache = y.2.2.cache
  kin : ∀ q, (x.2.2.dbs q).state = (y.2.2.dbs q).state ∧ (x.2.2.dbs q).reflog = (y.2.2.dbs q).reflog ∧ (x.2.2.dbs q).faults = (y.2.2.dbs q).faults

theorem runIn_matching {X : Ctx} {R : Repo} {q : List Bytes} {cmd : Command} {w v : World} (h : Twins X.E.H w v) (hs : ∀ p k, cmd ≠ .compare p k true)
    (hc : Apart X.E.H (w.dbs q) (v.dbs q)) (ha : ∀ key ∈ cmd.args, canonicalize (w.dbs q) key = canonicalize (v.dbs q) key) : Matching (runIn X R q cmd w) (runIn X R q cmd v) := by
  have hagree := agree_of (h.closed q).1 (h.closed q).2 (h.inv q).1 (h.inv q).2 (h.kin q).1 (h.kin q).2.1 (h.kin q).2.2 hc
  have hstart : AgreeArgs (fun k => Stored (w.dbs q) k ∧ Stored (v.dbs q) k) cmd.args (startOf w q) (startOf v q) :=
    ⟨⟨hagree, h.cache, h.fs, rfl⟩, fun key hk => ⟨ha key hk, fun k hk' => ⟨canonicalize_stored (h.closed q).1 hk', canonicalize_stored (h.closed q).2 ((ha key hk).symm.trans hk')⟩⟩⟩
  obtain ⟨h1, ⟨h2, h3, h4, h5⟩, _⟩ := sim_command X R cmd hs _ _ hstart
  have e : ∀ u : World, runIn X R q cmd u = (exitOf (cmd.inRepo X R (startOf u q)).1 (Cache.finish (cmd.inRepo X R (startOf u q)).1 u.cache (cmd.inRepo X R (startOf u q)).2.cache).1,
      (cmd.inRepo X R (startOf u q)).2.out, { u with fs := (cmd.inRepo X R (startOf u q)).2.fs, cache := (Cache.finish (cmd.inRepo X R (startOf u q)).1 u.cache (cmd.inRepo X R (startOf u q)).2.cache).2 }.setDb q
        ((Conn.mk (u.dbs q) (some (cmd.inRepo X R (startOf u q)).2.db)).finish (cmd.inRepo X R (startOf u q)).1).durable) := fun _ => rfl
  rw [e w, e v]
  refine ⟨?_, h5, h4, ?_, fun q' => ?_⟩
  · simp only [h1, h3, h.cache]
  · simp only [World.setDb, h1, h3, h.cache]
  · simp only [World.setDb]
    by_cases hq : q' = q
    · simp only [if_pos hq, ← h1]
      exact kin_finish ⟨(h.kin q).1, (h.kin q).2.1⟩ rfl rfl h2
    · simp only [if_neg hq]
      exact h.kin q'

theorem Twins.matching {H : Bytes → Key} {w v : World} (h : Twins H w v) (e : Exit) (o : List Out) : Matching (e, o, w) (e, o, v) := ⟨rfl, rfl, h.fs, h.cache, h.kin⟩

theorem runOut_matching {X : Ctx} {cmd : Command} {w v : World} (h : Twins X.E.H w v) : Matching (runOut X cmd w) (runOut X cmd v) := by
  unfold runOut
  rw [h.fs, h.cache]
  exact ⟨rfl, rfl, rfl, rfl, h.kin⟩

theorem runInit_matching {X : Ctx} {w v : World} (h : Twins X.E.H w v) : (runInit X w).1 = (runInit X v).1 ∧ (runInit X w).2.fs = (runInit X v).2.fs ∧
    ∀ q, ((runInit X w).2.dbs q).state = ((runInit X v).2.dbs q).state ∧ ((runInit X w).2.dbs q).reflog = ((runInit X v).2.dbs q).reflog ∧ ((runInit X w).2.dbs q).faults = ((runInit X v).2.dbs q).faults := by
  unfold runInit
  rw [← h.fs]
  cases Fs.createDirAll X.dbPath w.fs with
  | mk r fs =>
    cases r with
    | ok u =>
      simp only
      cases openDb fs X.dbPath with
      | ok q =>
        obtain ⟨g1, g2, _⟩ := sim_putHead sMaster { db := w.dbs q } { db := v.dbs q } ⟨h.kin q, rfl, rfl, rfl⟩
        refine ⟨g1, rfl, fun q' => ?_⟩
        simp only [World.setDb]
        by_cases hq : q' = q
        · simp only [if_pos hq]
          exact g2.1
        · simp only [if_neg hq]
          exact h.kin q'
      | err e => exact ⟨rfl, rfl, h.kin⟩
      | panic => exact ⟨rfl, rfl, h.kin⟩
      | fuel => exact ⟨rfl, rfl, h.kin⟩
    | err e => exact ⟨rfl, rfl, h.kin⟩
    | panic => exact ⟨rfl, rfl, h.kin⟩
    | fuel => exact ⟨rfl, rfl, h.kin⟩

theorem main_matching {X : Ctx} {cmd : Command} {w v : World} (h : Twins X.E.H w v) (hs : ∀ p k, cmd ≠ .compare p k true)
    (hc : ∀ q, Apart X.E.H (w.dbs q) (v.dbs q)) (ha : ∀ q, ∀ key ∈ cmd.args, canonicalize (w.dbs q) key = canonicalize (v.dbs q) key) : Matching (mainRun X cmd w) (mainRun X cmd v) := by
  have hinit : Matching (let r := runInit X w; let ca := Cache.finish r.1 w.cache w.cache; (exitOf r.1 ca.1, ([] : List Out), { r.2 with cache := ca.2 }))
      (let r := runInit X v; let ca := Cache.finish r.1 v.cache v.cache; (exitOf r.1 ca.1, [], { r.2 with cache := ca.2 })) := by
    obtain ⟨g1, g2, g3⟩ := runInit_matching h
    simp only [← g1, ← h.cache]
    exact ⟨rfl, rfl, g2, rfl, g3⟩
  unfold mainRun
  rw [← h.fs]
  cases findDbFolder w.fs X.dbPath with
  | err e => exact h.matching _ _
  | panic => exact h.matching _ _
  | fuel => exact h.matching _ _
  | ok found =>
    cases found with
    | none =>
      cases cmd <;> first | exact hinit | exact runOut_matching h
    | some x =>
      simp only
      cases Path.parent x with
      | none => exact h.matching _ _
      | some root =>
        simp only
        cases openDb w.fs x with
        | err e => exact h.matching _ _
        | panic => exact h.matching _ _
        | fuel => exact h.matching _ _
        | ok q =>
          cases cmd <;> first | exact hinit | exact runIn_matching h hs (hc q) (ha q)

/-! ### C72 -/

/-- **C72**: the objects that only one of two databases holds make no difference: if HEAD, refs, files and cache are the same, a command ends the same way, prints the same,
and leaves the same files, cache, HEAD and refs, so that the worlds after it are again alike. Its key arguments, if they are abbreviations, must mean the same in both.
`compare --stat` is left out: it also reads objects whose keys it knows from the cache (`C72_counterexample`). -/
theorem C72_step {X : Ctx} {cmd : Command} {w v : World} (h : Twins X.E.H w v) (hs : ∀ p k, cmd ≠ .compare p k true)
    (hc : ∀ q, Apart X.E.H (w.dbs q) (v.dbs q)) (ha : ∀ q, ∀ key ∈ cmd.args, canonicalize (w.dbs q) key = canonicalize (v.dbs q) key) :
    (mainRun X cmd w).1 = (mainRun X cmd v).1 ∧ (mainRun X cmd w).2.1 = (mainRun X cmd v).2.1 ∧ Twins X.E.H (mainRun X cmd w).2.2 (mainRun X cmd v).2.2 := by
  have hm := main_matching h hs hc ha
  have hinv : ∀ u : World, (∀ q, Inv X.E.H (u.dbs q)) → ∀ q, Inv X.E.H ((mainRun X cmd u).2.2.dbs q) := by
    intro u hu q
    obtain ⟨cs, h1, h2⟩ := step_calls (.run X rfl cmd u) q
    exact h2.inv (calls_inv h1 (hu q))
  exact ⟨hm.exit, hm.out, hm.fs, hm.cache, hm.kin, fun q => ⟨hinv w (fun q => (h.inv q).1) q, hinv v (fun q => (h.inv q).2) q⟩,
    fun q => ⟨main_closed X cmd w q (h.closed q).1, main_closed X cmd v q (h.closed q).2⟩⟩

/-- Keys are given by refs only, and it is not `compare --stat`. -/
def _root_.Snap.Command.ByRef (cmd : Command) : Prop := (∀ p k, cmd ≠ .compare p k true) ∧ ∀ key ∈ cmd.args, ∃ orig remote name, key = .reflog orig remote name

/-- A session: before each command the files are edited. What the commands print and how they end, and the world at the end. -/
def Spec.session : List (Ctx × Command × (Fs → Fs)) → World → List (Exit × List Out) × World
  | [], w => ([], w)
  | (X, cmd, edit) :: l, w =>
    let r := mainRun X cmd { w with fs := edit w.fs }
    let t := Spec.session l r.2.2
    ((r.1, r.2.1) :: t.1, t.2)

theorem main_hashed (X : Ctx) (cmd : Command) (w : World) (q : List Bytes) : ∀ x ∈ (w.dbs q).hashed, x ∈ ((mainRun X cmd w).2.2.dbs q).hashed := by
  intro x hx
  obtain ⟨cs, _, h2⟩ := any_calls X cmd w q
  exact h2.2 x (calls_hashed _ _ _ x hx)

theorem session_hashed (l : List (Ctx × Command × (Fs → Fs))) (w : World) (q : List Bytes) : ∀ x ∈ (w.dbs q).hashed, x ∈ ((Spec.session l w).2.dbs q).hashed := by
  induction l generalizing w with
  | nil => exact fun _ h => h
  | cons a l ih =>
    obtain ⟨X, cmd, edit⟩ := a
    exact fun x hx => ih _ x (main_hashed X cmd { w with fs := edit w.fs } q x hx)

/-- The same for whole sessions with keys given by refs: what no ref leads to can never be noticed. -/
theorem C72_session {H : Bytes → Key} {w v : World} (h : Twins H w v) (l : List (Ctx × Command × (Fs → Fs))) (hl : ∀ e ∈ l, e.1.E.H = H ∧ e.2.1.ByRef)
    (hc : ∀ q, Apart H ((Spec.session l w).2.dbs q) ((Spec.session l v).2.dbs q)) :
    (Spec.session l w).1 = (Spec.session l v).1 ∧ Twins H (Spec.session l w).2 (Spec.session l v).2 := by
  induction l generalizing w v with
  | nil => exact ⟨rfl, h⟩
  | cons a l ih =>
    obtain ⟨X, cmd, edit⟩ := a
    obtain ⟨hX, hr⟩ := hl (X, cmd, edit) (by simp)
    simp only at hX hr
    subst hX
    have h' : Twins X.E.H { w with fs := edit w.fs } { v with fs := edit v.fs } := ⟨by simp only [h.fs], h.cache, h.kin, h.inv, h.closed⟩
    have hap : ∀ q, Apart X.E.H (w.dbs q) (v.dbs q) := by
      intro q x hx y hy
      have hm : ∀ z, (z ∈ (w.dbs q).hashed ∨ z ∈ (v.dbs q).hashed) → _ := fun z hz =>
        Or.imp (session_hashed ((X, cmd, edit) :: l) w q z) (session_hashed ((X, cmd, edit) :: l) v q z) hz
      exact hc q x (hm x hx) y (hm y hy)
    obtain ⟨h1, h2, h3⟩ := C72_step (cmd := cmd) h' hr.1 hap (by
      intro q key hk
      obtain ⟨o, r, n, rfl⟩ := hr.2 key hk
      simp only [canonicalize, reflogGet, refRows, (h.kin q).2.1])
    obtain ⟨g1, g2⟩ := ih h3 (fun e he => hl e (by simp [he])) hc
    refine ⟨?_, g2⟩
    simp only [Spec.session]
    rw [h1, h2, g1]

/-! ### Sweeping -/

/-- What the refs lead to. -/
inductive Spec.Live (db : Db) : Key → Prop where
  | ref (r : RefRow) (hr : r ∈ db.reflog) (k : Key) (hk : r.key = k.asDbKey) : Spec.Live db k
  | sub {k k' : Key} (h : Spec.Live db k) (hr : Spec.Refers db k k') : Spec.Live db k'

/-- Removing rows of `data`, but none that a ref leads to, nor one that a remaining object refers to. -/
structure Spec.Swept (a b : Db) : Prop where
  rows : b.data.Sublist a.data
  live : ∀ k, Spec.Live a k → ∀ v, get a k = .ok v → get b k = .ok v
  sub : ∀ k k', Spec.Refers b k k' → ∃ v, get b k' = .ok v
  rest : b.state = a.state ∧ b.reflog = a.reflog ∧ b.faults = a.faults ∧ b.hashed = a.hashed

theorem Closed.pairwise {db : Db} (h : Closed db) (hn : (db.data.map (·.1)).Nodup) :
    db.data.Pairwise fun x y => ∀ o : Object, o.encode = .ok x.2 → ∀ k ∈ o.keys, y.1 ≠ k.asDbKey := by
  rw [List.pairwise_iff_forall_sublist]
  intro x y hxy o ho k hk e
  obtain ⟨r₁, r₂, e1, h1, h2⟩ := List.cons_sublist_iff.mp hxy
  obtain ⟨p, t, rfl⟩ := List.append_of_mem h1
  have h2 : y ∈ r₂ := by simpa using h2
  obtain ⟨o', g1, _, g3⟩ := h.order p x (t ++ r₂) (by rw [e1]; simp)
  have : o' = o := by
    have a1 := Object.decode_encode g1
    rw [Object.decode_encode ho] at a1
    exact (Res.ok.inj a1).symm
  subst this
  obtain ⟨r', g4, g5⟩ := g3 k hk
  rw [e1] at hn
  simp only [List.map_append, List.map_cons, List.append_assoc] at hn
  have := (List.nodup_append.mp hn).2.2 r'.1 (List.mem_map.mpr ⟨r', g4, rfl⟩) y.1 (by simp only [List.cons_append, List.mem_cons, List.mem_append]; exact Or.inr (Or.inr (List.mem_map.mpr ⟨y, h2, rfl⟩)))
  exact this (g5.trans e.symm)

theorem Closed.swept {H : Bytes → Key} {a b : Db} (h : Closed a) (hi : Inv H a) (hs : Spec.Swept a b) : Closed b := by
  have hn := hi.nodup
  have hnb : (b.data.map (·.1)).Nodup := List.Nodup.sublist (List.Sublist.map _ hs.rows) hn
  refine ⟨fun pre r post e => ?_, fun r hr => ?_⟩
  · have hrb : r ∈ b.data := by rw [e]; simp
    have hra := hs.rows.subset hrb
    obtain ⟨p, t, ep⟩ := List.append_of_mem hra
    obtain ⟨o, h1, h2, h3⟩ := h.order p r t ep
    refine ⟨o, h1, h2, fun k hk => ?_⟩
    obtain ⟨r'', g1, g2⟩ := h3 k hk
    have hobj : Snap.getObj b (H r.2) = .ok o := by
      unfold Snap.getObj
      have : get b (H r.2) = .ok r.2 := get_eq_ok.mpr (assoc_of_mem_nodup hnb (by rw [← (hi.rows r hra).1]; exact hrb))
      rw [this]
      exact Object.decode_encode h1
    obtain ⟨r', g3, g4⟩ := stored_iff.mp (hs.sub _ _ ⟨o, hobj, hk⟩)
    have g3' := g3
    rw [e] at g3
    rcases List.mem_append.mp g3 with g3 | g3
    · exact ⟨r', g3, g4⟩
    rcases List.mem_cons.mp g3 with rfl | g3
    · exfalso
      rw [ep] at hn
      simp only [List.map_append, List.map_cons] at hn
      exact (List.nodup_append.mp hn).2.2 r''.1 (List.mem_map.mpr ⟨r'', g1, rfl⟩) r'.1 (by simp) (g2.trans g4.symm)
    · exfalso
      have hsub : [r, r'].Sublist a.data := by
        refine List.Sublist.trans ?_ hs.rows
        rw [e]
        exact List.Sublist.trans (List.Sublist.cons_cons r (List.singleton_sublist.mpr g3)) (List.sublist_append_right _ _)
      exact List.pairwise_iff_forall_sublist.mp (h.pairwise hn) hsub o h1 k hk g4
  · rw [hs.rest.2.1] at hr
    obtain ⟨k, h1, v, h2⟩ := h.refs r hr
    exact ⟨k, h1, v, hs.live k (.ref r hr k h1) v h2⟩

/-- **C72**: sweeping the databases of a reachable world gives a world to which `C72_step` and `C72_session` apply. -/
theorem C72_swept {H : Bytes → Key} {w v : World} (h : w.Reachable H) (hfs : v.fs = w.fs) (hca : v.cache = w.cache) (hs : ∀ q, Spec.Swept (w.dbs q) (v.dbs q)) : Twins H w v := by
  refine ⟨hfs.symm, hca.symm, fun q => ⟨(hs q).rest.1.symm, (hs q).rest.2.1.symm, (hs q).rest.2.2.1.symm⟩, fun q => ⟨World.Reachable.inv h q, ?_⟩,
    fun q => ⟨World.Reachable.closed h q, Closed.swept (World.Reachable.closed h q) (World.Reachable.inv h q) (hs q)⟩⟩
  have hi := World.Reachable.inv h q
  exact ⟨List.Nodup.sublist (List.Sublist.map _ (hs q).rows) hi.nodup, fun r hr => by rw [(hs q).rest.2.2.2]; exact hi.rows r ((hs q).rows.subset hr)⟩

/-- Everything that no ref leads to can be removed at once. -/
theorem C72_all_garbage {H : Bytes → Key} {w : World} (h : w.Reachable H) (q : List Bytes) (keep : Bytes × Bytes → Bool)
    (hk : ∀ r ∈ (w.dbs q).data, keep r = true ↔ ∃ k, r.1 = k.asDbKey ∧ Spec.Live (w.dbs q) k) : Spec.Swept (w.dbs q) { w.dbs q with data := (w.dbs q).data.filter keep } := by
  have hi := World.Reachable.inv h q
  have hcl := World.Reachable.closed h q
  have hn : (((w.dbs q).data.filter keep).map (·.1)).Nodup := List.Nodup.sublist (List.Sublist.map _ List.filter_sublist) hi.nodup
  have hlive : ∀ k, Spec.Live (w.dbs q) k → ∀ v, get (w.dbs q) k = .ok v → get { w.dbs q with data := (w.dbs q).data.filter keep } k = .ok v := by
    intro k hl v hv
    have hm := assoc_some_mem (get_eq_ok.mp hv)
    exact get_eq_ok.mpr (assoc_of_mem_nodup hn (List.mem_filter.mpr ⟨hm, (hk _ hm).mpr ⟨k, rfl, hl⟩⟩))
  refine ⟨List.filter_sublist, hlive, ?_, rfl, rfl, rfl, rfl⟩
  rintro k k' ⟨o, ho, hk'⟩
  have ho2 := ho
  simp only [Snap.getObj] at ho
  obtain ⟨v, hv, hd⟩ := Res.bind_eq_ok ho
  have hm := List.mem_filter.mp (assoc_some_mem (get_eq_ok.mp hv))
  obtain ⟨k₂, e, hl⟩ := (hk _ hm.1).mp hm.2
  have : k = k₂ := asDbKey_inj e
  subst this
  have hw : get (w.dbs q) k = .ok v := get_eq_ok.mpr (assoc_of_mem_nodup hi.nodup hm.1)
  have hobj : Snap.getObj (w.dbs q) k = .ok o := by simp only [Snap.getObj]; rw [hw]; exact hd
  obtain ⟨v', hv'⟩ := refs_stored hcl hobj hk'
  exact ⟨v', hlive k' (.sub hl ⟨o, hobj, hk'⟩) v' hv'⟩

/-- It is enough that nothing dangles in what remains. -/
theorem swept_of_closed {a b : Db} (hn : (a.data.map (·.1)).Nodup) (hb : Closed b) (hr : b.data.Sublist a.data)
    (hx : b.state = a.state ∧ b.reflog = a.reflog ∧ b.faults = a.faults ∧ b.hashed = a.hashed) : Spec.Swept a b := by
  have hsame : ∀ k v, get b k = .ok v → get a k = .ok v := fun k v hv => get_eq_ok.mpr (assoc_of_mem_nodup hn (hr.subset (assoc_some_mem (get_eq_ok.mp hv))))
  have hl : ∀ k, Spec.Live a k → Stored b k := by
    intro k h
    induction h with
    | ref r hr k hk =>
      obtain ⟨k', h1, h2⟩ := hb.refs r (hx.2.1 ▸ hr)
      have : k = k' := asDbKey_inj (hk.symm.trans h1)
      subst this
      exact h2
    | @sub k k' _ hr ih =>
      obtain ⟨o, ho, hk⟩ := hr
      obtain ⟨v, hv⟩ := ih
      refine refs_stored hb (k := k) (o := o) ?_ hk
      rw [← ho]
      unfold Snap.getObj
      rw [hv, hsame _ v hv]
  refine ⟨hr, fun k h v hv => ?_, fun k k' ⟨o, ho, hk⟩ => refs_stored hb ho hk, hx⟩
  obtain ⟨v', hv'⟩ := hl k h
  have := hsame k v' hv'
  rw [hv] at this
  rw [hv', Res.ok.inj this]

end Snap.Props
