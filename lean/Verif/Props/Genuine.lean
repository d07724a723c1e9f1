import Verif.Lemmas.Above
import Verif.Props.Collect
import Verif.Props.Commands
import Verif.Props.Fetchable
/-! Property C92: a key determines what is read, in whatever database. -/
namespace Snap.Props
open Snap
set_option linter.unusedSectionVars false
variable [Serde] [LawfulSerde]

variable {T : Bytes → Prop} {α : Type}

/-! ### Printing -/

section
variable {H : Bytes → Key}

theorem aboveOut (s t : Db × List Out) (h : AboveFst H T s t) : s.2 = t.2 := h.2

theorem up_say (o : Out) : Up Prod.fst Prod.snd T (AboveFst H T) (say o) :=
  ⟨fun _ _ h => h, fun s => List.prefix_append _ _, fun s t hr _ v hv => ⟨hv, hr.1, by simp only [say, SM.modify_apply, hr.2]⟩, fun s t hr _ hv => by cases hv⟩

theorem up_readTo (n : Nat) (k : Key) :
    Up Prod.fst Prod.snd T (AboveFst H T) (fun s => let r := readDataTo s.1 (fun d => SM.modify (· ++ [Out.data d])) n k s.2; (r.1, (s.1, r.2)) : P Unit) := by
  have hl : ∀ {a b : Db}, Incl a b → Leads (fun x y : List Out => x <+: y) (readDataTo a (fun d => SM.modify (· ++ [Out.data d])) n k) (readDataTo b (fun d => SM.modify (· ++ [Out.data d])) n k) :=
    fun h => leads_readDataTo h (fun _ => List.prefix_refl _) (fun _ _ _ h g => h.trans g) (fun d s => List.prefix_append _ _) n k
  refine ⟨fun _ _ h => h, fun s => (hl (a := s.1) (fun _ _ h => h) s.2).1, fun s t hr _ v hv => ?_, fun s t hr _ hv => ?_⟩
  · obtain ⟨s1, s2⟩ := s
    obtain ⟨t1, t2⟩ := t
    obtain ⟨h1, rfl⟩ := hr
    have := (hl h1.incl s2).2.1 v hv
    simp only at this ⊢
    rw [this]
    exact ⟨hv, h1, rfl⟩
  · obtain ⟨s1, s2⟩ := s
    obtain ⟨t1, t2⟩ := t
    obtain ⟨h1, rfl⟩ := hr
    exact (hl h1.incl s2).2.2 hv
end

section
variable (E : Env) (hT : ∀ x y, T x → T y → E.H x = E.H y → x = y)
include hT

theorem up_compareDb (fs : Fs) (iter : Nat → List Path → List Path) (n : Nat) (k to : Option Key) : Up Prod.fst Prod.snd T (AboveFst E.H T) (compareDb E fs iter n k to) := by
  cases k with
  | none => exact ⟨fun _ _ h => h, fun s => List.prefix_refl _, fun s t hr _ v hv => (by cases hv), fun s t hr _ hv => (by show s.2 <+: t.2; rw [hr.2]; exact List.prefix_refl _)⟩
  | some k =>
    have h := up_compare E hT fs iter n (.database k) to
    refine ⟨fun s => h.hashed (s.1, {}), fun s => List.prefix_refl _, fun s t hr hh v hv => ?_, fun s t hr _ hv => ?_⟩
    · obtain ⟨h1, h2⟩ := h.same (s.1, {}) (t.1, {}) ⟨hr.1, rfl⟩ hh v hv
      exact ⟨h1, h2.1, hr.2⟩
    · show s.2 <+: t.2
      rw [hr.2]; exact List.prefix_refl _

theorem up_displayChanges (lib : DiffLib) (fs : Fs) (iter : Nat → List Path → List Path) (n : Nat) (kind : Kind) (c : Commit) :
    Up Prod.fst Prod.snd T (AboveFst E.H T) (displayChanges E lib fs iter n kind c) := by
  unfold displayChanges
  refine up_bind ?_ fun tree => ?_
  · match c.parents with
    | [] => exact up_pure aboveOut _
    | p :: _ => exact up_bind (up_read aboveOut fun s t h => incl_fromKey h.1.incl p) fun parent => up_pure aboveOut _
  refine up_bind (up_unwrap (up_compareDb E hT fs iter n _ tree)) fun dr => ?_
  cases kind with
  | stat => exact up_bind (up_read aboveOut fun s t h => incl_printedStat h.1.incl lib n dr) fun l => up_say _
  | patch => exact up_bind (up_read aboveOut fun s t h => incl_createPatch h.1.incl lib n dr) fun l => up_say _

theorem up_displayObj (lib : DiffLib) (fs : Fs) (iter : Nat → List Path → List Path) (n : Nat) (kind : Kind) (f : Nat) (k : Key) :
    Up Prod.fst Prod.snd T (AboveFst E.H T) (displayObj E lib fs iter n kind f k) := by
  induction f generalizing k with
  | zero => exact up_lift aboveOut _
  | succ f ih =>
    unfold displayObj
    refine up_bind (up_read aboveOut fun s t h => resLeads_unwrap (incl_getObj h.1.incl k)) fun o => ?_
    cases o.objtype with
    | fileBlobTree => exact up_readTo n k
    | fileBlob => exact up_readTo n k
    | fsItemFile =>
      simp only
      match o.keys with
      | [k'] => exact ih k'
      | [] => exact up_panic aboveOut
      | _ :: _ :: _ => exact up_panic aboveOut
    | commit => exact up_bind (up_lift aboveOut _) fun c => up_bind (up_say _) fun _ => up_displayChanges E hT lib fs iter n kind c
    | fsItemDir => exact up_say _
    | unknown => exact up_panic aboveOut

theorem up_logLoop (lib : DiffLib) (fs : Fs) (iter : Nat → List Path → List Path) (n : Nat) (kind : Kind) (f : Nat) (c : Commit) :
    Up Prod.fst Prod.snd T (AboveFst E.H T) (logLoop E lib fs iter n kind f c) := by
  induction f generalizing c with
  | zero => exact up_lift aboveOut _
  | succ f ih =>
    unfold logLoop
    match c.parents with
    | [] => exact up_pure aboveOut _
    | p :: _ => exact up_bind (up_displayObj E hT lib fs iter n kind n p) fun _ => up_bind (up_read aboveOut fun s t h => incl_fromKey h.1.incl p) fun c => ih c

theorem up_logObj (lib : DiffLib) (fs : Fs) (iter : Nat → List Path → List Path) (n : Nat) (kind : Kind) (k : Key) :
    Up Prod.fst Prod.snd T (AboveFst E.H T) (logObj E lib fs iter n kind k) := by
  unfold logObj
  refine up_bind (up_read aboveOut fun s t h => resLeads_unwrap (incl_getObj h.1.incl k)) fun o => ?_
  cases o.objtype with
  | commit => exact up_bind (up_displayObj E hT lib fs iter n kind n k) fun _ => up_bind (up_read aboveOut fun s t h => incl_fromKey h.1.incl k) fun c => up_logLoop E hT lib fs iter n kind n c
  | _ => exact up_panic aboveOut
end

/-! ### Commands -/

/-- Databases related by `Above`, the rest equal. -/
def AboveSys (H : Bytes → Key) (T : Bytes → Prop) (s t : Sys) : Prop := Above H T s.db t.db ∧ s.cache = t.cache ∧ s.fs = t.fs ∧ s.out = t.out

section
variable {H : Bytes → Key}

theorem aboveSysOut (s t : Sys) (h : AboveSys H T s t) : s.out = t.out := h.2.2.2

theorem up_emit (o : Out) : Up Sys.db Sys.out T (AboveSys H T) (emit o) :=
  ⟨fun _ _ h => h, fun s => List.prefix_append _ _, fun s t hr _ v hv => ⟨hv, hr.1, hr.2.1, hr.2.2.1, by simp only [emit, SM.modify_apply, hr.2.2.2]⟩, fun s t hr _ hv => by cases hv⟩

theorem up_readDb {f : Db → Res α} (h : ∀ a b, Above H T a b → ResLeads (f a) (f b)) : Up Sys.db Sys.out T (AboveSys H T) (readDb f) :=
  up_read aboveSysOut fun s t hr => h s.db t.db hr.1

theorem up_onDb {x : M α} (h : Up id (fun _ => []) T (Above H T) x) : Up Sys.db Sys.out T (AboveSys H T) (onDb x) := by
  refine ⟨fun s => h.hashed s.db, fun s => List.prefix_refl _, fun s t hr hh v hv => ?_, fun s t hr _ hv => ?_⟩
  · obtain ⟨h1, h2⟩ := h.same s.db t.db hr.1 hh v hv
    exact ⟨h1, h2, hr.2⟩
  · show s.out <+: t.out
    rw [hr.2.2.2]; exact List.prefix_refl _

theorem up_write {f : Db → Db} (hf : ∀ a : Db, (f a).data = a.data ∧ (f a).hashed = a.hashed) (hg : ∀ a b : Db, a.state = b.state → a.reflog = b.reflog → a.faults = b.faults →
      (f a).state = (f b).state ∧ (f a).reflog = (f b).reflog ∧ (f a).faults = (f b).faults) : Up id (fun _ => []) T (Above H T) (write f) := by
  refine ⟨fun s y hy => ?_, fun _ => List.prefix_refl _, fun s t hr hh v hv => ?_, fun _ _ _ _ _ => List.prefix_refl _⟩
  · unfold write
    simp only [id]
    split
    · exact hy
    · rw [(hf _).2]; exact hy
  · have hd : ∀ (x : Db) k, get (f { x with faults := x.faults.tail }) k = get x k := by intro x k; unfold get rawGet; rw [(hf _).1]
    unfold write at hv ⊢
    rw [← hr.faults]
    match hfa : s.faults with
    | true :: fs => rw [hfa] at hv; cases hv
    | false :: fs =>
      have e := hg { s with faults := fs } { t with faults := fs } hr.state hr.reflog rfl
      refine ⟨rfl, fun k v hk => ?_, e.1, e.2.1, e.2.2, by rw [(hf _).1]; exact hr.left, by rw [(hf _).1]; exact hr.right⟩
      simp only [get, rawGet, (hf _).1] at hk ⊢; exact hr.incl k v hk
    | [] =>
      have e := hg { s with faults := [] } { t with faults := [] } hr.state hr.reflog rfl
      refine ⟨rfl, fun k v hk => ?_, e.1, e.2.1, e.2.2, by rw [(hf _).1]; exact hr.left, by rw [(hf _).1]; exact hr.right⟩
      simp only [get, rawGet, (hf _).1] at hk ⊢; exact hr.incl k v hk

theorem up_reflogPush (n : Bytes) (r : Option Bytes) (k : Key) : Up Sys.db Sys.out T (AboveSys H T) (onDb (reflogPush n r k)) :=
  up_onDb (up_write (fun _ => ⟨rfl, rfl⟩) fun a b h1 h2 h3 => ⟨h1, by simp only [h2], h3⟩)
theorem up_putHead (n : Bytes) : Up Sys.db Sys.out T (AboveSys H T) (onDb (putHead n)) :=
  up_onDb (up_write (f := fun db => { db with state := insertReplace db.state sHEAD n }) (fun _ => ⟨rfl, rfl⟩) fun a b h1 h2 h3 => ⟨by simp only [h1], h2, h3⟩)

theorem up_onP {x : Fs → P α} (h : ∀ fs, Up Prod.fst Prod.snd T (AboveFst H T) (x fs)) : Up Sys.db Sys.out T (AboveSys H T) (fun s => onP (x s.fs) s : C α) := by
  refine ⟨fun s => (h s.fs).hashed (s.db, s.out), fun s => (h s.fs).grows (s.db, s.out), fun s t hr hh v hv => ?_, fun s t hr hh hv => ?_⟩
  · obtain ⟨h1, h2⟩ := (h s.fs).same (s.db, s.out) (t.db, t.out) ⟨hr.1, hr.2.2.2⟩ hh v hv
    have e : s.fs = t.fs := hr.2.2.1
    rw [e] at h1 h2
    refine ⟨h1, ?_, hr.2.1, hr.2.2.1, ?_⟩
    · show Above H T (x s.fs (s.db, s.out)).2.1 _; rw [e]; exact h2.1
    · show (x s.fs (s.db, s.out)).2.2 = _; rw [e]; exact h2.2
  · have := (h s.fs).fails (s.db, s.out) (t.db, t.out) ⟨hr.1, hr.2.2.2⟩ hh hv
    rw [hr.2.2.1] at this
    show (x s.fs (s.db, s.out)).2.2 <+: _
    rw [hr.2.2.1]; exact this

theorem up_onFs {le : Fs → Fs → Prop} {x : Db → SM Fs Unit} (h : ∀ a b, Incl a b → Leads le (x a) (x b)) : Up Sys.db Sys.out T (AboveSys H T) (fun s => onFs (x s.db) s : C Unit) := by
  refine ⟨fun s _ h => h, fun s => List.prefix_refl _, fun s t hr hh v hv => ?_, fun s t hr _ hv => ?_⟩
  · have := (h s.db t.db hr.1.incl s.fs).2.1 v hv
    have hv' : (x s.db s.fs).1 = .ok v := hv
    simp only [onFs, SM.on, ← hr.2.2.1, this]
    exact ⟨hv', hr.1, hr.2.1, rfl, hr.2.2.2⟩
  · show s.out <+: t.out
    rw [hr.2.2.2]; exact List.prefix_refl _

theorem up_emitAll (order : List Path → List Path) (m : PMap α) (line : Path → α → Out) : Up Sys.db Sys.out T (AboveSys H T) (emitAll order m line) := by
  refine up_each aboveSysOut (fun p => ?_) _
  cases m.get p with
  | none => exact up_pure aboveSysOut _
  | some v => exact up_emit _

theorem above_headName {a b : Db} (h : Above H T a b) : headName a = headName b := by unfold headName getHead rawGetState; rw [h.state]
theorem above_refOrHead {a b : Db} (h : Above H T a b) (r : Option Bytes) : refOrHead a r = refOrHead b r := by cases r with
  | none => exact above_headName h
  | some r => rfl
theorem above_reflogGet {a b : Db} (h : Above H T a b) (n : Bytes) (r : Option Bytes) : reflogGet a n r = reflogGet b n r := by unfold reflogGet refRows; rw [h.reflog]
theorem above_getHeadKey {a b : Db} (h : Above H T a b) : getHeadKey a = getHeadKey b := by
  unfold getHeadKey; rw [above_headName h]; congr 1; funext r; exact above_reflogGet h r none
theorem above_eq {f : Db → Res α} {a b : Db} (h : f a = f b) : ResLeads (f a) (f b) := by rw [h]; exact resLeads_refl _
end

theorem up_compareWork (X : Ctx) (hT : ∀ x y, T x → T y → X.E.H x = X.E.H y → x = y) (R : Repo) (path : Path) (to : Option Key) : Up Sys.db Sys.out T (AboveSys X.E.H T) (compareWork X R path to) := by
  refine ⟨fun s => (up_compare X.E hT s.fs X.iter X.depth (.fileSystem path X.glob R.folder) to).hashed (s.db, s.cache), fun s => List.prefix_refl _, fun s t hr hh v hv => ?_, fun s t hr _ hv => ?_⟩
  · obtain ⟨h1, h2⟩ := (up_compare X.E hT s.fs X.iter X.depth (.fileSystem path X.glob R.folder) to).same (s.db, s.cache) (t.db, t.cache) ⟨hr.1, hr.2.1⟩ hh v hv
    unfold compareWork
    rw [← hr.2.2.1]
    exact ⟨h1, h2.1, h2.2, hr.2.2⟩
  · show s.out <+: t.out
    rw [hr.2.2.2]; exact List.prefix_refl _

theorem up_put_onDb (X : Ctx) (hT : ∀ x y, T x → T y → X.E.H x = X.E.H y → x = y) (R : Repo) (path : Path) :
    Up Sys.db Sys.out T (AboveSys X.E.H T) (fun s => onDb (putFsItem X.E s.fs (makeFilter X.glob R.folder) X.depth path) s : C Key) := by
  have h := fun fs => up_onDb (up_isPuts hT (isPuts_putFsItem X.E fs (makeFilter X.glob R.folder) X.depth path))
  refine ⟨fun s => (h s.fs).hashed s, fun s => (h s.fs).grows s, fun s t hr hh v hv => ?_, fun s t hr hh hv => ?_⟩
  · have := (h s.fs).same s t hr hh v hv
    rw [← hr.2.2.1]
    exact this
  · have := (h s.fs).fails s t hr hh hv
    rw [← hr.2.2.1]
    exact this

/-- What `Up` says of two states. -/
def UpAt (T : Bytes → Prop) (R : Sys → Sys → Prop) (x : C α) (s t : Sys) : Prop :=
  (∀ y ∈ (x s).2.db.hashed, T y) → (∀ v, (x s).1 = .ok v → (x t).1 = .ok v ∧ R (x s).2 (x t).2) ∧ ((x s).1.isOk = false → (x s).2.out <+: (x t).2.out)

theorem upAt_of {R : Sys → Sys → Prop} {x : C α} (h : Up Sys.db Sys.out T R x) {s t : Sys} (hr : R s t) : UpAt T R x s t := fun hh => ⟨h.same s t hr hh, h.fails s t hr hh⟩

theorem upAt_read {β : Type} {R : Sys → Sys → Prop} {f : Sys → Res α} {g : α → C β} {s t : Sys} (hf : f s = f t) (ho : s.out = t.out) (h : ∀ v, UpAt T R (g v) s t) : UpAt T R (SM.read f >>= g) s t := by
  unfold UpAt
  rw [SM.bind_apply, SM.bind_apply]
  simp only [SM.read_apply, ← hf]
  cases f s with
  | ok v => exact h v
  | err e => exact fun _ => ⟨fun _ h => (by cases h), fun _ => by simp only [ho]; exact List.prefix_refl _⟩
  | panic => exact fun _ => ⟨fun _ h => (by cases h), fun _ => by simp only [ho]; exact List.prefix_refl _⟩
  | fuel => exact fun _ => ⟨fun _ h => (by cases h), fun _ => by simp only [ho]; exact List.prefix_refl _⟩

theorem upAt_command (X : Ctx) (hT : ∀ x y, T x → T y → X.E.H x = X.E.H y → x = y) (R : Repo) (cmd : Command) {s t : Sys} (hr : AboveSys X.E.H T s t)
    (ha : ∀ key ∈ cmd.args, canonicalize s.db key = canonicalize t.db key) : UpAt T (AboveSys X.E.H T) (cmd.inRepo X R) s t := by
  have ho : s.out = t.out := hr.2.2.2
  have hkh : ∀ key : Option Keyish, (∀ k, key = some k → k ∈ cmd.args) → keyOrHead s.db key = keyOrHead t.db key := by
    intro key hk
    cases key with
    | some k => exact ha k (hk k rfl)
    | none => exact above_getHeadKey hr.1
  cases cmd with
  | insert path => exact upAt_of (up_bind (up_put_onDb X hT R path) fun k => up_emit _) hr
  | commit path message refname =>
    refine upAt_of (up_bind (up_readDb fun a b h => above_eq (f := fun d => refOrHead d refname) (above_refOrHead h refname)) fun r => ?_) hr
    refine up_bind (up_readDb fun a b h => above_eq (f := fun d => parentsOf d r) (by unfold parentsOf; rw [above_reflogGet h r none])) fun ps => ?_
    exact up_bind (up_put_onDb X hT R _) fun k => up_bind (up_onDb (up_isPuts hT (isPuts_commitTree X.E.H k ps _))) fun ck => up_reflogPush _ _ _
  | fetch key dest =>
    refine upAt_read (f := fun s => canonicalize s.db key) (ha key (by simp [Command.args])) ho fun k => upAt_of ?_ hr
    exact up_onFs (le := fun _ _ => True) (x := fun db => getFsItem db X.depth k dest) fun a b h =>
      leads_getFsItem h (fun _ => trivial) (fun _ _ _ _ _ => trivial) (fun _ _ => trivial) (fun _ _ => trivial) (fun _ _ _ => trivial) X.depth k dest
  | init => exact upAt_of (up_pure aboveSysOut _) hr
  | «show» key =>
    refine upAt_read (f := fun s => keyOrHead s.db key) (hkh key (by rintro k rfl; simp [Command.args])) ho fun k => upAt_of ?_ hr
    exact up_onP (x := fun fs => displayObj X.E X.lib fs X.iter X.depth .patch X.depth k) fun fs => up_displayObj X.E hT X.lib fs X.iter X.depth .patch X.depth k
  | log key =>
    refine upAt_read (f := fun s => keyOrHead s.db key) (hkh key (by rintro k rfl; simp [Command.args])) ho fun k => upAt_of ?_ hr
    exact up_onP (x := fun fs => logObj X.E X.lib fs X.iter X.depth .stat k) fun fs => up_logObj X.E hT X.lib fs X.iter X.depth .stat k
  | compare path key stat =>
    have hrest : ∀ k, Up Sys.db Sys.out T (AboveSys X.E.H T) (do
        let r ← compareWork X R (path.getD R.root) (some k)
        if stat then do
          let l ← readDb (fun db => printedStat X.lib db X.depth r)
          emit (.stats l)
        else emit (.result (simplify r))) := fun k =>
      up_bind (up_compareWork X hT R _ _) fun r => up_ite (up_bind (up_readDb fun a b h => incl_printedStat h.incl X.lib X.depth r) fun l => up_emit _) (up_emit _)
    cases key with
    | some key => exact upAt_read (f := fun s => canonicalize s.db key) (ha key (by simp [Command.args])) ho fun k => upAt_of (hrest k) hr
    | none =>
      refine upAt_of (up_bind (up_readDb fun a b h => ?_) hrest) hr
      simp only
      rw [above_getHeadKey h]
      exact resLeads_bind (resLeads_refl _) fun k => resLeads_bind (incl_fromKey h.incl k) fun _ => resLeads_refl _
  | status =>
    refine upAt_of (up_bind (up_readDb fun a b h => above_eq (above_headName h)) fun h => up_bind (up_read aboveSysOut fun s t hr => ?_) fun o => ?_) hr
    · rw [above_reflogGet hr.1 h none]; exact resLeads_refl _
    · cases o with
      | none => exact up_emit _
      | some k => exact up_bind (up_emit _) fun _ => up_bind (up_readDb fun a b h => incl_fromKey h.incl k) fun c => up_bind (up_compareWork X hT R _ _) fun r => up_emit _
  | checkout =>
    refine upAt_of (up_bind (up_readDb fun a b h => above_eq (above_getHeadKey h)) fun k => up_bind (up_readDb fun a b h => incl_fromKey h.incl k) fun c => ?_) hr
    exact up_onFs (x := fun db => checkoutFsItem db (makeFilter X.glob R.folder) X.iterNames X.depth c.tree R.root) fun a b h => leads_checkout h _ _ _ _ _
  | checkoutHead refname =>
    refine upAt_of (up_bind (up_readDb fun a b h => above_eq (above_headName h)) fun h => up_bind (up_read aboveSysOut fun s t hr => ?_) fun o => up_bind (up_readDb fun a b h => ?_) fun t => ?_) hr
    · rw [above_reflogGet hr.1 h none]; exact resLeads_refl _
    · cases o with
      | none => exact resLeads_refl _
      | some k => exact resLeads_bind (incl_fromKey h.incl k) fun _ => resLeads_refl _
    · exact up_bind (up_compareWork X hT R _ _) fun r => up_ite (up_bind (up_putHead _) fun _ => up_emit _) (up_bind (up_emit _) fun _ => up_emit _)
  | refLog refname remote =>
    refine upAt_of (up_bind (up_readDb fun a b h => above_eq (f := fun d => refOrHead d refname) (above_refOrHead h refname)) fun r => ?_) hr
    refine up_bind (up_readDb fun a b h => above_eq (f := fun d => reflogWalk d r remote) ?_) fun ks => up_each aboveSysOut (fun _ => up_emit _) _
    unfold reflogWalk refRows; rw [h.reflog]
  | refUpdate key refname =>
    refine upAt_read (f := fun s => canonicalize s.db key) (ha key (by simp [Command.args])) ho fun k => upAt_of ?_ hr
    exact up_bind (up_readDb fun a b h => above_eq (f := fun d => refOrHead d refname) (above_refOrHead h refname)) fun r => up_reflogPush _ _ _
  | prettyPrint key =>
    refine upAt_read (f := fun s => canonicalize s.db key) (ha key (by simp [Command.args])) ho fun k => upAt_of ?_ hr
    exact up_bind (up_readDb fun a b h => incl_getObj h.incl k) fun o => up_emit _
  | commitTree tree parents =>
    refine upAt_read (f := fun s => canonicalize s.db tree) (ha tree (by simp [Command.args])) ho fun k => ?_
    refine upAt_read (f := fun s => mapRes (canonicalize s.db) parents) (mapRes_congr fun p hp => ha p (by simp [Command.args, hp])) ho fun ps => upAt_of ?_ hr
    exact up_bind (up_onDb (up_isPuts hT (isPuts_commitTree X.E.H k ps _))) fun k => up_emit _
  | reflogGet refname remote => exact upAt_of (up_bind (up_readDb fun a b h => above_eq (f := fun d => reflogGet d refname remote) (above_reflogGet h _ _)) fun k => up_emit _) hr
  | reflogPush key refname remote => exact upAt_read (f := fun s => canonicalize s.db key) (ha key (by simp [Command.args])) ho fun k => upAt_of (up_reflogPush _ _ _) hr
  | walkTree key =>
    refine upAt_read (f := fun s => canonicalize s.db key) (ha key (by simp [Command.args])) ho fun k => upAt_of ?_ hr
    exact up_bind (up_readDb fun a b h => incl_walk h.incl _ k) fun m => up_emitAll _ _ _
  | walkFsTree path => exact upAt_of (up_bind (up_read aboveSysOut fun s t h => by rw [h.2.2.1]; exact resLeads_refl _) fun m => up_emitAll _ _ _) hr
  | setHead refname => exact upAt_of (up_putHead _) hr
  | getHead => exact upAt_of (up_bind (up_readDb fun a b h => above_eq (f := getHead) (by unfold getHead rawGetState; rw [h.state])) fun k => up_emit _) hr

/-! ### Files that grow -/

namespace Spec

/-- Every row is a value under its own hash: what a check of the database, row by row, would verify. It does not matter how the database came about. -/
def Genuine (H : Bytes → Key) (db : Db) : Prop := ∀ r ∈ db.data, r.1 = (H r.2).asDbKey

/-- No two of these byte strings have the same hash. -/
def Apart (H : Bytes → Key) (l : List Bytes) : Prop := ∀ x ∈ l, ∀ y ∈ l, H x = H y → x = y

/-- The stored values. -/
def values (db : Db) : List Bytes := db.data.map (·.2)

/-- Whatever is in the first is in the second too, files possibly with more at their end. -/
def Grown (a b : Fs) : Prop := ∀ q e, a.at q = some e → b.at q = some e ∨ ∃ c d md, e = .file c md ∧ b.at q = some (.file (c ++ d) md)

/-- Two runs that printed the same and left the same files, cache, HEAD and refs. -/
structure Agree (x y : Exit × List Out × World) (q : List Bytes) : Prop where
  out : x.2.1 = y.2.1
  fs : x.2.2.fs = y.2.2.fs
  cache : x.2.2.cache = y.2.2.cache
  state : (x.2.2.dbs q).state = (y.2.2.dbs q).state
  reflog : (x.2.2.dbs q).reflog = (y.2.2.dbs q).reflog

/-- Two worlds that differ in their objects only. -/
structure Alike (w v : World) (q : List Bytes) : Prop where
  fs : w.fs = v.fs
  cache : w.cache = v.cache
  state : (w.dbs q).state = (v.dbs q).state
  reflog : (w.dbs q).reflog = (v.dbs q).reflog
  faults : (w.dbs q).faults = (v.dbs q).faults

end Spec

theorem grown_refl (a : Fs) : Spec.Grown a a := fun _ _ h => .inl h
theorem grown_trans {a b c : Fs} (h : Spec.Grown a b) (g : Spec.Grown b c) : Spec.Grown a c := by
  intro q e he
  rcases h q e he with h1 | ⟨x, d, md, rfl, h1⟩
  · exact g q e h1
  · rcases g q _ h1 with h2 | ⟨x', d', md', h2, h3⟩
    · exact .inr ⟨x, d, md, rfl, h2⟩
    · cases h2
      exact .inr ⟨x, d ++ d', md, rfl, by rw [h3, List.append_assoc]⟩

/-- Only entries matter. -/
theorem grown_ents {a b : Fs} (h : b.ents = a.ents) : Spec.Grown a b := fun q e he => .inl (by unfold Fs.at at he ⊢; rw [h]; exact he)

theorem grown_set {a : Fs} {q : List Bytes} (hq : a.at q = none) (e : Ent) : Spec.Grown a (a.set q e) := by
  intro x y hy
  have hne : q ≠ [] := by rintro rfl; simp [Fs.at] at hq
  left
  rw [at_set a hne, if_neg]
  · exact hy
  · rintro rfl; rw [hq] at hy; cases hy

theorem grown_append (a : Fs) (q : List Bytes) (d : Bytes) : Spec.Grown a (Fs.append q d a) := by
  intro x y hy
  rw [at_append]
  by_cases hx : x = q
  · subst hx
    rw [if_pos rfl, hy]
    cases y with
    | file c md => exact .inr ⟨c, d, md, rfl, rfl⟩
    | dir => exact .inl rfl
    | special => exact .inl rfl
    | broken => exact .inl rfl
  · rw [if_neg hx]; exact .inl hy

theorem grown_call {β : Type} {f : Nat → Fs → Fs} {x : SM Fs β} (hf : ∀ n s, Spec.Grown s (f n s)) (hx : ∀ s, Spec.Grown s (x s).2) (s : Fs) : Spec.Grown s (Fs.call f x s).2 := by
  unfold Fs.call
  split
  · rename_i n t _; exact grown_trans (grown_ents (b := { s with faults := t }) rfl) (hf n _)
  · exact grown_trans (grown_ents (b := { s with faults := s.faults.tail }) rfl) (hx _)

theorem grown_mkdir (p : Path) (s : Fs) : Spec.Grown s (Fs.mkdir p s).2 := by
  refine grown_call (fun _ s => grown_refl s) (fun s => ?_) s
  split
  · exact grown_refl s
  · split
    · exact grown_refl s
    · split
      · split
        · rename_i h; exact grown_set h _
        · exact grown_refl s
      all_goals exact grown_refl s

theorem grown_createDirAllN (n : Nat) (p : Path) (s : Fs) : Spec.Grown s (Fs.createDirAllN n p s).2 := by
  induction n generalizing p s with
  | zero => exact grown_refl s
  | succ n ih =>
    unfold Fs.createDirAllN
    split
    · exact grown_refl s
    · have h1 := grown_mkdir p s
      split
      · rename_i e; rw [e] at h1; exact h1
      · rename_i e; rw [e] at h1
        split
        · exact h1
        · rename_i s' _ q _
          have h2 := grown_trans h1 (ih q s')
          split
          · rename_i e2; rw [e2] at h2
            have h3 := grown_trans h2 (grown_mkdir p _)
            split
            · rename_i e3; rw [e3] at h3; exact h3
            · rename_i e3; rw [e3] at h3; split <;> exact h3
          · exact h2
      · rename_i e; rw [e] at h1
        split <;> exact h1

theorem grown_createNew (p : Path) (s : Fs) : Spec.Grown s (Fs.createNew p s).2 := by
  refine grown_call (fun _ s => grown_refl s) (fun s => ?_) s
  simp only
  split
  · split
    · split
      · rename_i h; exact grown_trans (grown_set h _) (grown_ents rfl)
      · exact grown_refl s
    · exact grown_refl s
  all_goals exact grown_refl s

theorem grown_writeAll (q : List Bytes) (d : Bytes) (s : Fs) : Spec.Grown s (Fs.writeAll q d s).2 :=
  grown_call (fun _ s => grown_append s _ _) (fun s => grown_append s _ _) s

theorem leads_fetch {a b : Db} (h : Incl a b) (n : Nat) (k : Key) (path : Path) : Leads Spec.Grown (getFsItem a n k path) (getFsItem b n k path) :=
  leads_getFsItem h grown_refl (fun _ _ _ => grown_trans) (fun p s => grown_createDirAllN _ p s) grown_createNew grown_writeAll n k path

/-! ### Both together -/

section
variable {H : Bytes → Key}

theorem ok_of_unwrap {r : Res α} {v : α} (h : r.unwrap = .ok v) : r = .ok v := by
  cases r with
  | ok x => exact h
  | _ => cases h

/-- All objects of both. -/
def both (a b : Db) : Db := { a with data := a.data ++ b.data.filter fun r => !a.data.any (·.1 == r.1) }

theorem genuine_both {a b : Db} (ha : Spec.Genuine H a) (hb : Spec.Genuine H b) : Spec.Genuine H (both a b) := by
  intro r hr
  rcases List.mem_append.mp hr with h | h
  · exact ha r h
  · exact hb r (List.mem_filter.mp h).1

/-- A row is found. -/
theorem get_of_row {db : Db} (h : Spec.Genuine H db) {l : List Bytes} (hl : ∀ x ∈ Spec.values db, x ∈ l) (hc : Spec.Apart H l) {k : Key} {v : Bytes} (hr : (k.asDbKey, v) ∈ db.data) : get db k = .ok v := by
  obtain ⟨v', hv'⟩ := assoc_isSome_iff.mpr ⟨_, hr, rfl⟩
  rw [get_eq_ok, hv']
  have h1 : k.asDbKey = (H v').asDbKey := h _ (assoc_some_mem hv')
  have h2 : k.asDbKey = (H v).asDbKey := h _ hr
  rw [hc v' (hl _ (List.mem_map.mpr ⟨_, assoc_some_mem hv', rfl⟩)) v (hl _ (List.mem_map.mpr ⟨_, hr, rfl⟩)) (asDbKey_inj (h1.symm.trans h2))]

theorem incl_of_rows {a b : Db} (hb : Spec.Genuine H b) {l : List Bytes} (hl : ∀ x ∈ Spec.values b, x ∈ l) (hc : Spec.Apart H l) (h : ∀ r ∈ a.data, r ∈ b.data) : Incl a b :=
  fun _ _ hk => get_of_row hb hl hc (h _ (assoc_some_mem (get_eq_ok.mp hk)))

theorem both_left (a b : Db) : ∀ r ∈ a.data, r ∈ (both a b).data := fun _ h => List.mem_append_left _ h

theorem incl_left (a b : Db) : Incl a (both a b) := by
  intro k v hk
  rw [get_eq_ok] at hk ⊢
  simp only [both, assoc_append, hk, Option.some_or]

theorem incl_right {a b : Db} (ha : Spec.Genuine H a) (hb : Spec.Genuine H b) {l : List Bytes} (hl : ∀ x, x ∈ Spec.values a ∨ x ∈ Spec.values b → x ∈ l) (hc : Spec.Apart H l) : Incl b (both a b) := by
  intro k v hk
  rw [get_eq_ok] at hk ⊢
  simp only [both, assoc_append]
  cases he : assoc a.data k.asDbKey with
  | some v' =>
    have h1 : k.asDbKey = (H v').asDbKey := ha _ (assoc_some_mem he)
    have h2 : k.asDbKey = (H v).asDbKey := hb _ (assoc_some_mem hk)
    rw [hc v' (hl _ (.inl (List.mem_map.mpr ⟨_, assoc_some_mem he, rfl⟩))) v (hl _ (.inr (List.mem_map.mpr ⟨_, assoc_some_mem hk, rfl⟩))) (asDbKey_inj (h1.symm.trans h2))]
    rfl
  | none =>
    rw [Option.none_or]
    have hn := assoc_none_iff.mp he
    unfold assoc at hk ⊢
    rw [List.find?_filter]
    rw [← hk]
    congr 2
    funext r
    by_cases hr : r.1 = k.asDbKey
    · simp only [hr, beq_self_eq_true, Bool.and_true, Bool.not_eq_true', decide_eq_true_eq]
      simpa using fun x y h => hn (x, y) h
    · simp [hr]

/-- An abbreviation that means the same key in both means it in both together. -/
theorem canonicalize_both {a b : Db} (h : a.reflog = b.reflog) {key : Keyish} {k : Key} (ha : canonicalize a key = .ok k) (hb : canonicalize b key = .ok k) : canonicalize (both a b) key = .ok k := by
  have _ := h
  cases key with
  | reflog orig remote keyname => exact ha
  | key s kb =>
    unfold canonicalize at ha ⊢
    obtain ⟨v, h1, h2⟩ := Res.bind_eq_ok ha
    have : rawGet (both a b) kb = .ok v := by
      unfold rawGet at h1 ⊢
      simp only [both, assoc_append]
      cases he : assoc a.data kb with
      | some v' => rw [he] at h1; exact ok_of_unwrap h1
      | none => rw [he] at h1; simp [Res.unwrap] at h1
    simp only [this]
    exact h2
  | range s start stop =>
    have key : ∀ (p : Bytes × Bytes → Bool), ((a.data.filter p).map (·.1)) = [k.asDbKey] → ((b.data.filter p).map (·.1)) = [k.asDbKey] → (((both a b).data.filter p).map (·.1)) = [k.asDbKey] := by
      intro p h1 h2
      simp only [both, List.filter_append, List.map_append, h1]
      have : ((b.data.filter fun r => !a.data.any (·.1 == r.1)).filter p) = [] := by
        rw [List.eq_nil_iff_forall_not_mem]
        intro r hr
        obtain ⟨h3, h4⟩ := List.mem_filter.mp hr
        obtain ⟨h5, h6⟩ := List.mem_filter.mp h3
        have h7 : r.1 ∈ (b.data.filter p).map (·.1) := List.mem_map.mpr ⟨r, List.mem_filter.mpr ⟨h5, h4⟩, rfl⟩
        have h8 : k.asDbKey ∈ (a.data.filter p).map (·.1) := by rw [h1]; simp
        rw [h2, List.mem_singleton] at h7
        obtain ⟨r', h9, h10⟩ := List.mem_map.mp h8
        simp only [Bool.not_eq_true', List.any_eq_false] at h6
        exact h6 r' (List.mem_filter.mp h9).1 (by simp [h10, h7])
      rw [this]; rfl
    have one : ∀ (d : Db), canonicalize d (.range s start stop) = .ok k ↔ rawBetween d start stop = .ok [k.asDbKey] := by
      intro d
      unfold canonicalize
      constructor
      · intro hd
        obtain ⟨l, h1, h2⟩ := Res.bind_eq_ok hd
        match l, h2 with
        | [], h2 => cases h2
        | [x], h2 =>
          have := asDbKey_of_fromDbKey h2
          rw [this]
          exact ok_of_unwrap h1
        | x :: y :: l, h2 =>
          obtain ⟨l', _, h3⟩ := Res.bind_eq_ok h2
          cases h3
      · intro hd
        simp only [hd]
        exact fromDbKey_asDbKey k
    rw [one] at ha hb ⊢
    unfold rawBetween at ha hb ⊢
    cases stop with
    | some e => simp only [Res.ok.injEq] at ha hb ⊢; exact key _ ha hb
    | none => simp only [Res.ok.injEq] at ha hb ⊢; exact key _ ha hb
end

/-! ### C92 -/

theorem above_of {H : Bytes → Key} {a b : Db} (hi : Incl a b) (hs : a.state = b.state) (hr : a.reflog = b.reflog) (hf : a.faults = b.faults) (ha : Spec.Genuine H a) (hb : Spec.Genuine H b) {l : List Bytes}
    (hla : ∀ x ∈ Spec.values a, x ∈ l) (hlb : ∀ x ∈ Spec.values b, x ∈ l) : Above H (· ∈ l) a b :=
  ⟨hi, hs, hr, hf, fun r h => ⟨ha r h, hla _ (List.mem_map.mpr ⟨r, h, rfl⟩)⟩, fun r h => ⟨hb r h, hlb _ (List.mem_map.mpr ⟨r, h, rfl⟩)⟩⟩

/-- The database after the command knows all that was hashed. -/
theorem runIn_hashed (X : Ctx) (R : Repo) (q : List Bytes) (cmd : Command) (w : World) : ∀ x ∈ (cmd.inRepo X R (startOf w q)).2.db.hashed, x ∈ ((runIn X R q cmd w).2.2.dbs q).hashed := by
  intro x hx
  simp only [runIn, World.setDb, if_true, Conn.begin, Conn.exec, Conn.view, Option.getD_some, Command.body]
  change x ∈ (Conn.finish (cmd.inRepo X R (startOf w q)).1 (Conn.mk (w.dbs q) (some (cmd.inRepo X R (startOf w q)).2.db))).durable.hashed
  cases hr : (cmd.inRepo X R (startOf w q)).1 with
  | ok u =>
    simp only [Conn.finish, Conn.commit]
    split <;> exact hx
  | err e => exact hx
  | panic => exact hx
  | fuel => exact hx

/-- From what the bodies do to what the runs do. -/
theorem runIn_up {X : Ctx} {R : Repo} {q : List Bytes} {cmd : Command} {w v : World} {T : Bytes → Prop} (ha : Spec.Alike w v q) (hT : ∀ x ∈ ((runIn X R q cmd w).2.2.dbs q).hashed, T x)
    (h : UpAt T (AboveSys X.E.H T) (cmd.inRepo X R) (startOf w q) (startOf v q)) :
    (runIn X R q cmd w).2.1 <+: (runIn X R q cmd v).2.1 ∧
    ((runIn X R q cmd w).1 = .success → (runIn X R q cmd v).1 = .success ∧ Spec.Agree (runIn X R q cmd w) (runIn X R q cmd v) q) := by
  have e : ∀ u : World, runIn X R q cmd u = (exitOf (cmd.inRepo X R (startOf u q)).1 (Cache.finish (cmd.inRepo X R (startOf u q)).1 u.cache (cmd.inRepo X R (startOf u q)).2.cache).1,
      (cmd.inRepo X R (startOf u q)).2.out, { u with fs := (cmd.inRepo X R (startOf u q)).2.fs, cache := (Cache.finish (cmd.inRepo X R (startOf u q)).1 u.cache (cmd.inRepo X R (startOf u q)).2.cache).2 }.setDb q
        ((Conn.mk (u.dbs q) (some (cmd.inRepo X R (startOf u q)).2.db)).finish (cmd.inRepo X R (startOf u q)).1).durable) := fun _ => rfl
  obtain ⟨h1, h2⟩ := h fun y hy => hT y (runIn_hashed X R q cmd w y hy)
  rw [e w, e v]
  cases hr : (cmd.inRepo X R (startOf w q)).1 with
  | ok u =>
    obtain ⟨g1, g2, g3, g4, g5⟩ := h1 u hr
    refine ⟨by simp only [g5]; exact List.prefix_refl _, fun hx => ⟨?_, ?_⟩⟩
    · simp only [g1, ← g3, ← ha.cache]; exact hx
    · have hk := kin_finish (r := (cmd.inRepo X R (startOf w q)).1) (c := ⟨w.dbs q, some (cmd.inRepo X R (startOf w q)).2.db⟩) (d := ⟨v.dbs q, some (cmd.inRepo X R (startOf v q)).2.db⟩)
        ⟨ha.state, ha.reflog⟩ rfl rfl ⟨g2.state, g2.reflog, g2.faults⟩
      rw [hr] at hk
      refine ⟨g5, g4, ?_, ?_, ?_⟩
      · simp only [World.setDb, g1, g3, ha.cache]
      · simp only [World.setDb, if_true, g1]; exact hk.1
      · simp only [World.setDb, if_true, g1]; exact hk.2.1
  | err e => exact ⟨h2 (by rw [hr]; rfl), fun hx => (by cases hx)⟩
  | panic => exact ⟨h2 (by rw [hr]; rfl), fun hx => (by cases hx)⟩
  | fuel => exact ⟨h2 (by rw [hr]; rfl), fun hx => (by cases hx)⟩

theorem Opens.congr {X : Ctx} {w v : World} {R : Repo} {q : List Bytes} (h : w.fs = v.fs) (ho : Opens X w R q) : Opens X v R q := by
  obtain ⟨h1, h2, h3⟩ := ho
  rw [h] at h1 h3
  exact ⟨h1, h2, h3⟩

/-- **C92**: what a database gives out under a key is a value with that hash, if all its rows are values under their own hash; so another value under the same key is a collision. -/
theorem C92_authentic {H : Bytes → Key} {db : Db} (h : Spec.Genuine H db) {k : Key} {v : Bytes} (hg : get db k = .ok v) : H v = k :=
  (asDbKey_inj (h _ (assoc_some_mem (get_eq_ok.mp hg)))).symm

/-- **C92**: the databases of all repositories the program made are like that. -/
theorem C92_kept {H : Bytes → Key} {w : World} (h : World.Reachable H w) (q : List Bytes) : Spec.Genuine H (w.dbs q) := fun r hr => ((World.Reachable.inv h q).rows r hr).1

/-- **C92**: the program itself does not check it: whatever bytes are put in place of a stored value are given out under its key. -/
theorem C92_unchecked (db : Db) (k : Key) (v : Bytes) : get { db with data := insertReplace db.data k.asDbKey v } k = .ok v := by
  rw [get_eq_ok]
  simp only [insertReplace, assoc_append, assoc_single, if_true]
  rw [show assoc (db.data.filter (·.1 != k.asDbKey)) k.asDbKey = none from assoc_none_iff.mpr fun r hr => by simpa using (List.mem_filter.mp hr).2]
  rfl

/-- **C92**: more objects change nothing about what works. A command that succeeds prints the same and leaves the same files, cache, HEAD and refs if the database has further
objects; and one that does not succeed has printed no more than the beginning of what is then printed. -/
theorem C92_more {X : Ctx} {cmd : Command} {w v : World} {R : Repo} {q : List Bytes} (hcmd : cmd ≠ .init) (ho : Opens X w R q) (ha : Spec.Alike w v q)
    (hw : Spec.Genuine X.E.H (w.dbs q)) (hv : Spec.Genuine X.E.H (v.dbs q)) (hsub : ∀ r ∈ (w.dbs q).data, r ∈ (v.dbs q).data)
    (hc : Spec.Apart X.E.H (Spec.values (v.dbs q) ++ ((mainRun X cmd w).2.2.dbs q).hashed)) (hargs : ∀ key ∈ cmd.args, canonicalize (w.dbs q) key = canonicalize (v.dbs q) key) :
    (mainRun X cmd w).2.1 <+: (mainRun X cmd v).2.1 ∧
    ((mainRun X cmd w).1 = .success → (mainRun X cmd v).1 = .success ∧ Spec.Agree (mainRun X cmd w) (mainRun X cmd v) q) := by
  rw [mainRun_open hcmd ho] at hc
  rw [mainRun_open hcmd ho, mainRun_open hcmd (ho.congr ha.fs)]
  have hl : ∀ x ∈ Spec.values (v.dbs q), x ∈ Spec.values (v.dbs q) ++ ((runIn X R q cmd w).2.2.dbs q).hashed := fun x hx => List.mem_append_left _ hx
  refine runIn_up (T := (· ∈ Spec.values (v.dbs q) ++ ((runIn X R q cmd w).2.2.dbs q).hashed)) ha (fun x hx => List.mem_append_right _ hx) (upAt_command X (fun x y hx hy => hc x hx y hy) R cmd ⟨?_, ha.cache, ha.fs, rfl⟩ hargs)
  refine above_of (incl_of_rows hv hl hc hsub) ha.state ha.reflog ha.faults hw hv (fun x hx => hl x ?_) hl
  obtain ⟨r, hr, rfl⟩ := List.mem_map.mp hx
  exact List.mem_map.mpr ⟨r, hsub r hr, rfl⟩

/-- **C92**: a key determines what is read, in whatever database. Take two databases of any origin, e.g. one that lost rows or received forged ones, in which all rows are values
under their own hash. If a command succeeds with both, it prints the same and leaves the same files, cache, HEAD and refs; if it succeeds with one, with the other it
prints no more than the beginning of that. -/
theorem C92_agree {X : Ctx} {cmd : Command} {w v : World} {R : Repo} {q : List Bytes} (hcmd : cmd ≠ .init) (ho : Opens X w R q) (ha : Spec.Alike w v q)
    (hw : Spec.Genuine X.E.H (w.dbs q)) (hv : Spec.Genuine X.E.H (v.dbs q))
    (hc : Spec.Apart X.E.H (Spec.values (w.dbs q) ++ Spec.values (v.dbs q) ++ ((mainRun X cmd w).2.2.dbs q).hashed ++ ((mainRun X cmd v).2.2.dbs q).hashed))
    (hargs : ∀ key ∈ cmd.args, ∃ k, canonicalize (w.dbs q) key = .ok k ∧ canonicalize (v.dbs q) key = .ok k) (hok : (mainRun X cmd v).1 = .success) :
    (mainRun X cmd w).2.1 <+: (mainRun X cmd v).2.1 ∧ ((mainRun X cmd w).1 = .success → Spec.Agree (mainRun X cmd w) (mainRun X cmd v) q) := by
  rw [mainRun_open hcmd ho, mainRun_open hcmd (ho.congr ha.fs)] at hc
  rw [mainRun_open hcmd (ho.congr ha.fs)] at hok
  rw [mainRun_open hcmd ho, mainRun_open hcmd (ho.congr ha.fs)]
  generalize hl : Spec.values (w.dbs q) ++ Spec.values (v.dbs q) ++ ((runIn X R q cmd w).2.2.dbs q).hashed ++ ((runIn X R q cmd v).2.2.dbs q).hashed = l at hc
  have l1 : ∀ x ∈ Spec.values (w.dbs q), x ∈ l := fun x hx => by subst hl; simp [hx]
  have l2 : ∀ x ∈ Spec.values (v.dbs q), x ∈ l := fun x hx => by subst hl; simp [hx]
  have l3 : ∀ x ∈ ((runIn X R q cmd w).2.2.dbs q).hashed, x ∈ l := fun x hx => by subst hl; simp [hx]
  have l4 : ∀ x ∈ ((runIn X R q cmd v).2.2.dbs q).hashed, x ∈ l := fun x hx => by subst hl; simp [hx]
  let u : World := w.setDb q (both (w.dbs q) (v.dbs q))
  have hu : u.dbs q = both (w.dbs q) (v.dbs q) := by simp [u, World.setDb]
  have lb : ∀ x ∈ Spec.values (both (w.dbs q) (v.dbs q)), x ∈ l := by
    intro x hx
    obtain ⟨r, hr, rfl⟩ := List.mem_map.mp hx
    rcases List.mem_append.mp hr with h | h
    · exact l1 _ (List.mem_map.mpr ⟨r, h, rfl⟩)
    · exact l2 _ (List.mem_map.mpr ⟨r, (List.mem_filter.mp h).1, rfl⟩)
  have hg := genuine_both hw hv
  have a1 : Spec.Alike w u q := ⟨rfl, rfl, by rw [hu]; rfl, by rw [hu]; rfl, by rw [hu]; rfl⟩
  have a2 : Spec.Alike v u q := ⟨ha.fs.symm, ha.cache.symm, by rw [hu]; exact ha.state.symm, by rw [hu]; exact ha.reflog.symm, by rw [hu]; exact ha.faults.symm⟩
  have r1 := runIn_up (T := (· ∈ l)) (R := R) (X := X) (cmd := cmd) a1 l3 (upAt_command X (fun x y hx hy => hc x hx y hy) R cmd
    ⟨above_of (by show Incl _ (u.dbs q); rw [hu]; exact incl_left _ _) a1.state a1.reflog a1.faults hw (by show Spec.Genuine _ (u.dbs q); rw [hu]; exact hg) l1 (by show ∀ x ∈ Spec.values (u.dbs q), _; rw [hu]; exact lb), rfl, rfl, rfl⟩
    fun key hk => by obtain ⟨k, h1, h2⟩ := hargs key hk; show canonicalize (w.dbs q) key = canonicalize (u.dbs q) key; rw [hu, h1, canonicalize_both ha.reflog h1 h2])
  have r2 := runIn_up (T := (· ∈ l)) (R := R) (X := X) (cmd := cmd) a2 l4 (upAt_command X (fun x y hx hy => hc x hx y hy) R cmd
    ⟨above_of (by show Incl _ (u.dbs q); rw [hu]; exact incl_right hw hv (fun x hx => hx.elim (l1 x) (l2 x)) hc) a2.state a2.reflog a2.faults hv (by show Spec.Genuine _ (u.dbs q); rw [hu]; exact hg) l2
      (by show ∀ x ∈ Spec.values (u.dbs q), _; rw [hu]; exact lb), a2.cache, a2.fs, rfl⟩
    fun key hk => by obtain ⟨k, h1, h2⟩ := hargs key hk; show canonicalize (v.dbs q) key = canonicalize (u.dbs q) key; rw [hu, h2, canonicalize_both ha.reflog h1 h2])
  obtain ⟨_, g⟩ := r2.2 hok
  refine ⟨by rw [g.out]; exact r1.1, fun h => ?_⟩
  obtain ⟨_, g'⟩ := r1.2 h
  exact ⟨g'.out.trans g.out.symm, g'.fs.trans g.fs.symm, g'.cache.trans g.cache.symm, g'.state.trans g.state.symm, g'.reflog.trans g.reflog.symm⟩

/-- **C92**: fetching from a database that lost rows or received forged ones, in which all rows are values under their own hash, writes nothing wrong: every directory and file it leaves
is also left by a fetch that succeeds, files possibly with more at their end. -/
theorem C92_fetch {X : Ctx} {w v : World} {R : Repo} {q : List Bytes} (ho : Opens X w R q) (ha : Spec.Alike w v q) (hw : Spec.Genuine X.E.H (w.dbs q)) (hv : Spec.Genuine X.E.H (v.dbs q))
    (hc : Spec.Apart X.E.H (Spec.values (w.dbs q) ++ Spec.values (v.dbs q))) {key : Keyish} {k : Key} (h1 : canonicalize (w.dbs q) key = .ok k) (h2 : canonicalize (v.dbs q) key = .ok k)
    (to : Path) (hok : (mainRun X (.fetch key to) v).1 = .success) : Spec.Grown (mainRun X (.fetch key to) w).2.2.fs (mainRun X (.fetch key to) v).2.2.fs := by
  have hov := ho.congr ha.fs
  rw [fetch_fs ho h1, fetch_fs hov h2]
  have hin : (getFsItem (v.dbs q) X.depth k to v.fs).1 = .ok () := by
    rw [mainRun_open (by simp) hov] at hok
    have e : (runIn X R q (.fetch key to) v).1 = exitOf ((Command.fetch key to).inRepo X R (startOf v q)).1 _ := rfl
    rw [e, fetch_run (s := startOf v q) h2] at hok
    change exitOf (getFsItem (v.dbs q) X.depth k to v.fs).1 _ = _ at hok
    cases hg : (getFsItem (v.dbs q) X.depth k to v.fs).1 with
    | ok u => rfl
    | err e => rw [hg] at hok; cases hok
    | panic => rw [hg] at hok; cases hok
    | fuel => rw [hg] at hok; cases hok
  have l1 := leads_fetch (incl_left (w.dbs q) (v.dbs q)) X.depth k to w.fs
  have l2 := leads_fetch (incl_right hw hv (l := Spec.values (w.dbs q) ++ Spec.values (v.dbs q)) (fun x hx => List.mem_append.mpr hx) hc) X.depth k to v.fs
  rw [← l2.2.1 () hin, ← ha.fs]
  cases hg : (getFsItem (w.dbs q) X.depth k to w.fs).1 with
  | ok u => rw [l1.2.1 u hg]; exact grown_refl _
  | err e => exact l1.2.2 (by rw [hg]; rfl)
  | panic => exact l1.2.2 (by rw [hg]; rfl)
  | fuel => exact l1.2.2 (by rw [hg]; rfl)

end Snap.Props
