import Verif.Model.Store
import Verif.Props.Clean
import Verif.Props.Commands
/-!
C83: data stores are interchangeable. Keys do not depend on the implementation of `DataStore`; `NullDS` computes the keys SQLite would.
-/
namespace Snap.Props
open Snap
set_option linter.unusedSectionVars false
variable [Serde] [LawfulSerde]

/-! ### The functions on any store, for SQLite -/

theorem sqlite_put (H : Bytes → Key) (d : Bytes) : sqliteStore.put H d = put H d := rfl
theorem sqlite_getObj (db : Db) (k : Key) : sqliteStore.getObj db k = getObj db k := rfl
theorem sqlite_putObj (H : Bytes → Key) (o : Object) : sqliteStore.putObj H o = putObj H o := rfl

theorem sqlite_cascade (H : Bytes → Key) (z : Nat) (os : List Nat) : ∀ kb, sqliteStore.cascade H z os kb = cascade H z os kb := by
  induction os with
  | nil => intro kb; rfl
  | cons o os ih => intro kb; simp only [Store.cascade, cascade, ih, sqlite_putObj]

theorem sqlite_emitChunk (H : Bytes → Key) (z : Nat) (cur : Bytes) (kb : KeyBufs) : sqliteStore.emitChunk H z cur kb = emitChunk H z cur kb := by
  simp only [Store.emitChunk, emitChunk, sqlite_cascade, sqlite_putObj]

theorem sqlite_feed (table : UInt8 → BitVec 64) (H : Bytes → Key) (n : Nat) : ∀ h buf cur kb, buf.length ≤ n → sqliteStore.feed table H h buf cur kb = feed table H h buf cur kb := by
  induction n with
  | zero =>
    intro h buf cur kb hn
    rw [Store.feed.eq_def, feed.eq_def]
    rcases boundary table h buf with ⟨_ | b, h'⟩
    · rfl
    · dsimp only
      rw [dif_neg (by omega), dif_neg (by omega)]
  | succ n ih =>
    intro h buf cur kb hn
    rw [Store.feed.eq_def, feed.eq_def]
    rcases boundary table h buf with ⟨_ | b, h'⟩
    · rfl
    · dsimp only
      by_cases hb : 0 < b ∧ b ≤ buf.length
      · rw [dif_pos hb, dif_pos hb, sqlite_emitChunk]
        congr 1
        funext r
        exact ih _ _ _ _ (by simp; omega)
      · rw [dif_neg hb, dif_neg hb]

theorem sqlite_putLoop (table : UInt8 → BitVec 64) (H : Bytes → Key) (evs : List ReadEv) :
    ∀ h buf cur kb, sqliteStore.putLoop table H h buf cur kb evs = putLoop table H h buf cur kb evs := by
  induction evs with
  | nil => intro h buf cur kb; simp only [Store.putLoop, putLoop, sqlite_feed table H _ h buf cur kb (Nat.le_refl _)]
  | cons ev evs ih => intro h buf cur kb; simp only [Store.putLoop, putLoop, sqlite_feed table H _ h buf cur kb (Nat.le_refl _), ih]; rfl

theorem sqlite_finishTree (H : Bytes → Key) (os : List Nat) : ∀ kb, sqliteStore.finishTree H os kb = finishTree H os kb := by
  induction os with
  | nil => intro kb; rfl
  | cons o os ih => intro kb; simp only [Store.finishTree, finishTree, ih, sqlite_putObj]; rfl

theorem sqlite_putData (table : UInt8 → BitVec 64) (H : Bytes → Key) (evs : List ReadEv) : sqliteStore.putData table H evs = putData table H evs := by
  simp only [Store.putData, putData, sqlite_putLoop, Store.putFinish, putFinish, sqlite_finishTree, sqlite_putObj]

theorem sqlite_putEntries (fs : Fs) (filter : Filter) (rec : Path → M Key) (path : Path) (ns : List Bytes) :
    Store.putEntries fs filter rec path ns = putEntries fs filter rec path ns := by
  induction ns with
  | nil => rfl
  | cons n ns ih => simp only [Store.putEntries, putEntries, ih]

theorem sqlite_putFsItem (E : Env) (fs : Fs) (filter : Filter) (n : Nat) : ∀ path, sqliteStore.putFsItem E fs filter n path = putFsItem E fs filter n path := by
  induction n with
  | zero => intro path; rfl
  | succ n ih =>
    intro path
    simp only [Store.putFsItem, putFsItem, sqlite_putEntries, funext ih, Store.putFile, putFile, sqlite_putData, sqlite_putObj]
    rfl

theorem sqlite_commitTree (H : Bytes → Key) (tree : Key) (parents : List Key) (attrs : CommitAttrs) :
    sqliteStore.commitTree H tree parents attrs = commitTree H tree parents attrs := rfl

theorem sqlite_readDataTo {τ : Type} (db : Db) (sink : Bytes → SM τ Unit) (n : Nat) : ∀ k, sqliteStore.readDataTo db sink n k = readDataTo db sink n k := by
  induction n with
  | zero => intro k; rfl
  | succ n ih => intro k; simp only [Store.readDataTo, readDataTo, funext ih, sqlite_getObj]; rfl

/-! ### Computations on two stores -/

/-- A relation between computations on two states that goes through all the combinators. -/
structure Congruent {σ τ : Type} (A : ∀ {α : Type}, SM σ α → SM τ α → Prop) : Prop where
  lift : ∀ {α : Type} (r : Res α), A (SM.lift r) (SM.lift r)
  bind : ∀ {α β : Type} {x : SM σ α} {y : SM τ α} {f : α → SM σ β} {g : α → SM τ β}, A x y → (∀ a, A (f a) (g a)) → A (x >>= f) (y >>= g)

namespace Congruent
variable {σ τ : Type} {A : ∀ {α : Type}, SM σ α → SM τ α → Prop} (hA : Congruent A) {S : Store σ} {T : Store τ} {H : Bytes → Key}
  (hp : ∀ o, A (S.putObj H o) (T.putObj H o))
include hA

theorem pure {α : Type} (a : α) : A (Pure.pure a : SM σ α) (Pure.pure a : SM τ α) := hA.lift (.ok a)
theorem throw {α : Type} (e : Err) : A (SM.throw e : SM σ α) (SM.throw e : SM τ α) := hA.lift (.err e)
theorem panic {α : Type} : A (SM.panic : SM σ α) (SM.panic : SM τ α) := hA.lift .panic

include hp

theorem cascade (z : Nat) (os : List Nat) : ∀ kb, A (S.cascade H z os kb) (T.cascade H z os kb) := by
  induction os with
  | nil => intro kb; exact hA.pure kb
  | cons o os ih =>
    intro kb
    unfold Store.cascade
    split
    · exact hA.bind (hp _) fun k => ih _
    · exact hA.pure kb

theorem emitChunk (z : Nat) (cur : Bytes) (kb : KeyBufs) : A (S.emitChunk H z cur kb) (T.emitChunk H z cur kb) := by
  unfold Store.emitChunk
  split
  · exact hA.bind (hp _) fun k => hA.bind (hA.cascade hp _ _ _) fun kb => hA.pure _
  · exact hA.pure _

theorem feed (table : UInt8 → BitVec 64) (n : Nat) : ∀ h buf cur kb, buf.length ≤ n → A (S.feed table H h buf cur kb) (T.feed table H h buf cur kb) := by
  induction n with
  | zero =>
    intro h buf cur kb hn
    rw [Store.feed.eq_def, Store.feed.eq_def]
    rcases boundary table h buf with ⟨_ | b, h'⟩
    · exact hA.pure _
    · dsimp only
      rw [dif_neg (by omega), dif_neg (by omega)]; exact hA.panic
  | succ n ih =>
    intro h buf cur kb hn
    rw [Store.feed.eq_def, Store.feed.eq_def]
    rcases boundary table h buf with ⟨_ | b, h'⟩
    · exact hA.pure _
    · dsimp only
      by_cases hb : 0 < b ∧ b ≤ buf.length
      · rw [dif_pos hb, dif_pos hb]
        exact hA.bind (hA.emitChunk hp _ _ _) fun r => ih _ _ _ _ (by simp; omega)
      · rw [dif_neg hb, dif_neg hb]; exact hA.panic

theorem putLoop (table : UInt8 → BitVec 64) (evs : List ReadEv) : ∀ h buf cur kb, A (S.putLoop table H h buf cur kb evs) (T.putLoop table H h buf cur kb evs) := by
  induction evs with
  | nil => intro h buf cur kb; exact hA.bind (hA.feed hp table _ _ _ _ _ (Nat.le_refl _)) fun r => hA.pure _
  | cons ev evs ih =>
    intro h buf cur kb
    refine hA.bind (hA.feed hp table _ _ _ _ _ (Nat.le_refl _)) fun r => ?_
    cases ev with
    | data d => dsimp only; split; exact hA.pure _; exact ih _ _ _ _
    | interrupted => exact ih _ _ _ _
    | error => exact hA.throw _

theorem finishTree (os : List Nat) : ∀ kb, A (S.finishTree H os kb) (T.finishTree H os kb) := by
  induction os with
  | nil => intro kb; exact hp _
  | cons o os ih =>
    intro kb
    refine hA.bind (hp _) fun k => ?_
    split
    · split
      · exact hA.pure _
      · exact hA.panic
    · exact ih _

theorem putData (table : UInt8 → BitVec 64) (evs : List ReadEv) : A (S.putData table H evs) (T.putData table H evs) := by
  refine hA.bind (hA.putLoop hp table _ _ _ _ _) fun r => ?_
  rcases r with ⟨cur, kb⟩
  dsimp only [Store.putFinish]
  split
  · exact hp _
  · refine hA.bind ?_ fun kb => hA.finishTree hp _ _
    split
    · exact hA.pure _
    · exact hA.bind (hp _) fun k => hA.pure _

theorem commitTree (tree : Key) (parents : List Key) (attrs : CommitAttrs) : A (S.commitTree H tree parents attrs) (T.commitTree H tree parents attrs) :=
  hA.bind (hA.lift _) fun _ => hp _

end Congruent

theorem Congruent.putFsItem {σ τ : Type} {A : ∀ {α : Type}, SM σ α → SM τ α → Prop} (hA : Congruent A) {S : Store σ} {T : Store τ} {E : Env}
    (hp : ∀ o, A (S.putObj E.H o) (T.putObj E.H o)) (fs : Fs) (filter : Filter) (n : Nat) :
    ∀ path, A (S.putFsItem E fs filter n path) (T.putFsItem E fs filter n path) := by
  induction n with
  | zero => intro path; exact hA.lift _
  | succ n ih =>
    intro path
    refine hA.bind (hA.lift _) fun node => ?_
    cases node with
    | dir =>
      refine hA.bind (hA.lift _) fun names => hA.bind ?_ fun r => hA.bind (hA.lift _) fun obj => hp _
      induction names with
      | nil => exact hA.pure _
      | cons x xs ihx =>
        refine hA.bind (hA.lift _) fun b => ?_
        split
        · exact hA.bind (ih _) fun k => hA.bind ihx fun r => hA.pure _
        · exact ihx
    | file c md => exact hA.bind (hA.putData hp _ _) fun k => hA.bind (hA.lift _) fun obj => hp _
    | _ => exact hA.panic

/-! ### Any two stores -/

/-- If both computations succeed, in whatever states, they have the same result. -/
def Coincide {σ τ : Type} {α : Type} (x : SM σ α) (y : SM τ α) : Prop := ∀ s t a b, (x s).1 = .ok a → (y t).1 = .ok b → a = b

theorem ok_of_bind {σ α β : Type} {x : SM σ α} {f : α → SM σ β} {s : σ} {b : β} (h : ((x >>= f) s).1 = .ok b) :
    ∃ a, (x s).1 = .ok a ∧ (f a (x s).2).1 = .ok b := by
  rw [SM.bind_apply] at h
  rcases hx : x s with ⟨r, s'⟩
  rw [hx] at h
  cases r with
  | ok a => exact ⟨a, rfl, h⟩
  | err e => simp at h
  | panic => simp at h
  | fuel => simp at h

theorem congruent_coincide {σ τ : Type} : Congruent (σ := σ) (τ := τ) Coincide where
  lift r s t a b h1 h2 := by
    simp only [SM.lift_apply] at h1 h2
    rw [h1] at h2
    simpa using h2
  bind hx hf s t a b h1 h2 := by
    obtain ⟨u, hu, h1⟩ := ok_of_bind h1
    obtain ⟨v, hv, h2⟩ := ok_of_bind h2
    have := hx _ _ _ _ hu hv
    subst this
    exact hf u _ _ _ _ h1 h2

theorem put_key {σ : Type} {S : Store σ} {H : Bytes → Key} {d : Bytes} {s : σ} {k : Key} (h : (S.put H d s).1 = .ok k) : k = H d := by
  obtain ⟨_, _, h⟩ := ok_of_bind h
  obtain ⟨_, _, h⟩ := ok_of_bind h
  simpa using h.symm

theorem coincide_putObj {σ τ : Type} (S : Store σ) (T : Store τ) (H : Bytes → Key) (o : Object) : Coincide (S.putObj H o) (T.putObj H o) := by
  refine congruent_coincide.bind (congruent_coincide.lift _) fun d => ?_
  intro s t a b h1 h2
  rw [put_key h1, put_key h2]

/-- C83: whatever two data stores do and whatever is in them: if contents can be stored in both, they get the same key. -/
theorem C83_same_data {σ τ : Type} (S : Store σ) (T : Store τ) (table : UInt8 → BitVec 64) (H : Bytes → Key) (evs : List ReadEv) (s : σ) (t : τ) (k k' : Key)
    (h : (S.putData table H evs s).1 = .ok k) (h' : (T.putData table H evs t).1 = .ok k') : k = k' :=
  congruent_coincide.putData (coincide_putObj S T H) table evs s t k k' h h'

/-- C83: the same for files and directories. -/
theorem C83_same_item {σ τ : Type} (S : Store σ) (T : Store τ) (E : Env) (fs : Fs) (filter : Filter) (n : Nat) (path : Path) (s : σ) (t : τ) (k k' : Key)
    (h : (S.putFsItem E fs filter n path s).1 = .ok k) (h' : (T.putFsItem E fs filter n path t).1 = .ok k') : k = k' :=
  congruent_coincide.putFsItem (coincide_putObj S T E.H) fs filter n path s t k k' h h'

/-- C83: the same for commits. -/
theorem C83_same_commit {σ τ : Type} (S : Store σ) (T : Store τ) (H : Bytes → Key) (tree : Key) (parents : List Key) (attrs : CommitAttrs) (s : σ) (t : τ) (k k' : Key)
    (h : (S.commitTree H tree parents attrs s).1 = .ok k) (h' : (T.commitTree H tree parents attrs t).1 = .ok k') : k = k' :=
  congruent_coincide.commitTree (coincide_putObj S T H) tree parents attrs s t k k' h h'

/-! ### The null store -/

/-- Without failing writes the result on SQLite is that on the null store, and there are still none to fail; otherwise the only difference can be a database error. -/
def Predicts {α : Type} (x : SM Unit α) (y : SM Db α) : Prop :=
  ∀ db, ((y db).1 = (x ()).1 ∨ true ∈ db.faults ∧ (y db).1 = .err .sqlite) ∧ (true ∈ (y db).2.faults → true ∈ db.faults)

theorem congruent_predicts : Congruent (σ := Unit) (τ := Db) Predicts where
  lift r db := ⟨.inl rfl, id⟩
  bind {α β x y f g} hx hf db := by
    obtain ⟨h1, h2⟩ := hx db
    rw [SM.bind_apply, SM.bind_apply]
    rcases hy : y db with ⟨r, db'⟩
    rcases hx' : x () with ⟨r', u⟩
    rw [hy, hx'] at h1
    rw [hy] at h2
    simp only at h1 h2
    rcases h1 with h1 | ⟨h1, h3⟩
    · subst h1
      cases r with
      | ok a =>
        obtain ⟨h4, h5⟩ := hf a db'
        refine ⟨?_, fun h => h2 (h5 h)⟩
        rcases h4 with h4 | ⟨h4, h6⟩
        · exact .inl h4
        · exact .inr ⟨h2 h4, h6⟩
      | err e => exact ⟨.inl rfl, h2⟩
      | panic => exact ⟨.inl rfl, h2⟩
      | fuel => exact ⟨.inl rfl, h2⟩
    · subst h3
      exact ⟨.inr ⟨h1, rfl⟩, h2⟩

theorem predicts_putObj (H : Bytes → Key) (o : Object) : Predicts (nullStore.putObj H o) (sqliteStore.putObj H o) := by
  refine congruent_predicts.bind (congruent_predicts.lift _) fun d db => ?_
  rw [sqlite_put]
  rcases hf : db.faults with _ | ⟨b, fs⟩
  · have h1 : (put H d db).1 = .ok (H d) ∧ (put H d db).2.faults = [] := by
      simp only [put, rawPut, write, SM.bind_apply, SM.modify_apply, SM.pure_apply, hf, List.tail_nil, and_self]
    exact ⟨.inl h1.1, by rw [h1.2]; simp⟩
  · cases b with
    | false =>
      have h1 : (put H d db).1 = .ok (H d) ∧ (put H d db).2.faults = fs := by
        simp only [put, rawPut, write, SM.bind_apply, SM.modify_apply, SM.pure_apply, hf, List.tail_cons, and_self]
      exact ⟨.inl h1.1, by rw [h1.2]; simp⟩
    | true =>
      have h1 : (put H d db).1 = .err .sqlite := by
        simp only [put, rawPut, write, SM.bind_apply, SM.modify_apply, hf]
      exact ⟨.inr ⟨by simp, h1⟩, by simp⟩

/-- C83: the null store never fails by itself and computes the key that SQLite gives, or the error SQLite gives, unless a write to the database fails. -/
theorem C83_null (E : Env) (fs : Fs) (filter : Filter) (n : Nat) (path : Path) (db : Db) :
    ((putFsItem E fs filter n path db).1 = (nullStore.putFsItem E fs filter n path ()).1 ∨
      true ∈ db.faults ∧ (putFsItem E fs filter n path db).1 = .err .sqlite) := by
  have := (congruent_predicts.putFsItem (predicts_putObj E.H) fs filter n path db).1
  rwa [sqlite_putFsItem] at this

/-- C83: the same for contents and commits. -/
theorem C83_null_data (table : UInt8 → BitVec 64) (H : Bytes → Key) (evs : List ReadEv) (db : Db) :
    ((putData table H evs db).1 = (nullStore.putData table H evs ()).1 ∨ true ∈ db.faults ∧ (putData table H evs db).1 = .err .sqlite) := by
  have := (congruent_predicts.putData (predicts_putObj H) table evs db).1
  rwa [sqlite_putData] at this

theorem C83_null_commit (H : Bytes → Key) (tree : Key) (parents : List Key) (attrs : CommitAttrs) (db : Db) :
    ((commitTree H tree parents attrs db).1 = (nullStore.commitTree H tree parents attrs ()).1 ∨
      true ∈ db.faults ∧ (commitTree H tree parents attrs db).1 = .err .sqlite) :=
  (congruent_predicts.commitTree (predicts_putObj H) tree parents attrs db).1

/-- C83: what `insert` prints and how it ends can be computed without a database, if writing to the database and the cache file does not fail. -/
theorem C83_insert (X : Ctx) (path : Path) (w : World) (R : Repo) (q : List Bytes) (ho : Opens X w R q) (hf : true ∉ (w.dbs q).faults) (hc : w.cache.faults = []) :
    (∀ k, (nullStore.putFsItem X.E w.fs (makeFilter X.glob R.folder) X.depth path ()).1 = .ok k →
      (mainRun X (.insert path) w).1 = .success ∧ (mainRun X (.insert path) w).2.1 = [.key k]) ∧
    (∀ e, (nullStore.putFsItem X.E w.fs (makeFilter X.glob R.folder) X.depth path ()).1 = .err e →
      (mainRun X (.insert path) w).1 = .fatal e ∧ (mainRun X (.insert path) w).2.1 = []) ∧
    ((nullStore.putFsItem X.E w.fs (makeFilter X.glob R.folder) X.depth path ()).1 = .panic →
      (mainRun X (.insert path) w).1 = .panicked ∧ (mainRun X (.insert path) w).2.1 = []) := by
  have hn := C83_null X.E w.fs (makeFilter X.glob R.folder) X.depth path (w.dbs q)
  have hn : (putFsItem X.E w.fs (makeFilter X.glob R.folder) X.depth path (w.dbs q)).1 = (nullStore.putFsItem X.E w.fs (makeFilter X.glob R.folder) X.depth path ()).1 :=
    hn.elim id fun h => absurd h.1 hf
  rw [mainRun_open (by simp) ho, runIn_out, runIn_exit, ← hn]
  have hrun : ∀ r d, putFsItem X.E w.fs (makeFilter X.glob R.folder) X.depth path (w.dbs q) = (r, d) →
      (Command.insert path).inRepo X R (startOf w q) = (match r with
        | .ok k => (.ok (), { startOf w q with db := d, out := [.key k] })
        | .err e => (.err e, { startOf w q with db := d })
        | .panic => (.panic, { startOf w q with db := d })
        | .fuel => (.fuel, { startOf w q with db := d })) := by
    intro r d h
    show cmdInsert X R path (startOf w q) = _
    unfold cmdInsert
    refine (SM.bind_apply (σ := Sys) _ _ _).trans ?_
    have : onDb (putFsItem X.E (startOf w q).fs (makeFilter X.glob R.folder) X.depth path) (startOf w q) = (r, { startOf w q with db := d }) := by
      unfold onDb SM.on
      have h' : putFsItem X.E (startOf w q).fs (makeFilter X.glob R.folder) X.depth path (startOf w q).db = (r, d) := h
      rw [h']
    rw [this]
    cases r <;> rfl
  rcases hr : putFsItem X.E w.fs (makeFilter X.glob R.folder) X.depth path (w.dbs q) with ⟨r, d⟩
  rw [hrun r d hr]
  refine ⟨?_, ?_, ?_⟩
  · rintro k rfl
    refine ⟨?_, rfl⟩
    simp [Cache.finish, startOf, hc, exitOf]
  · rintro e rfl
    exact ⟨rfl, rfl⟩
  · rintro rfl
    exact ⟨rfl, rfl⟩

/-- C83: whatever is read from the null store, the program panics; refs and HEAD can be written. -/
theorem C83_null_reads (k : Key) (b : Bytes) (s : Keyish) (name : Bytes) (remote : Option Bytes) (stop : Option Bytes) (n : Nat) (sink : Bytes → SM Bytes Unit) (w : Bytes) :
    nullStore.get () k = .panic ∧ nullStore.getObj () k = .panic ∧ nullStore.rawExists () b = .panic ∧ nullStore.getHead () = .panic ∧
    nullStore.reflogGet () name remote = .panic ∧ nullStore.reflogWalk () name remote = .panic ∧ nullStore.rawBetween () b stop = .panic ∧
    nullStore.canonicalize () s = .panic ∧ nullStore.readDataTo () sink (n + 1) k w = (.panic, w) ∧
    (nullStore.putHead name ()).1 = .ok () ∧ (nullStore.reflogPush name remote k ()).1 = .ok () := by
  refine ⟨rfl, rfl, rfl, rfl, rfl, rfl, rfl, ?_, rfl, rfl, rfl⟩
  cases s <;> rfl

end Snap.Props
