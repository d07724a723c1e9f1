import Verif.Props.Ends
import Verif.Props.Progress
/-! Reasoning about the causes of panics. -/
namespace Snap.Props
open Snap
set_option linter.unusedSectionVars false
variable [Serde] [LawfulSerde]

/-- `I` is kept, and there is no panic but for the cause `C`. -/
def Only {σ α} (I : σ → Prop) (C : Prop) (x : SM σ α) : Prop := ∀ s, I s → I (x s).2 ∧ ((x s).1 = .panic → C)

section
variable {σ τ α β : Type} {I : σ → Prop} {C : Prop}

theorem res_bind_panic {x : Res α} {f : α → Res β} (hx : x = .panic → C) (hf : ∀ a, x = .ok a → f a = .panic → C) : (x >>= f) = .panic → C := by
  cases x with
  | ok a => exact hf a rfl
  | err e => exact nofun
  | panic => exact fun _ => hx rfl
  | fuel => exact nofun

theorem unwrap_panic {x : Res α} (hp : x = .panic → C) (he : ∀ e, x = .err e → C) : x.unwrap = .panic → C := by
  cases x with
  | ok a => exact nofun
  | err e => exact fun _ => he e rfl
  | panic => exact fun _ => hp rfl
  | fuel => exact nofun

theorem mapRes_only {f : α → Res β} {l : List α} (h : ∀ a ∈ l, f a = .panic → C) : mapRes f l = .panic → C := by
  induction l with
  | nil => exact nofun
  | cons a l ih =>
    simp only [mapRes]
    exact res_bind_panic (h a (by simp)) fun b _ => res_bind_panic (ih fun x hx => h x (by simp [hx])) fun _ _ => nofun

theorem only_pure (a : α) : Only I C (pure a : SM σ α) := fun _ h => ⟨h, nofun⟩
theorem only_panic (h : C) : Only I C (SM.panic : SM σ α) := fun _ hs => ⟨hs, fun _ => h⟩
theorem only_throw (e : Err) : Only I C (SM.throw e : SM σ α) := fun _ h => ⟨h, nofun⟩
theorem only_lift {r : Res α} (h : r = .panic → C) : Only I C (SM.lift r : SM σ α) := fun _ hs => ⟨hs, h⟩
theorem only_read {f : σ → Res α} (h : ∀ s, I s → f s = .panic → C) : Only I C (SM.read f) := fun s hs => ⟨hs, h s hs⟩
theorem only_modify {f : σ → σ} (h : ∀ s, I s → I (f s)) : Only I C (SM.modify f) := fun s hs => ⟨h s hs, nofun⟩
theorem only_ite {c : Prop} [Decidable c] {x y : SM σ α} (hx : c → Only I C x) (hy : ¬ c → Only I C y) : Only I C (if c then x else y) := by
  by_cases h : c
  · rw [if_pos h]; exact hx h
  · rw [if_neg h]; exact hy h

theorem only_bind {x : SM σ α} {f : α → SM σ β} (hx : Only I C x) (hf : ∀ a s s', I s → x s = (.ok a, s') → Only I C (f a)) : Only I C (x >>= f) := by
  intro s hs
  rw [SM.bind_apply]
  have h1 := hx s hs
  cases h : x s with
  | mk r s' =>
    rw [h] at h1
    cases r with
    | ok a => exact hf a s s' hs h s' h1.1
    | err e => exact ⟨h1.1, nofun⟩
    | panic => exact ⟨h1.1, fun _ => h1.2 rfl⟩
    | fuel => exact ⟨h1.1, nofun⟩

theorem only_each {f : α → SM σ Unit} {l : List α} (h : ∀ a ∈ l, Only I C (f a)) : Only I C (SM.each f l) := by
  induction l with
  | nil => exact only_pure _
  | cons a l ih => exact only_bind (h a (by simp)) fun _ _ _ _ _ => ih fun b hb => h b (by simp [hb])

theorem only_mapSM {f : α → SM σ β} {l : List α} (h : ∀ a ∈ l, Only I C (f a)) : Only I C (mapSM f l) := by
  induction l with
  | nil => exact only_pure _
  | cons a l ih => exact only_bind (h a (by simp)) fun _ _ _ _ _ => only_bind (ih fun b hb => h b (by simp [hb])) fun _ _ _ _ _ => only_pure _

theorem Only.imp {x : SM σ α} {D : Prop} (h : Only I C x) (hcd : C → D) : Only I D x := fun s hs => ⟨(h s hs).1, fun hp => hcd ((h s hs).2 hp)⟩

/-- One step of a command. -/
theorem bind_panic {x : SM σ α} {f : α → SM σ β} {s : σ} (hx : (x s).1 = .panic → C) (hf : ∀ a s', x s = (.ok a, s') → (f a s').1 = .panic → C) : ((x >>= f) s).1 = .panic → C := by
  rw [SM.bind_apply]
  cases h : x s with
  | mk r s' =>
    rw [h] at hx
    cases r with
    | ok a => exact hf a s' h
    | err e => exact nofun
    | panic => exact fun _ => hx rfl
    | fuel => exact nofun
end

theorem readDb_bind_panic {α β} {C : Prop} {g : Db → Res α} {f : α → Snap.C β} {s : Sys} (hg : g s.db = .panic → C) (hf : ∀ a, g s.db = .ok a → (f a s).1 = .panic → C) :
    ((readDb g >>= f) s).1 = .panic → C :=
  bind_panic hg fun a s' h => by
    obtain ⟨h1, rfl⟩ : g s.db = .ok a ∧ s = s' := by simpa [readDb, SM.read] using h
    exact hf a h1

/-! ### Parts that never panic -/

theorem fromDbKey_calm (b : Bytes) : fromDbKey b ≠ .panic := by
  unfold fromDbKey
  repeat' split
  all_goals exact nofun

theorem reflogGet_calm (db : Db) (n : Bytes) (r : Option Bytes) : reflogGet db n r ≠ .panic := by
  unfold reflogGet
  split
  · exact fromDbKey_calm _
  · exact nofun

theorem mapRes_calm {α β : Type} {f : α → Res β} (h : ∀ a, f a ≠ .panic) (l : List α) : mapRes f l ≠ .panic := fun e => mapRes_only (C := False) (fun a _ => h a) e

theorem res_bind_calm {α β : Type} {x : Res α} {f : α → Res β} (hx : x ≠ .panic) (hf : ∀ a, x = .ok a → f a ≠ .panic) : (x >>= f) ≠ .panic := fun e => res_bind_panic (C := False) hx hf e

theorem reflogWalk_calm (db : Db) (n : Bytes) (r : Option Bytes) : reflogWalk db n r ≠ .panic := mapRes_calm (fun _ => fromDbKey_calm _) _

/-- The text of a whole key that is not stored. -/
def AbsentKey (db : Db) (s : Keyish) : Prop := ∃ t b, s = .key t b ∧ assoc db.data b = none

theorem canonicalize_panic (db : Db) (s : Keyish) : canonicalize db s = .panic ↔ AbsentKey db s := by
  constructor
  · have hfin : ∀ (e : Bytes) (l : List Bytes), (match l with
        | [] => .err (.canonNotFound e)
        | [k] => fromDbKey k
        | _ => do
          let strs ← mapRes fromDbKey l
          .err (.ambiguous e (strs.map (·.hash))) : Res Key) ≠ .panic := by
      intro e l
      split
      · exact nofun
      · exact fromDbKey_calm _
      · exact res_bind_calm (mapRes_calm fromDbKey_calm _) fun _ _ => nofun
    unfold canonicalize
    cases s with
    | key s key =>
      refine res_bind_panic (unwrap_panic ?_ ?_) fun k _ h => (fromDbKey_calm k h).elim
      · unfold rawGet; split <;> exact nofun
      · intro e h
        unfold rawGet at h
        split at h
        · simp at h
        · rename_i hn; exact ⟨s, key, rfl, hn⟩
    | range s a b =>
      intro h
      exact (res_bind_panic (C := False) (unwrap_panic (by unfold rawBetween; split <;> exact nofun) (by unfold rawBetween; intro e; split <;> exact nofun)) (fun k _ => hfin s k) h).elim
    | reflog o r k =>
      simp only
      intro h
      split at h
      · simp at h
      · exact (reflogGet_calm _ _ _ h).elim
  · rintro ⟨t, b, rfl, h⟩
    simp [canonicalize, rawGet, h, Res.unwrap]

theorem getHead_calm (db : Db) : getHead db ≠ .panic := by
  unfold getHead
  refine res_bind_calm nofun fun a _ => ?_
  split
  · split <;> exact nofun
  · exact nofun

theorem headName_calm (db : Db) : headName db ≠ .panic := by
  unfold headName
  refine res_bind_calm (getHead_calm db) fun a _ => ?_
  split <;> exact nofun

theorem refOrHead_calm (db : Db) (r : Option Bytes) : refOrHead db r ≠ .panic := by
  cases r
  · exact headName_calm db
  · exact nofun

theorem getHeadKey_calm (db : Db) : getHeadKey db ≠ .panic := res_bind_calm (headName_calm db) fun _ _ => reflogGet_calm _ _ _

theorem parentsOf_calm (db : Db) (r : Bytes) : parentsOf db r ≠ .panic := by
  unfold parentsOf
  have := reflogGet_calm db r none
  split
  · exact nofun
  · exact nofun
  · exact nofun
  · rename_i h; exact (this h).elim
  · exact nofun

theorem getObj_calm (db : Db) (k : Key) : getObj db k ≠ .panic := by
  refine res_bind_calm ?_ fun b _ => (Object.decode_total b).1
  unfold get rawGet
  split <;> exact nofun

theorem itemOf_calm (o : Object) : FsItem.ofObject o ≠ .panic :=
  res_bind_calm (Serde.item_calm _).1 fun _ _ => nofun

theorem getItem_calm (db : Db) (k : Key) : getItem db k ≠ .panic := res_bind_calm (getObj_calm db k) fun o _ => itemOf_calm o

/-! ### The file system -/

theorem fsWalk_calm (fs : Fs) (cur l : List Bytes) : fs.walk cur l ≠ .panic := by
  induction l generalizing cur with
  | nil => exact nofun
  | cons s l ih =>
    unfold Fs.walk
    split
    · exact ih _
    all_goals exact nofun

theorem locate_calm (fs : Fs) (p : Path) : fs.locate p ≠ .panic := by
  unfold Fs.locate
  split
  · exact nofun
  · split
    · exact nofun
    · exact fsWalk_calm _ _ _

theorem metadata_calm (fs : Fs) (p : Path) : fs.metadata p ≠ .panic := by
  refine res_bind_calm (locate_calm fs p) fun q _ => ?_
  split <;> exact nofun

theorem readDir_calm (fs : Fs) (p : Path) : fs.readDir p ≠ .panic := by
  refine res_bind_calm (locate_calm fs p) fun q _ => ?_
  split <;> exact nofun

theorem fsCanon_calm (fs : Fs) (p : Path) : fs.canonicalize p ≠ .panic := by
  refine res_bind_calm (locate_calm fs p) fun q _ => ?_
  split <;> exact nofun

/-- The filter panics where it is asked about something that is not there, or if the database folder is gone. -/
theorem makeFilter_panic {glob : Path → Bool} {db : Path} {fs : Fs} {p : Path} (h : makeFilter glob db fs p = .panic) :
    (¬ ∃ e, fs.metadata p = .ok e) ∨ ¬ ∃ e, fs.metadata db = .ok e := by
  have hne : ∀ q, (∃ e, fs.metadata q = .ok e) → ∀ e, fs.canonicalize q ≠ .err e := by
    intro q hq e he
    rw [canonicalize_ok.mpr ⟨rfl, hq⟩] at he
    simp at he
  by_cases h1 : ∃ e, fs.metadata p = .ok e
  · by_cases h2 : ∃ e, fs.metadata db = .ok e
    · obtain ⟨b, hb⟩ := makeFilter_answers (glob := glob) h2 h1
      rw [hb] at h; simp at h
    · exact .inr h2
  · exact .inl h1

/-- Nothing on the file system panics. -/
def Calm {σ α} (x : SM σ α) : Prop := ∀ s, (x s).1 ≠ .panic

theorem Calm.only {σ α} {x : SM σ α} {C : Prop} (h : Calm x) : Only (fun _ => True) C x := fun s _ => ⟨trivial, fun e => (h s e).elim⟩

theorem calm_call {α} (onFail : Nat → Fs → Fs) {x : SM Fs α} (h : Calm x) : Calm (Fs.call onFail x) := by
  intro fs
  unfold Fs.call
  split
  · exact nofun
  · exact h _

theorem calm_mkdir (p : Path) : Calm (Fs.mkdir p) := by
  refine calm_call _ fun fs => ?_
  split
  · exact nofun
  · split
    · exact nofun
    · have := fsWalk_calm fs (if Path.isAbs p then [] else fs.cwd) (dropTrailing (splitSlash p))
      split
      · split <;> exact nofun
      · exact nofun
      · simp_all
      · exact nofun

theorem calm_createDirAllN (n : Nat) (p : Path) : Calm (Fs.createDirAllN n p) := by
  induction n generalizing p with
  | zero => exact fun _ => nofun
  | succ n ih =>
    intro fs
    unfold Fs.createDirAllN
    split
    · exact nofun
    · split
      · exact nofun
      · split
        · exact nofun
        · split
          · split
            · exact nofun
            · split <;> exact nofun
          · exact ih _ _
      · split <;> exact nofun

theorem calm_createDirAll (p : Path) : Calm (Fs.createDirAll p) := calm_createDirAllN _ _

theorem calm_createNew (p : Path) : Calm (Fs.createNew p) := by
  refine calm_call _ fun fs => ?_
  have := locate_calm fs p
  split
  · split
    · split <;> exact nofun
    · exact nofun
  · exact nofun
  · simp_all
  · exact nofun

theorem calm_create (p : Path) : Calm (Fs.create p) := by
  refine calm_call _ fun fs => ?_
  have := locate_calm fs p
  split
  · split
    · split <;> exact nofun
    · exact nofun
  · exact nofun
  · simp_all
  · exact nofun

theorem calm_writeAll (q : List Bytes) (d : Bytes) : Calm (Fs.writeAll q d) := calm_call _ fun _ => nofun

theorem calm_removeDirAll (p : Path) : Calm (Fs.removeDirAll p) := by
  intro fs
  unfold Fs.removeDirAll
  have := locate_calm fs p
  split
  · exact calm_call _ (fun fs => by split <;> exact nofun) _
  · exact nofun
  · simp_all
  · exact nofun

theorem calm_removeFile (p : Path) : Calm (Fs.removeFile p) := by
  refine calm_call _ fun fs => ?_
  have := locate_calm fs p
  split
  · split <;> exact nofun
  · exact nofun
  · simp_all
  · exact nofun

/-! ### Storing -/

section
variable {σ α β : Type}
theorem calm_pure (a : α) : Calm (pure a : SM σ α) := fun _ => nofun
theorem calm_throw (e : Err) : Calm (SM.throw e : SM σ α) := fun _ => nofun
theorem calm_modify (f : σ → σ) : Calm (SM.modify f) := fun _ => nofun
theorem calm_lift {r : Res α} (h : r ≠ .panic) : Calm (SM.lift r : SM σ α) := fun _ => h
theorem calm_read {f : σ → Res α} (h : ∀ s, f s ≠ .panic) : Calm (SM.read f) := h
theorem calm_bind {x : SM σ α} {f : α → SM σ β} (hx : Calm x) (hf : ∀ a, Calm (f a)) : Calm (x >>= f) := fun s => bind_panic (C := False) (hx s) fun a s' _ => hf a s'
theorem calm_ite {c : Prop} [Decidable c] {x y : SM σ α} (hx : c → Calm x) (hy : ¬ c → Calm y) : Calm (if c then x else y) := by
  by_cases h : c
  · rw [if_pos h]; exact hx h
  · rw [if_neg h]; exact hy h
theorem calm_each {f : α → SM σ Unit} (h : ∀ a, Calm (f a)) (l : List α) : Calm (SM.each f l) := by
  induction l with
  | nil => exact calm_pure _
  | cons a l ih => exact calm_bind (h a) fun _ => ih
theorem calm_on {τ : Type} {get : σ → τ} {set : τ → σ → σ} {x : SM τ α} (h : Calm x) : Calm (SM.on get set x) := fun s => h (get s)
end

theorem calm_write (f : Db → Db) : Calm (write f) := by
  intro s
  unfold write
  split <;> exact nofun

theorem calm_put (H : Bytes → Key) (b : Bytes) : Calm (put H b) := calm_bind (calm_modify _) fun _ => calm_bind (calm_write _) fun _ => calm_pure _

theorem calm_putObj (H : Bytes → Key) (o : Object) : Calm (putObj H o) := calm_bind (calm_lift (Object.encode_not_panic o).1) fun _ => calm_put H _

theorem calm_cascade (H : Bytes → Key) (z : Nat) (os : List Nat) (kb : KeyBufs) : Calm (cascade H z os kb) := by
  induction os generalizing kb with
  | nil => exact calm_pure _
  | cons o os ih => exact calm_ite (fun _ => calm_bind (calm_putObj H _) fun _ => ih _) fun _ => calm_pure _

theorem calm_addChunks (H : Bytes → Key) (cs : List (Bytes × BitVec 64)) (kb : KeyBufs) : Calm (addChunks H cs kb) := by
  induction cs generalizing kb with
  | nil => exact calm_pure _
  | cons c cs ih => exact calm_bind (calm_putObj H _) fun _ => calm_bind (calm_cascade H _ _ _) fun _ => ih _

theorem calm_finishTree (H : Bytes → Key) (os : List Nat) (kb : KeyBufs) : Calm (finishTree H os kb) := by
  induction os generalizing kb with
  | nil => exact calm_putObj H _
  | cons o os ih =>
    refine calm_bind (calm_putObj H _) fun _ => calm_ite (fun hc => ?_) fun _ => ih _
    split
    · exact calm_pure _
    · rename_i h
      rw [List.getLast?_eq_none_iff] at h
      rw [h] at hc
      simp at hc

theorem calm_putData (table : UInt8 → BitVec 64) (H : Bytes → Key) (evs : List ReadEv) : Calm (putData table H evs) := by
  rw [putData_eq]
  refine calm_bind (calm_addChunks H _ _) fun kb => calm_ite (fun _ => calm_throw _) fun _ => ?_
  unfold putFinish
  exact calm_ite (fun _ => calm_putObj H _) fun _ =>
    calm_bind (calm_ite (fun _ => calm_pure _) fun _ => calm_bind (calm_putObj H _) fun _ => calm_pure _) fun _ => calm_finishTree H _ _

theorem toObject_calm (i : FsItem) : i.toObject ≠ .panic := by
  unfold FsItem.toObject
  repeat' split
  all_goals exact nofun

theorem calm_putFile (E : Env) (path : Path) (c : Bytes) : Calm (putFile E path c) :=
  calm_bind (calm_putData _ _ _) fun _ => calm_bind (calm_lift (toObject_calm _)) fun _ => calm_putObj _ _

theorem calm_commitTree (H : Bytes → Key) (t : Key) (ps : List Key) (a : CommitAttrs) : Calm (commitTree H t ps a) := by
  refine calm_bind (calm_lift ?_) fun _ => calm_putObj _ _
  unfold Commit.toObject
  split <;> exact nofun

theorem calm_emit (o : Out) : Calm (emit o) := calm_modify _

theorem calm_emitAll {α} (order : List Path → List Path) (m : PMap α) (line : Path → α → Out) : Calm (emitAll order m line) := by
  refine calm_each (fun p => ?_) _
  split
  · exact calm_emit _
  · exact calm_pure _

theorem calm_onDb {α} {x : M α} (h : Calm x) : Calm (onDb x) := calm_on h

/-! ### Directories -/

/-- A dangling link directly in one of the directories that are entered. -/
def BrokenBelow (fs : Fs) (filter : Filter) (path : Path) : Prop := ∃ rel m, Visible fs filter path rel ∧ fs.at (loc fs.cwd path ++ rel ++ [m]) = some .broken

/-- Something that is neither a directory nor a regular file, among what is not left out. -/
def SpecialBelow (fs : Fs) (filter : Filter) (path : Path) : Prop := ∃ rel, Visible fs filter path rel ∧ fs.at (loc fs.cwd path ++ rel) = some .special

theorem entry_filter {fs : Fs} (hw : fs.Wf) {glob : Path → Bool} {dbPath : Path} (hdb : ∃ e, fs.metadata dbPath = .ok e) {path : Path} (hd : fs.metadata path = .ok .dir) {m : Bytes}
    (hm : m ∈ fs.names (loc fs.cwd path)) (h : makeFilter glob dbPath fs (Path.join path m) = .panic) : fs.at (loc fs.cwd path ++ [m]) = some .broken := by
  rcases makeFilter_panic h with h | h
  · cases ha : fs.at (loc fs.cwd path ++ [m]) with
    | none => exact absurd ha (mem_names.mp hm)
    | some e =>
      by_cases hb : e = .broken
      · rw [hb]
      · exact (h ⟨e, metadata_joins hw (metadata_ok hd).1 (rel := [m]) ha hb⟩).elim
  · exact (h hdb).elim

theorem putFsItem_panic (E : Env) {fs : Fs} (hw : fs.Wf) {glob : Path → Bool} {dbPath : Path} (hdb : ∃ e, fs.metadata dbPath = .ok e) (n : Nat) (path : Path) (db : Db)
    (h : (putFsItem E fs (makeFilter glob dbPath) n path db).1 = .panic) : BrokenBelow fs (makeFilter glob dbPath) path ∨ SpecialBelow fs (makeFilter glob dbPath) path := by
  revert h
  induction n generalizing path db with
  | zero => exact nofun
  | succ n ih =>
    unfold putFsItem
    refine bind_panic (fun h => (metadata_calm fs path h).elim) fun e s' he => ?_
    have he : fs.metadata path = .ok e := by simpa using congrArg Prod.fst he
    obtain ⟨h1, h2, h3⟩ := metadata_ok he
    cases e with
    | broken => exact (h3 rfl).elim
    | special => exact fun _ => .inr ⟨[], visible_nil _ _ _, by rw [List.append_nil]; exact h2⟩
    | file c md => exact fun h => (calm_putFile E path c _ h).elim
    | dir =>
      refine bind_panic (fun h => (readDir_calm fs path h).elim) fun names s' hr => ?_
      have hr : fs.readDir path = .ok names := by simpa using congrArg Prod.fst hr
      have hnames := (readDir_ok hr).2.2
      refine bind_panic ?_ fun r s' _ h => (calm_bind (calm_lift (toObject_calm _)) (fun _ => calm_putObj _ _) s' h).elim
      have hent : ∀ (l : List Bytes) (db : Db), (∀ m ∈ l, m ∈ fs.names (loc fs.cwd path)) →
          (putEntries fs (makeFilter glob dbPath) (putFsItem E fs (makeFilter glob dbPath) n) path l db).1 = .panic →
          BrokenBelow fs (makeFilter glob dbPath) path ∨ SpecialBelow fs (makeFilter glob dbPath) path := by
        intro l
        induction l with
        | nil => intro db _; exact nofun
        | cons m l ihl =>
          intro db hl
          have hm := hl m (by simp)
          have ihl := fun db => ihl db fun m hm => hl m (by simp [hm])
          unfold putEntries
          refine bind_panic (fun h => .inl ⟨[], m, visible_nil _ _ _, ?_⟩) fun b s' hb => ?_
          · rw [List.append_nil]
            exact entry_filter hw hdb he hm h
          · have hb : makeFilter glob dbPath fs (Path.join path m) = .ok b := by simpa using congrArg Prod.fst hb
            cases b with
            | false => exact ihl _
            | true =>
              refine bind_panic (fun h => ?_) fun _ _ _ => bind_panic (ihl _) fun _ _ _ => nofun
              have hj := loc_join fs.cwd path (hw.okNames hm)
              rcases ih _ _ h with ⟨rel, x, hv, hx⟩ | ⟨rel, hv, hx⟩
              · refine .inl ⟨m :: rel, x, visible_cons.mpr ⟨hb, hv⟩, ?_⟩
                rw [hj] at hx
                simpa using hx
              · refine .inr ⟨m :: rel, visible_cons.mpr ⟨hb, hv⟩, ?_⟩
                rw [hj] at hx
                simpa using hx
      exact hent names _ fun m hm => hnames ▸ hm

theorem join_currOf {base : Path} (hb : base ≠ []) {pre : List Bytes} (hp : ∀ m ∈ pre, okName m) {m : Bytes} (hm : okName m) :
    Path.join (currOf base pre) m = joins base (pre ++ [m]) := by
  rw [joins_snoc]
  by_cases h0 : pre = []
  · subst h0
    exact join_join_empty hb hm.comp.notAbs
  · rw [currOf_ne (fun m hm => (hp m hm).comp) h0]

theorem visible_snoc {fs : Fs} {filter : Filter} {path : Path} {pre : List Bytes} {m : Bytes} (hv : Visible fs filter path pre) (h : filter fs (joins path (pre ++ [m])) = .ok true) :
    Visible fs filter path (pre ++ [m]) := by
  intro r h0 hr
  rcases List.prefix_concat_iff.mp hr with e | e
  · rw [e]; exact h
  · exact hv r h0 e

theorem walkRealFrom_panic {fs : Fs} (hw : fs.Wf) {filter : Filter} {base : Path} (hb : base ≠ [])
    (hf : ∀ path m, fs.metadata path = .ok .dir → m ∈ fs.names (loc fs.cwd path) → filter fs (Path.join path m) = .panic → fs.at (loc fs.cwd path ++ [m]) = some .broken) (n : Nat)
    (pre : List Bytes) (hp : ∀ m ∈ pre, okName m) (hv : Visible fs filter base pre) : walkRealFrom fs filter base n (relPath pre) = .panic → BrokenBelow fs filter base := by
  induction n generalizing pre with
  | zero => exact nofun
  | succ n ih =>
    unfold walkRealFrom
    refine res_bind_panic (fun h => (metadata_calm fs _ h).elim) fun e he => ?_
    cases e with
    | dir =>
      refine res_bind_panic (fun h => (readDir_calm fs _ h).elim) fun names hr => ?_
      have hnames := (readDir_ok hr).2.2
      have hloc := loc_currOf hb hp he
      have hent : ∀ (l : List Bytes) (M : PMap Bool), (∀ m ∈ l, m ∈ fs.names (loc fs.cwd (currOf base pre))) →
          walkRealEntries fs filter (walkRealFrom fs filter base n) (currOf base pre) (relPath pre) M l = .panic → BrokenBelow fs filter base := by
        intro l
        induction l with
        | nil => intro M _; exact nofun
        | cons m l ihl =>
          intro M hl
          have hm := hl m (by simp)
          have ihl := fun M => ihl M fun m hm => hl m (by simp [hm])
          unfold walkRealEntries
          refine res_bind_panic (fun h => ⟨pre, m, hv, ?_⟩) fun b hb' => ?_
          · rw [← hloc]; exact hf _ m he hm h
          · cases b with
            | false => exact ihl _
            | true =>
              refine res_bind_panic ?_ fun _ _ => ihl _
              rw [← relPath_snoc]
              refine ih _ ?_ (visible_snoc hv ?_)
              · intro x hx
                rcases List.mem_append.mp hx with hx | hx
                · exact hp x hx
                · rw [List.mem_singleton.mp hx]; exact hw.okNames hm
              · rw [← join_currOf hb hp (hw.okNames hm)]; exact hb'
      exact hent names _ fun m hm => hnames ▸ hm
    | file c md => exact nofun
    | special => exact nofun
    | broken => exact nofun

theorem walkReal_panic {fs : Fs} (hw : fs.Wf) {filter : Filter} {base : Path}
    (hf : ∀ path m, fs.metadata path = .ok .dir → m ∈ fs.names (loc fs.cwd path) → filter fs (Path.join path m) = .panic → fs.at (loc fs.cwd path ++ [m]) = some .broken) (n : Nat) :
    walkReal fs filter n base = .panic → BrokenBelow fs filter base := by
  by_cases hb : base = []
  · subst hb
    cases n with
    | zero => exact nofun
    | succ n =>
      unfold walkReal walkRealFrom
      have : fs.metadata (Path.join [] []) = .err .enoent := by rfl
      simp only [this]
      exact nofun
  · exact walkRealFrom_panic hw hb hf n [] (by simp) (visible_nil _ _ _)

/-- Without a filter (`debug walk-fs-tree`) the walk does not panic. -/
theorem walkReal_calm {fs : Fs} (n : Nat) (base : Path) : walkReal fs (fun _ _ => .ok true) n base ≠ .panic := by
  unfold walkReal
  suffices ∀ n p, walkRealFrom fs (fun _ _ => .ok true) base n p ≠ .panic from this _ _
  intro n
  induction n with
  | zero => intro p; exact nofun
  | succ n ih =>
    intro p
    unfold walkRealFrom
    refine res_bind_calm (metadata_calm fs _) fun e _ => ?_
    cases e with
    | dir =>
      refine res_bind_calm (readDir_calm fs _) fun names hn => ?_
      clear hn
      generalize (if p = [] then [] else PMap.insert [] p true) = M
      induction names generalizing M with
      | nil => exact nofun
      | cons m l ihl =>
        unfold walkRealEntries
        refine res_bind_calm nofun fun b hb => ?_
        cases b with
        | false => exact ihl _
        | true => exact res_bind_calm (ih _) fun _ _ => ihl _
    | file c md => exact nofun
    | special => exact nofun
    | broken => exact nofun

/-! ### Stored trees -/

theorem extendAll_calm {α β} {f : β → Res (PMap α)} (h : ∀ b, f b ≠ .panic) (m : PMap α) (l : List β) : extendAll f m l ≠ .panic := by
  induction l generalizing m with
  | nil => exact nofun
  | cons b l ih => exact res_bind_calm (h b) fun _ _ => ih _

theorem walkItems_calm (db : Db) (n : Nat) (k : Key) : walkItems db n k ≠ .panic := by
  unfold walkItems
  suffices ∀ n k p, walkItemsFrom db n k p ≠ .panic from this _ _ _
  intro n
  induction n with
  | zero => intro k p; exact nofun
  | succ n ih =>
    intro k p
    unfold walkItemsFrom
    refine res_bind_calm (getItem_calm db k) fun item _ => ?_
    cases item.itemtype with
    | dir => exact extendAll_calm (fun c => ih _ _) _ _
    | file => exact nofun

end Snap.Props
