import Verif.Props.PanicShow
import Verif.Props.Status
/-! Property C78: why `compare`, `status` and `checkout-head` panic. -/
namespace Snap.Props
open Snap
set_option linter.unusedSectionVars false
variable [Serde] [LawfulSerde]

/-! ### Hashing -/

/-- At `p`, seen from the current directory, there is no regular file that can be read. -/
def Unhashable (E : Env) (fs : Fs) (p : Path) : Prop := ¬ ∃ c md k, fs.metadata p = .ok (.file c md) ∧ fileKey E p c = .ok k

/-- An entry of the cache is not a key. -/
def Malformed (ca : Cache) : Prop := ∃ ck, ∀ o, ca.get ck ≠ .ok o

/-- No write to the database fails, and all entries of the cache are keys. -/
def Fit (s : Db × Cache) : Prop := true ∉ s.1.faults ∧ ¬ Malformed s.2

theorem execPuts_fit {α} (H : Bytes → Key) (ws : List Bytes) (r : Res α) (db : Db) (h : true ∉ db.faults) :
    (execPuts H ws r db).1 = r ∧ true ∉ (execPuts H ws r db).2.faults := by
  induction ws generalizing db with
  | nil => exact ⟨rfl, h⟩
  | cons w ws ih =>
    have hp : put H w db = (.ok (H w), { db with hashed := w :: db.hashed, faults := db.faults.tail, data := insertIgnore db.data (H w).asDbKey w }) := by
      rcases put_cases H w db with e | e
      · unfold put rawPut at e
        simp only [SM.bind_apply, SM.modify_apply] at e
        rcases write_cases (fun db => { db with data := insertIgnore db.data (H w).asDbKey w }) { db with hashed := w :: db.hashed } with ⟨fs, h', e'⟩ | e'
        · exfalso
          have : db.faults = true :: fs := h'
          rw [this] at h
          simp at h
        · rw [e'] at e; simp at e
      · exact e
    rw [execPuts_cons, hp]
    exact ih _ fun ht => h (List.mem_of_mem_tail ht)

theorem putFile_fit (E : Env) (p : Path) (c : Bytes) (db : Db) (h : true ∉ db.faults) : (putFile E p c db).1 = fileKey E p c ∧ true ∉ (putFile E p c db).2.faults := by
  obtain ⟨ws, r, hx⟩ := isPuts_putFile E p c
  unfold fileKey
  rw [hx db, hx {}, (execPuts_fit E.H ws r {} (by simp)).1]
  exact execPuts_fit E.H ws r db h

theorem put_malformed {ca : Cache} {ck : CacheKey} {k : Key} (h : ¬ Malformed ca) : ¬ Malformed (Cache.put ck k ca).2 := by
  rintro ⟨ck', h'⟩
  have hq := C56_put ca (Cache.put ck k ca).2 ck k (Cache.put ck k ca).1 rfl ck'
  rw [hq] at h'
  split at h'
  · exact h' _ rfl
  · exact h ⟨ck', h'⟩

theorem calm_hashFsItem (E : Env) (fs : Fs) (p : Path) : Calm (hashFsItem E fs p) := by
  unfold hashFsItem
  refine calm_bind (calm_lift (metadata_calm fs p)) fun e => ?_
  split
  · refine calm_bind (calm_read fun s => ?_) fun c => ?_
    · unfold Cache.get
      split
      · exact res_bind_calm (fromDbKey_calm _) fun _ _ => nofun
      · exact nofun
    · split
      · exact calm_pure _
      · exact calm_bind (fun s => calm_putFile E _ _ s.1) fun _ => calm_bind (fun s => nofun) fun _ => calm_pure _
  · exact calm_throw _

/-- Hashing a file in good conditions: it goes well if the file can be read, and the conditions stay. -/
theorem hash_fit {E : Env} {fs : Fs} {p : Path} {s : Db × Cache} (h : Fit s) : Fit (hashFsItem E fs p s).2 ∧ (¬ Unhashable E fs p → ∃ k, (hashFsItem E fs p s).1 = .ok k) := by
  cases hm : fs.metadata p with
  | ok e =>
    by_cases he : ∃ c md, e = .file c md
    · obtain ⟨c, md, rfl⟩ := he
      rw [hashFsItem_file hm]
      cases hg : s.2.get (tripleOf c md) with
      | ok o =>
        cases o with
        | some k => exact ⟨h, fun _ => ⟨k, rfl⟩⟩
        | none =>
          simp only
          have hpf := putFile_fit E p c s.1 h.1
          cases hp : putFile E p c s.1 with
          | mk rp db' =>
            rw [hp] at hpf
            cases rp with
            | ok k' => exact ⟨⟨hpf.2, put_malformed h.2⟩, fun _ => ⟨_, rfl⟩⟩
            | _ =>
              refine ⟨⟨hpf.2, h.2⟩, fun hn => ?_⟩
              refine absurd ?_ hn
              rintro ⟨c', md', k, h1, h2⟩
              rw [hm] at h1
              simp at h1
              obtain ⟨rfl, rfl⟩ := h1
              rw [← hpf.1] at h2
              simp at h2
      | _ => exact absurd ⟨_, by rw [hg]; simp⟩ h.2
    · rw [C57_non_file E fs p s e hm (fun c md hc => he ⟨c, md, hc⟩)]
      refine ⟨h, fun hn => absurd ?_ hn⟩
      rintro ⟨c, md, k, h1, _⟩
      rw [hm] at h1
      exact he ⟨c, md, by simpa using h1⟩
  | _ =>
    have : ∀ c md, fs.metadata p ≠ .ok (.file c md) := by rw [hm]; simp
    unfold hashFsItem
    simp only [SM.bind_apply, SM.lift_apply, hm]
    exact ⟨h, fun hn => absurd (fun ⟨c, md, k, h1, _⟩ => this c md h1) hn⟩

/-! ### The comparison -/

section
variable {E : Env} {fs : Fs} {A : PMap Bool} {B : PMap (Key × Bool)}

theorem isDir_left (hA : A.Ok) {x : Path} (hx : x ∈ A.map (·.1)) : ∃ b, (x, b) ∈ A ∧ (FromMap.left A).isDir x = .ok b := by
  obtain ⟨b, hb⟩ := (PMap.get_some_iff (hA.key_norm hx)).mpr hx
  exact ⟨b, (PMap.get_iff hA (hA.key_norm hx)).mp hb, by simp only [FromMap.isDir, hb]⟩

/-- One new path: a directory, or a file that is hashed; if that fails, it is a panic. -/
theorem addedOf_left (hA : A.Ok) {x : Path} (hx : x ∈ A.map (·.1)) (s : Db × Cache) :
    ((x, true) ∈ A ∧ addedOf E fs (.left A) x s = (.ok ⟨x, true, none⟩, s)) ∨
    ((x, false) ∈ A ∧ ((∃ k s', hashFsItem E fs x s = (.ok k, s') ∧ addedOf E fs (.left A) x s = (.ok ⟨x, false, some k⟩, s')) ∨
      ((∀ k, (hashFsItem E fs x s).1 ≠ .ok k) ∧ addedOf E fs (.left A) x s = (.panic, (hashFsItem E fs x s).2)))) := by
  obtain ⟨b, h1, h2⟩ := isDir_left hA hx
  cases b with
  | true =>
    refine .inl ⟨h1, ?_⟩
    unfold addedOf
    simp only [SM.bind_apply, SM.lift_apply, h2, if_true, SM.pure_apply]
  | false =>
    refine .inr ⟨h1, ?_⟩
    unfold addedOf
    simp only [SM.bind_apply, SM.lift_apply, h2, Bool.false_eq_true, if_false, SM.unwrap]
    cases hh : hashFsItem E fs x s with
    | mk r s' =>
      cases r with
      | ok k => exact .inl ⟨k, s', rfl, rfl⟩
      | err e => exact .inr ⟨by simp, rfl⟩
      | panic => exact absurd (by rw [hh]) (calm_hashFsItem E fs x s)
      | fuel => exact absurd (by rw [hh]) (halts_hashFsItem E fs x s)

theorem only_added (hA : A.Ok) {l : List Path} (hl : ∀ x ∈ l, x ∈ A.map (·.1)) :
    Only Fit (∃ x ∈ l, (x, false) ∈ A ∧ Unhashable E fs x) (mapSM (addedOf E fs (.left A)) l) := by
  refine only_mapSM fun x hx s hs => ?_
  have hh := hash_fit (E := E) (fs := fs) (p := x) hs
  rcases addedOf_left (E := E) (fs := fs) hA (hl x hx) s with ⟨_, e⟩ | ⟨h1, ⟨k, s', h2, e⟩ | ⟨h2, e⟩⟩ <;> rw [e]
  · exact ⟨hs, nofun⟩
  · rw [h2] at hh; exact ⟨hh.1, nofun⟩
  · refine ⟨hh.1, fun _ => ⟨x, hx, h1, Classical.byContradiction fun hn => ?_⟩⟩
    obtain ⟨k, hk⟩ := hh.2 hn
    exact h2 k hk

theorem calm_modifiedOf (hA : A.Ok) (hB : B.Ok) {x : Path} (hx : x ∈ A.map (·.1)) (hx' : x ∈ B.map (·.1)) (base : Path) : Calm (modifiedOf E fs (.left A) base B x) := by
  obtain ⟨a, ha⟩ := (PMap.get_some_iff (hA.key_norm hx)).mpr hx
  obtain ⟨b, hb⟩ := (PMap.get_some_iff (hB.key_norm hx')).mpr hx'
  unfold modifiedOf
  refine calm_bind ?_ fun f => ?_
  · simp only [ha]
    cases a with
    | true => exact calm_pure _
    | false => exact calm_bind (calm_hashFsItem E fs _) fun _ => calm_pure _
  · cases f with
    | none => exact calm_pure _
    | some f => simp only [hb]; exact calm_pure _

theorem calm_mapSM {σ α β : Type} {f : α → SM σ β} {l : List α} (h : ∀ a ∈ l, Calm (f a)) : Calm (mapSM f l) := fun s =>
  (only_mapSM (I := fun _ => True) (C := False) (fun a ha => (h a ha).only) s trivial).2

/-- Some path is in the stored tree and not in the directory. -/
def Missing (A : PMap Bool) (B : PMap (Key × Bool)) : Prop := ∃ x ∈ B.map (·.1), x ∉ A.map (·.1)

/-- Why the comparison of a directory with a stored tree panics: one of the directories contains a dangling link; or all could be listed, and something is in the tree and not in
the directory, or there is a new file and: it cannot be read at its relative path, seen from the current directory, or writes fail, or the cache is malformed. -/
def WorkPanics (E : Env) (fs : Fs) (filter : Filter) (n : Nat) (path : Path) (to : Option Key) (s : Db × Cache) : Prop :=
  BrokenBelow fs filter path ∨ ∃ A B, walkReal fs filter n path = .ok A ∧ toItems s.1 n to = .ok B ∧
    (Missing A B ∨ ∃ x, (x, false) ∈ A ∧ x ∉ B.map (·.1) ∧ (Unhashable E fs x ∨ true ∈ s.1.faults ∨ Malformed s.2))

/-- The three steps after both sides have been listed. -/
theorem work_panic {iter : Nat → List Path → List Path} (hi : IterOk iter) (hA : A.Ok) (hB : B.Ok) (base : Path) (s : Db × Cache) :
    ((do
      let added ← mapSM (addedOf E fs (.left A)) (iter 0 (onlyIn A B))
      let deleted ← mapSM (fun x => SM.lift (deletedOf (.left A) B x)) (iter 1 (onlyIn B A))
      let modified ← mapSM (modifiedOf E fs (.left A) base B) (iter 2 (inBoth A B))
      pure ⟨sortBy Deleted.le deleted, sortBy Added.le added, sortBy Modified.le (modified.filterMap id)⟩ : SM (Db × Cache) DiffResult) s).1 = .panic →
    Missing A B ∨ ∃ x, (x, false) ∈ A ∧ x ∉ B.map (·.1) ∧ (Unhashable E fs x ∨ true ∈ s.1.faults ∨ Malformed s.2) := by
  have h0 : ∀ x ∈ iter 0 (onlyIn A B), x ∈ A.map (·.1) ∧ x ∉ B.map (·.1) := fun x hx => mem_onlyIn.mp ((hi 0 _).subset hx)
  refine bind_panic (fun h => .inr ?_) fun added s1 _ => bind_panic (fun h => .inl ?_) fun deleted s2 _ => bind_panic (fun h => ?_) fun modified s3 _ => nofun
  · by_cases hs : Fit s
    · obtain ⟨x, hx, h1, h2⟩ := (only_added hA (fun x hx => (h0 x hx).1) s hs).2 h
      exact ⟨x, h1, (h0 x hx).2, .inl h2⟩
    · have hbad : true ∈ s.1.faults ∨ Malformed s.2 := by
        unfold Fit at hs
        rcases Classical.em (true ∈ s.1.faults) with h | h
        · exact .inl h
        · exact .inr (Classical.byContradiction fun hm => hs ⟨h, hm⟩)
      have : ∃ x ∈ iter 0 (onlyIn A B), (x, false) ∈ A := Classical.byContradiction fun hno => by
        refine (only_mapSM (I := fun _ => True) (C := False) (fun x hx s' _ => ?_) s trivial).2 h
        rcases addedOf_left (E := E) (fs := fs) hA (h0 x hx).1 s' with ⟨_, e⟩ | ⟨h1, _⟩
        · rw [e]; exact ⟨trivial, nofun⟩
        · exact absurd ⟨x, hx, h1⟩ hno
      obtain ⟨x, hx, h1⟩ := this
      exact ⟨x, h1, (h0 x hx).2, .inr hbad⟩
  · have : iter 1 (onlyIn B A) ≠ [] := fun e => by rw [e] at h; simp [mapSM] at h
    obtain ⟨x, hx⟩ := List.exists_mem_of_ne_nil _ this
    obtain ⟨h1, h2⟩ := mem_onlyIn.mp ((hi 1 _).subset hx)
    exact ⟨x, h1, h2⟩
  · refine absurd h (calm_mapSM (fun x hx => ?_) s2)
    obtain ⟨h1, h2⟩ := mem_inBoth.mp ((hi 2 _).subset hx)
    exact calm_modifiedOf hA hB h1 h2 base

theorem compare_start {iter : Nat → List Path → List Path} {n : Nat} {path dbPath : Path} {glob : Path → Bool} {t : Option Key} {s : Db × Cache}
    (h : (compare E fs iter n (.fileSystem path glob dbPath) t s).1 = .panic) :
    walkReal fs (makeFilter glob dbPath) n path = .panic ∨ ∃ A B, walkReal fs (makeFilter glob dbPath) n path = .ok A ∧ toItems s.1 n t = .ok B := by
  cases hA : walkReal fs (makeFilter glob dbPath) n path with
  | panic => exact .inl rfl
  | ok A =>
    cases hB : toItems s.1 n t with
    | ok B => exact .inr ⟨A, B, rfl, rfl⟩
    | panic =>
      cases t with
      | none => simp [toItems] at hB
      | some t => exact absurd hB (walkItems_calm _ _ _)
    | _ =>
      cases t with
      | none => simp [toItems] at hB
      | some t =>
        unfold compare at h
        simp only [toItems] at hB
        simp only [SM.bind_apply, SM.lift_apply, hA, SM.pure_apply, SM.read_apply, hB] at h
        cases h
  | _ =>
    unfold compare at h
    simp only [SM.bind_apply, SM.lift_apply, hA] at h
    cases h

theorem compare_panics {iter : Nat → List Path → List Path} (hi : IterOk iter) (hw : fs.Wf) {dbPath : Path} (hdb : ∃ e, fs.metadata dbPath = .ok e) {n : Nat} {path : Path} {glob : Path → Bool}
    {t : Option Key} {s : Db × Cache} (h : (compare E fs iter n (.fileSystem path glob dbPath) t s).1 = .panic) : WorkPanics E fs (makeFilter glob dbPath) n path t s := by
  rcases compare_start h with hp | ⟨A, B, hA, hB⟩
  · exact .inl (walkReal_panic hw (fun p m hd hm hf => entry_filter hw hdb hd hm hf) n hp)
  · refine .inr ⟨A, B, hA, hB, ?_⟩
    rw [show s = (s.1, s.2) from rfl, compare_fs hA hB] at h
    exact work_panic hi (walkReal_okMap hA) (toItems_okMap hB) path s h

theorem mapSM_ok_or_panic {σ α β : Type} {f : α → SM σ β} {l : List α} (h : ∀ a ∈ l, ∀ s, (∃ b, (f a s).1 = .ok b) ∨ (f a s).1 = .panic) (s : σ) :
    (∃ r, (mapSM f l s).1 = .ok r) ∨ (mapSM f l s).1 = .panic := by
  induction l generalizing s with
  | nil => exact .inl ⟨_, rfl⟩
  | cons a l ih =>
    unfold mapSM
    rw [SM.bind_apply]
    have ha := h a (by simp) s
    cases hx : f a s with
    | mk r s' =>
      rw [hx] at ha
      rcases ha with ⟨b, rfl⟩ | rfl
      · simp only [SM.bind_apply]
        have hi := ih (fun a ha => h a (by simp [ha])) s'
        cases hy : mapSM f l s' with
        | mk r' s'' =>
          rw [hy] at hi
          rcases hi with ⟨b', rfl⟩ | rfl
          · exact .inl ⟨_, rfl⟩
          · exact .inr rfl
      · exact .inr rfl

theorem added_ok_or_panic (hA : A.Ok) {l : List Path} (hl : ∀ x ∈ l, x ∈ A.map (·.1)) (s : Db × Cache) :
    (∃ r, (mapSM (addedOf E fs (.left A)) l s).1 = .ok r) ∨ (mapSM (addedOf E fs (.left A)) l s).1 = .panic := by
  refine mapSM_ok_or_panic (fun x hx s => ?_) s
  rcases addedOf_left (E := E) (fs := fs) hA (hl x hx) s with ⟨_, e⟩ | ⟨_, ⟨_, _, _, e⟩ | ⟨_, e⟩⟩ <;> rw [e]
  · exact .inl ⟨_, rfl⟩
  · exact .inl ⟨_, rfl⟩
  · exact .inr rfl

/-- If something is missing, or a new file is no regular file seen from the current directory, then the comparison panics: whatever the store, the cache and the failures of writes. -/
theorem compare_panics_of {iter : Nat → List Path → List Path} (hi : IterOk iter) {dbPath : Path} {n : Nat} {path : Path} {glob : Path → Bool} {t : Option Key} {s : Db × Cache}
    (hA : walkReal fs (makeFilter glob dbPath) n path = .ok A) (hB : toItems s.1 n t = .ok B)
    (h : Missing A B ∨ ∃ x, (x, false) ∈ A ∧ x ∉ B.map (·.1) ∧ ∀ c md, fs.metadata x ≠ .ok (.file c md)) :
    (compare E fs iter n (.fileSystem path glob dbPath) t s).1 = .panic := by
  have okA := walkReal_okMap hA
  have okB := toItems_okMap hB
  rw [show s = (s.1, s.2) from rfl, compare_fs hA hB, SM.bind_apply]
  have h0 : ∀ x ∈ iter 0 (onlyIn A B), x ∈ A.map (·.1) := fun x hx => (mem_onlyIn.mp ((hi 0 _).subset hx)).1
  have ha := added_ok_or_panic (E := E) (fs := fs) okA h0 (s.1, s.2)
  cases hx : mapSM (addedOf E fs (.left A)) (iter 0 (onlyIn A B)) (s.1, s.2) with
  | mk r s' =>
    rw [hx] at ha
    rcases ha with ⟨r', rfl⟩ | rfl
    · rcases h with ⟨x, h1, h2⟩ | ⟨x, h1, h2, h3⟩
      · simp only [SM.bind_apply]
        have : (mapSM (fun x => SM.lift (deletedOf (.left A) B x)) (iter 1 (onlyIn B A)) s').1 = .panic := by
          have hall : ∀ z ∈ iter 1 (onlyIn B A), deletedOf (.left A) B z = .panic := fun z hz => by
            obtain ⟨h3, h4⟩ := mem_onlyIn.mp ((hi 1 _).subset hz)
            exact deletedOf_panic_fs okB h3 h4
          have hmem : x ∈ iter 1 (onlyIn B A) := (hi 1 _).symm.subset (mem_onlyIn.mpr ⟨h1, h2⟩)
          cases hl : iter 1 (onlyIn B A) with
          | nil => rw [hl] at hmem; simp at hmem
          | cons z l =>
            unfold mapSM
            rw [SM.bind_apply]
            rw [hall z (by rw [hl]; simp), SM.lift_apply]
        cases hy : mapSM (fun x => SM.lift (deletedOf (.left A) B x)) (iter 1 (onlyIn B A)) s' with
        | mk r s'' => rw [hy] at this; simp only at this; subst this; rfl
      · exfalso
        obtain ⟨s1, b, s2, h4⟩ := mapSM_ok_each hx x ((hi 0 _).symm.subset (mem_onlyIn.mpr ⟨mem_keys.mpr ⟨_, h1⟩, h2⟩))
        rcases addedOf_left (E := E) (fs := fs) okA (mem_keys.mpr ⟨_, h1⟩) s1 with ⟨h5, _⟩ | ⟨_, ⟨k, s', h5, _⟩ | ⟨_, e⟩⟩
        · have e1 := (PMap.get_iff okA (okA.key_norm (mem_keys.mpr ⟨_, h1⟩))).mpr h1
          have e2 := (PMap.get_iff okA (okA.key_norm (mem_keys.mpr ⟨_, h1⟩))).mpr h5
          rw [e1] at e2; simp at e2
        · obtain ⟨c, md, hm⟩ := hashFsItem_ok h5; exact h3 c md hm
        · rw [e] at h4; simp at h4
    · rfl

/-- With writes that do not fail, a cache of keys, and files that can be read, these are the only reasons. -/
theorem compare_panics_iff {iter : Nat → List Path → List Path} (hi : IterOk iter) {dbPath : Path} {n : Nat} {path : Path} {glob : Path → Bool} {t : Option Key} {s : Db × Cache}
    (hA : walkReal fs (makeFilter glob dbPath) n path = .ok A) (hB : toItems s.1 n t = .ok B) (hs : Fit s) (hr : ∀ p c md, fs.metadata p = .ok (.file c md) → ∃ k, fileKey E p c = .ok k) :
    (compare E fs iter n (.fileSystem path glob dbPath) t s).1 = .panic ↔
      Missing A B ∨ ∃ x, (x, false) ∈ A ∧ x ∉ B.map (·.1) ∧ ∀ c md, fs.metadata x ≠ .ok (.file c md) := by
  refine ⟨fun h => ?_, compare_panics_of hi hA hB⟩
  rw [show s = (s.1, s.2) from rfl, compare_fs hA hB] at h
  rcases work_panic hi (walkReal_okMap hA) (toItems_okMap hB) path s h with h | ⟨x, h1, h2, h3⟩
  · exact .inl h
  · refine .inr ⟨x, h1, h2, fun c md hm => ?_⟩
    rcases h3 with h3 | h3 | h3
    · obtain ⟨k, hk⟩ := hr x c md hm; exact h3 ⟨c, md, k, hm, hk⟩
    · exact hs.1 h3
    · exact hs.2 h3

end

/-! ### What is compared, when it returns -/

theorem LeadsTo.grow {H : Bytes → Key} {a b : Db} (hi : Inv H a) (g : Grow H a b) {k : Key} {p : ObjType → Prop} (h : LeadsTo a k p) : LeadsTo b k p := by
  obtain ⟨o, ho, hp⟩ := h
  refine ⟨o, ?_, hp⟩
  simp only [getObj] at ho ⊢
  obtain ⟨v, hv, hd⟩ := Res.bind_eq_ok ho
  have hm := assoc_some_mem (get_eq_ok.mp hv)
  rw [get_eq_ok.mpr (assoc_of_mem_nodup (g.inv hi).nodup (g.data.subset hm)), Res.ok_bind]
  exact hd

/-- A key was in the cache at the beginning, or it leads to a stored file. -/
def Known (c0 : Cache) (db : Db) (k : Key) : Prop := (∃ ck, c0.get ck = .ok (some k)) ∨ LeadsTo db k (· = .fsItemFile)

/-- `s` was reached by hashing files from a state with the cache `c0`. -/
structure Hashing (H : Bytes → Key) (c0 : Cache) (s : Db × Cache) : Prop where
  inv : Inv H s.1
  known : ∀ db', Grow H s.1 db' → NoColl H db' → ∀ ck k, s.2.get ck = .ok (some k) → Known c0 db' k

theorem hashing_step {E : Env} {fs : Fs} {p : Path} {c0 : Cache} {s s' : Db × Cache} {r : Res Key} (h : Hashing E.H c0 s) (hh : hashFsItem E fs p s = (r, s')) :
    Grow E.H s.1 s'.1 ∧ Hashing E.H c0 s' ∧ ∀ k, r = .ok k → ∀ db', Grow E.H s'.1 db' → NoColl E.H db' → Known c0 db' k := by
  have same : ∀ {r'}, hashFsItem E fs p s = (r', s) → (∀ k, r' ≠ .ok k) → Grow E.H s.1 s'.1 ∧ Hashing E.H c0 s' ∧ ∀ k, r = .ok k → ∀ db', Grow E.H s'.1 db' → NoColl E.H db' → Known c0 db' k := by
    intro r' e hno
    rw [hh] at e
    simp only [Prod.mk.injEq] at e
    obtain ⟨rfl, rfl⟩ := e
    exact ⟨Grow.refl _ _, h, fun k hk => absurd hk (hno k)⟩
  cases hm : fs.metadata p with
  | ok e =>
    by_cases he : ∃ c md, e = .file c md
    · obtain ⟨c, md, rfl⟩ := he
      have hf := hashFsItem_file (E := E) (s := s) hm
      cases hg : s.2.get (tripleOf c md) with
      | ok o =>
        rw [hg] at hf
        cases o with
        | some k0 =>
          rw [hh] at hf
          simp only [Prod.mk.injEq] at hf
          obtain ⟨rfl, rfl⟩ := hf
          refine ⟨Grow.refl _ _, h, fun k hk db' hgr hc => ?_⟩
          simp at hk
          subst hk
          exact h.known db' hgr hc _ _ hg
        | none =>
          simp only at hf
          have hgrow := (isPuts_putFile E p c).grow s.1
          cases hp : putFile E p c s.1 with
          | mk rp db1 =>
            rw [hp] at hf hgrow
            have hnew : ∀ k', rp = .ok k' → ∀ db', Grow E.H db1 db' → NoColl E.H db' → Known c0 db' k' := by
              rintro k' rfl db' hgr hc
              obtain ⟨_, _, _, _, _, _, _, o, ho, ht⟩ := putFile_ok h.inv hp (hc.mono hgr.hashed)
              exact .inr (LeadsTo.grow (hgrow.inv h.inv) hgr ⟨o, ho, by simpa using ht⟩)
            cases rp with
            | ok k' =>
              simp only at hf
              rw [hh] at hf
              simp only [Prod.mk.injEq] at hf
              obtain ⟨rfl, rfl⟩ := hf
              refine ⟨hgrow, ⟨hgrow.inv h.inv, ?_⟩, fun k hk => ?_⟩
              · intro db' hgr hc ck k hk
                have hq := C56_put s.2 (Cache.put (tripleOf c md) k' s.2).2 (tripleOf c md) k' (Cache.put (tripleOf c md) k' s.2).1 rfl ck
                dsimp only at hk
                rw [hq] at hk
                split at hk
                · simp at hk; subst hk; exact hnew _ rfl db' hgr hc
                · exact h.known db' (hgrow.trans hgr) hc _ _ hk
              · simp at hk; subst hk; exact hnew _ rfl
            | _ =>
              simp only at hf
              rw [hh] at hf
              simp only [Prod.mk.injEq] at hf
              obtain ⟨rfl, rfl⟩ := hf
              exact ⟨hgrow, ⟨hgrow.inv h.inv, fun db' hgr hc => h.known db' (hgrow.trans hgr) hc⟩, fun k hk => by simp at hk⟩
      | _ => rw [hg] at hf; exact same hf (by simp)
    · exact same (C57_non_file E fs p s e hm (fun c md hc => he ⟨c, md, hc⟩)) (by simp)
  | _ =>
    refine same (r' := fs.metadata p >>= fun _ => .err .nonFile) ?_ ?_
    · unfold hashFsItem
      simp only [SM.bind_apply, SM.lift_apply, hm]
      rfl
    · rw [hm]; intro k; exact nofun

/-- What is known of the results and the states, if every step keeps an invariant and moves forward. -/
theorem mapSM_steps {σ α β : Type} {f : α → SM σ β} {I : σ → Prop} {G : σ → σ → Prop} (hG : ∀ s, G s s) (hGt : ∀ a b c, G a b → G b c → G a c) {l : List α}
    (hf : ∀ x ∈ l, ∀ s, I s → I (f x s).2 ∧ G s (f x s).2) {s s' : σ} {r : List β} (hs : I s) (h : mapSM f l s = (.ok r, s')) :
    I s' ∧ G s s' ∧ ∀ b ∈ r, ∃ x ∈ l, ∃ s1 s2, I s1 ∧ f x s1 = (.ok b, s2) ∧ G s2 s' := by
  induction l generalizing s r with
  | nil => simp [mapSM] at h; obtain ⟨rfl, rfl⟩ := h; exact ⟨hs, hG _, by simp⟩
  | cons a l ih =>
    unfold mapSM at h
    obtain ⟨b, s1, h1, h2⟩ := bind_ok h
    obtain ⟨bs, s2, h3, h4⟩ := bind_ok h2
    simp at h4
    obtain ⟨rfl, rfl⟩ := h4
    have ha := hf a (by simp) s hs
    rw [h1] at ha
    obtain ⟨g1, g2, g3⟩ := ih (fun x hx => hf x (by simp [hx])) ha.1 h3
    refine ⟨g1, hGt _ _ _ ha.2 g2, fun b' hb' => ?_⟩
    rcases List.mem_cons.mp hb' with rfl | hb'
    · exact ⟨a, by simp, s, s1, hs, h1, g2⟩
    · obtain ⟨x, hx, s3, s4, g⟩ := g3 b' hb'
      exact ⟨x, by simp [hx], s3, s4, g⟩

section
variable {E : Env} {fs : Fs} {A : PMap Bool} {B : PMap (Key × Bool)}

theorem modifiedOf_left (hA : A.Ok) (hB : B.Ok) {x : Path} (hx : x ∈ A.map (·.1)) (hx' : x ∈ B.map (·.1)) (base : Path) (s : Db × Cache) :
    ((x, true) ∈ A ∧ modifiedOf E fs (.left A) base B x s = (.ok none, s)) ∨
    ((x, false) ∈ A ∧ ∃ b, (x, b) ∈ B ∧ ((∃ k s', hashFsItem E fs (Path.join base x) s = (.ok k, s') ∧ modifiedOf E fs (.left A) base B x s = (.ok (if k = b.1 then none else some ⟨x, b.1, k⟩), s')) ∨
      (∀ m s', modifiedOf E fs (.left A) base B x s ≠ (.ok m, s')) ∧ (modifiedOf E fs (.left A) base B x s).2 = (hashFsItem E fs (Path.join base x) s).2)) := by
  obtain ⟨a, ha⟩ := (PMap.get_some_iff (hA.key_norm hx)).mpr hx
  obtain ⟨b, hb⟩ := (PMap.get_some_iff (hB.key_norm hx')).mpr hx'
  have ha' := (PMap.get_iff hA (hA.key_norm hx)).mp ha
  have hb' := (PMap.get_iff hB (hB.key_norm hx')).mp hb
  unfold modifiedOf
  cases a with
  | true => exact .inl ⟨ha', by simp only [ha, SM.bind_apply, SM.pure_apply]⟩
  | false =>
    refine .inr ⟨ha', b, hb', ?_⟩
    simp only [ha, SM.bind_apply]
    cases hh : hashFsItem E fs (Path.join base x) s with
    | mk r s' =>
      cases r with
      | ok k => exact .inl ⟨k, s', rfl, by simp only [SM.pure_apply, hb]⟩
      | _ => exact .inr ⟨by simp, rfl⟩

/-- The keys in a comparison that returned: those of files of the directory were in the cache before or lead to files stored now, the others are those of the stored tree. -/
theorem compare_keys {iter : Nat → List Path → List Path} (hi : IterOk iter) {dbPath : Path} {n : Nat} {path : Path} {glob : Path → Bool} {t : Option Key} {s s' : Db × Cache} {r : DiffResult}
    (hinv : Inv E.H s.1) (hA : walkReal fs (makeFilter glob dbPath) n path = .ok A) (hB : toItems s.1 n t = .ok B)
    (h : compare E fs iter n (.fileSystem path glob dbPath) t s = (.ok r, s')) (hc : NoColl E.H s'.1) :
    Grow E.H s.1 s'.1 ∧ r.deleted = [] ∧ (∀ e ∈ r.added, ∀ k, e.newKey = some k → Known s.2 s'.1 k) ∧
      ∀ e ∈ r.modified, Known s.2 s'.1 e.newKey ∧ ∃ b, (e.path, false) ∈ A ∧ (e.path, e.originalKey, b) ∈ B := by
  have okA := walkReal_okMap hA
  have okB := toItems_okMap hB
  have hmiss : ¬ Missing A B := fun hm => by
    have := compare_panics_of (E := E) (fs := fs) hi hA hB (.inl hm)
    rw [h] at this
    simp at this
  have hnil : onlyIn B A = [] := by
    refine List.eq_nil_iff_forall_not_mem.mpr fun x hx => hmiss ?_
    obtain ⟨h1, h2⟩ := mem_onlyIn.mp hx
    exact ⟨x, h1, h2⟩
  rw [show s = (s.1, s.2) from rfl, compare_fs hA hB] at h
  obtain ⟨added, s1, h1, h⟩ := bind_ok h
  obtain ⟨deleted, s2, h2, h⟩ := bind_ok h
  obtain ⟨modified, s3, h3, h⟩ := bind_ok h
  simp at h
  obtain ⟨rfl, rfl⟩ := h
  have hd : iter 1 (onlyIn B A) = [] := by rw [hnil]; exact (hi 1 []).eq_nil
  rw [hd] at h2
  simp [mapSM] at h2
  obtain ⟨rfl, rfl⟩ := h2
  have start : Hashing E.H s.2 (s.1, s.2) := ⟨hinv, fun db' _ _ ck k hk => .inl ⟨ck, hk⟩⟩
  let G : Db × Cache → Db × Cache → Prop := fun a b => Grow E.H a.1 b.1
  have hG : ∀ a, G a a := fun a => Grow.refl _ _
  have hGt : ∀ a b c, G a b → G b c → G a c := fun _ _ _ => Grow.trans
  have hstep : ∀ p s, Hashing E.H (c0 := _) s → Hashing E.H _ (hashFsItem E fs p s).2 ∧ G s (hashFsItem E fs p s).2 := fun p s' hs' => by
    obtain ⟨g1, g2, _⟩ := hashing_step (c0 := s.2) (fs := fs) (p := p) (s := s') hs' rfl
    exact ⟨g2, g1⟩
  obtain ⟨i1, g1, k1⟩ := mapSM_steps (I := Hashing E.H s.2) (G := G) hG hGt (fun x hx a ha => by
    have hx := (mem_onlyIn.mp ((hi 0 _).subset hx)).1
    rcases addedOf_left (E := E) (fs := fs) okA hx a with ⟨_, e⟩ | ⟨_, ⟨k, s', h5, e⟩ | ⟨_, e⟩⟩ <;> rw [e]
    · exact ⟨ha, hG _⟩
    · have := hstep x a ha; rw [h5] at this; exact this
    · exact hstep x a ha) start h1
  obtain ⟨i2, g2, k2⟩ := mapSM_steps (I := Hashing E.H s.2) (G := G) hG hGt (fun x hx a ha => by
    obtain ⟨hx, hx'⟩ := mem_inBoth.mp ((hi 2 _).subset hx)
    rcases modifiedOf_left (E := E) (fs := fs) okA okB hx hx' path a with ⟨_, e⟩ | ⟨_, b, _, ⟨k, s', h5, e⟩ | ⟨_, e⟩⟩ <;> rw [e]
    · exact ⟨ha, hG _⟩
    · have := hstep (Path.join path x) a ha; rw [h5] at this; exact this
    · exact hstep (Path.join path x) a ha) i1 h3
  refine ⟨Grow.trans g1 g2, rfl, fun e he k hk => ?_, fun e he => ?_⟩
  · obtain ⟨x, hx, a, b, ha, hb, hg⟩ := k1 e ((sortBy_perm _ _).subset he)
    have hx := (mem_onlyIn.mp ((hi 0 _).subset hx)).1
    rcases addedOf_left (E := E) (fs := fs) okA hx a with ⟨_, e'⟩ | ⟨_, ⟨k', s', h5, e'⟩ | ⟨_, e'⟩⟩ <;> rw [e'] at hb <;> simp at hb
    · rw [← hb.1] at hk; simp at hk
    · obtain ⟨rfl, rfl⟩ := hb
      simp at hk
      subst hk
      exact (hashing_step ha h5).2.2 _ rfl _ (Grow.trans hg g2) hc
  · obtain ⟨x, hx, a, b, ha, hb, hg⟩ := k2 (some e) (by have := (sortBy_perm _ _).subset he; simpa using this)
    obtain ⟨hx, hx'⟩ := mem_inBoth.mp ((hi 2 _).subset hx)
    rcases modifiedOf_left (E := E) (fs := fs) okA okB hx hx' path a with ⟨_, e'⟩ | ⟨hxa, v, hxb, ⟨k', s', h5, e'⟩ | ⟨e', _⟩⟩
    · rw [e'] at hb; simp at hb
    · rw [e'] at hb
      simp at hb
      obtain ⟨⟨_, rfl⟩, rfl⟩ := hb
      exact ⟨(hashing_step ha h5).2.2 _ rfl _ hg hc, v.2, hxa, hxb⟩
    · exact absurd hb (e' _ _)

end

/-! ### `compare --stat` -/

/-- A file of the directory is a directory in the stored tree. -/
def DirReplaced (A : PMap Bool) (B : PMap (Key × Bool)) : Prop := ∃ x k, (x, false) ∈ A ∧ (x, k, true) ∈ B

/-- The cache holds a key under which this database has no file. -/
def ForeignCache (db : Db) (ca : Cache) : Prop := ∃ ck k, ca.get ck = .ok (some k) ∧ ¬ LeadsTo db k (fun t => IsData t ∨ t = .fsItemFile)

theorem known_reads {H : Bytes → Key} {a b : Db} {ca : Cache} (hi : Inv H a) (hg : Grow H a b) (ht : Typed b) {n : Nat} (hn : b.data.length < n) {k : Key} (h : Known ca b k) :
    (∃ c, readAll b n k = .ok c) ∨ ForeignCache a ca := by
  rcases h with ⟨ck, h⟩ | h
  · by_cases hl : LeadsTo a k (fun t => IsData t ∨ t = .fsItemFile)
    · exact .inl (readAll_typed ht hn (LeadsTo.grow hi hg hl))
    · exact .inr ⟨ck, k, h, hl⟩
  · obtain ⟨o, h1, h2⟩ := h
    exact .inl (readAll_typed ht hn ⟨o, h1, .inr h2⟩)

theorem printedStat_panic {H : Bytes → Key} (lib : DiffLib) {a b : Db} {ca : Cache} {A : PMap Bool} {B : PMap (Key × Bool)} (hi : Inv H a) (hg : Grow H a b) (ht : Typed b) {n : Nat}
    (hn : b.data.length < n) {r : DiffResult} (hB : ∀ e ∈ B, EntryOk a e.2) (h1 : r.deleted = []) (h2 : ∀ e ∈ r.added, ∀ k, e.newKey = some k → Known ca b k)
    (h3 : ∀ e ∈ r.modified, Known ca b e.newKey ∧ ∃ b, (e.path, false) ∈ A ∧ (e.path, e.originalKey, b) ∈ B) (h : printedStat lib b n r = .panic) : DirReplaced A B ∨ ForeignCache a ca := by
  revert h
  unfold printedStat lineStat
  rw [h1]
  refine res_bind_panic (res_bind_panic ?_ fun x _ => res_bind_panic ?_ fun y _ => res_bind_panic ?_ fun z _ => nofun) fun _ _ => nofun
  · unfold countStat
    refine res_bind_panic (mapRes_only fun e he => ?_) fun _ _ => nofun
    have he := (List.mem_filter.mp he).1
    cases hk : e.newKey with
    | none => exact nofun
    | some k =>
      unfold lineCt
      rcases known_reads hi hg ht hn (h2 e he k hk) with ⟨c, hc⟩ | hf
      · dsimp only; rw [hc]; exact nofun
      · exact fun _ => .inr hf
  · exact nofun
  · refine mapRes_only fun e he => ?_
    obtain ⟨g1, d, g2, g3⟩ := h3 e he
    rcases known_reads hi hg ht hn g1 with ⟨c, hc⟩ | hf
    · cases d with
      | true => exact fun _ => .inl ⟨_, _, g2, g3⟩
      | false =>
        obtain ⟨c', hc'⟩ := readAll_typed ht hn (LeadsTo.grow hi hg (hB _ g3))
        unfold modifiedStat
        rw [hc, hc']
        exact nofun
    · exact fun _ => .inr hf

/-! ### The commands -/

/-- The database a command leaves behind is as good as those of the world, also when the command fails or panics. -/
theorem typed_after {H : Bytes → Key} {w : World} (hw : w.Sound H) (q : List Bytes) (X : Ctx) (hX : X.E.H = H) (R : Repo) (cmd : Command) (hc : NoColl H (cmd.inRepo X R (startOf w q)).2.db) :
    Typed (cmd.inRepo X R (startOf w q)).2.db := by
  subst hX
  have hcl : Closed (cmd.inRepo X R (startOf w q)).2.db := keeps_end (keeps_command X R cmd) (startOf w q) (World.Reachable.closed hw.reachable q)
  have hi : Inv X.E.H (cmd.inRepo X R (startOf w q)).2.db := by
    obtain ⟨cs, g1, g2, _⟩ := traced_command X R cmd (startOf w q) trivial trivial
    rw [g2]
    exact calls_inv (fun c hc => ⟨cmd, .inl (g1 c hc)⟩) (World.Reachable.inv hw.reachable q)
  have hwh : Whole X.E.H (cmd.inRepo X R (startOf w q)).2.db :=
    kept_command X R cmd (startOf w q) (fun p c => steps_weaken (gen_putFile whole_rules p c) (fun _ h => h) (fun _ h => h) (fun _ _ _ => trivial))
      (fun f n p => steps_weaken (gen_putFsItem whole_rules (namesOk_sane hw.sane) f n p) (fun _ h => h) (fun _ h => h) (fun _ _ _ => trivial)) whole_commitTree whole_reflogPush whole_putHead
      (hw.whole q)
  exact ⟨hcl, types_of hi hcl hwh hc⟩

/-- The newest entry of HEAD is not a commit. -/
def BadHead (db : Db) : Prop := ∃ k, getHeadKey db = .ok k ∧ ¬ LeadsTo db k (· = .commit)

theorem compareWork_panic {X : Ctx} (hi : IterOk X.iter) {R : Repo} {s : Sys} (hw : s.fs.Wf) (hdb : ∃ e, s.fs.metadata R.folder = .ok e) {path : Path} {to : Option Key}
    (h : (compareWork X R path to s).1 = .panic) : WorkPanics X.E s.fs (makeFilter X.glob R.folder) X.depth path to (s.db, s.cache) :=
  compare_panics hi hw hdb h

theorem fromKey_panic {db : Db} (hc : Closed db) {k : Key} (h : Commit.fromKey db k = .panic) : ¬ LeadsTo db k (· = .commit) := by
  rcases fromKey_cases hc k with ⟨c, h1, _⟩ | ⟨_, h2⟩
  · rw [h1] at h; simp at h
  · exact h2

theorem headKey_of {db : Db} {h : Bytes} {k : Key} (h1 : headName db = .ok h) (h2 : (reflogGet db h none).toOption = some k) : getHeadKey db = .ok k := by
  unfold getHeadKey
  rw [h1, Res.ok_bind]
  cases hr : reflogGet db h none with
  | ok k' => rw [hr] at h2; simp [Res.toOption] at h2; rw [h2]
  | _ => rw [hr] at h2; simp [Res.toOption] at h2

/-- **C78** for `compare`: it panics only if the key argument is the text of a whole key that is not stored; or there is none and the newest entry of HEAD is not a commit; or the
comparison panics (`WorkPanics`); or with `--stat`: a file of the directory is a directory in the tree, or the cache holds a key under which this repository has no file. -/
theorem C78_compare (X : Ctx) (hi : IterOk X.iter) (w : World) (hw : w.fs.Wf) (hs : w.Sound X.E.H) (R : Repo) (q : List Bytes) (ho : Opens X w R q) (path : Option Path) (key : Option Keyish) (stat : Bool)
    (hc : NoColl X.E.H ((Command.compare path key stat).inRepo X R (startOf w q)).2.db) (hn : ((Command.compare path key stat).inRepo X R (startOf w q)).2.db.data.length < X.depth)
    (h : (mainRun X (.compare path key stat) w).1 = .panicked) :
    (∃ a, key = some a ∧ AbsentKey (w.dbs q) a) ∨ (key = none ∧ BadHead (w.dbs q)) ∨ ∃ t, compareKey (w.dbs q) key = .ok t ∧
      (WorkPanics X.E w.fs (makeFilter X.glob R.folder) X.depth (path.getD R.root) (some t) (w.dbs q, w.cache) ∨
        (stat = true ∧ (ForeignCache (w.dbs q) w.cache ∨
          ∃ A B, walkReal w.fs (makeFilter X.glob R.folder) X.depth (path.getD R.root) = .ok A ∧ walkItems (w.dbs q) X.depth t = .ok B ∧ DirReplaced A B))) := by
  have hcl := World.Reachable.closed hs.reachable q
  have hinv := World.Reachable.inv hs.reachable q
  have ht := typed_after hs q X rfl R _ hc
  rw [panic_open (by simp) ho] at h
  cases hk : compareKey (w.dbs q) key with
  | ok t =>
    refine .inr (.inr ⟨t, rfl, ?_⟩)
    rw [cmdCompare_eq X R path key stat (startOf w q) hk] at h ht hn hc
    unfold compareTail at h ht hn hc
    rw [SM.bind_apply] at h ht hn hc
    cases hr : compareWork X R (path.getD R.root) (some t) (startOf w q) with
    | mk r s' =>
      rw [hr] at h ht hn hc
      cases r with
      | panic => exact .inl (compareWork_panic (s := startOf w q) hi hw (opens_folder ho) (by rw [hr]))
      | err e => cases h
      | fuel => cases h
      | ok r =>
        simp only at h ht hn hc
        cases stat with
        | false => simp only [Bool.false_eq_true, if_false] at h; exact absurd h (calm_emit _ _)
        | true =>
          refine .inr ⟨rfl, ?_⟩
          simp only [if_true] at h ht hn hc
          have hend : ((readDb (fun db => printedStat X.lib db X.depth r) >>= fun l => emit (.stats l) : Snap.C Unit) s').2.db = s'.db :=
            kept_readDb (P := fun z => z.db = s'.db) rfl fun _ _ => rfl
          rw [hend] at ht hn hc
          have hp : printedStat X.lib s'.db X.depth r = .panic := by
            revert h
            rw [readDb_bind]
            cases hp : printedStat X.lib s'.db X.depth r with
            | panic => exact fun _ => rfl
            | ok l => exact nofun
            | err e => exact nofun
            | fuel => exact nofun
          rw [compareWork_eq] at hr
          simp only [Prod.mk.injEq] at hr
          obtain ⟨hr1, rfl⟩ := hr
          cases hcp : compare X.E w.fs X.iter X.depth (.fileSystem (path.getD R.root) X.glob R.folder) (some t) (w.dbs q, w.cache) with
          | mk r' s1 =>
            have hcp' : compare X.E (startOf w q).fs X.iter X.depth (.fileSystem (path.getD R.root) X.glob R.folder) (some t) ((startOf w q).db, (startOf w q).cache) = (r', s1) := hcp
            rw [hcp'] at hr1 ht hn hc hp
            simp only at hr1
            subst hr1
            obtain ⟨A, B, hA, hB⟩ : ∃ A B, walkReal w.fs (makeFilter X.glob R.folder) X.depth (path.getD R.root) = .ok A ∧ toItems (w.dbs q) X.depth (some t) = .ok B := by
              unfold compare at hcp
              simp only [SM.bind_apply, SM.lift_apply] at hcp
              cases hA : walkReal w.fs (makeFilter X.glob R.folder) X.depth (path.getD R.root) with
              | ok A =>
                rw [hA] at hcp
                simp only [SM.pure_apply, SM.read_apply] at hcp
                cases hB : walkItems (w.dbs q) X.depth t with
                | ok B => exact ⟨A, B, rfl, hB⟩
                | _ => rw [hB] at hcp; simp at hcp
              | _ => rw [hA] at hcp; simp at hcp
            obtain ⟨g1, g2, g3, g4⟩ := compare_keys (s := (w.dbs q, w.cache)) hi hinv hA hB hcp hc
            have ht0 := typed_of hs q (hc.mono g1.hashed)
            rcases printedStat_panic X.lib hinv g1 ht hn (toItems_typed ht0 hB) g2 g3 g4 hp with h | h
            · exact .inr ⟨A, B, hA, hB, h⟩
            · exact .inl h
  | panic =>
    cases key with
    | some a => exact .inl ⟨a, rfl, (canonicalize_panic _ _).mp hk⟩
    | none =>
      refine .inr (.inl ⟨rfl, ?_⟩)
      revert hk
      refine res_bind_panic (fun h => (getHeadKey_calm _ h).elim) fun k hk => res_bind_panic (fun h => ⟨k, hk, fromKey_panic hcl h⟩) fun _ _ => nofun
  | _ =>
    refine absurd h ?_
    show (cmdCompare X R path key stat (startOf w q)).1 ≠ _
    have : cmdCompare X R path key stat (startOf w q) = _ := readDb_bind _ _ _
    rw [this]
    cases key with
    | some a => have hk' : canonicalize (startOf w q).db a = _ := hk; dsimp only; rw [hk']; exact nofun
    | none => have hk' : (getHeadKey (startOf w q).db >>= fun c => Commit.fromKey (startOf w q).db c >>= fun c => pure c.tree) = _ := hk; dsimp only; rw [hk']; exact nofun

/-- **C78** for `status`: it panics only if the newest entry of HEAD is not a commit, or the comparison with that commit's tree panics. -/
theorem C78_status (X : Ctx) (hi : IterOk X.iter) (w : World) (hw : w.fs.Wf) (hs : w.Reachable X.E.H) (R : Repo) (q : List Bytes) (ho : Opens X w R q) (h : (mainRun X .status w).1 = .panicked) :
    BadHead (w.dbs q) ∨ ∃ k c, getHeadKey (w.dbs q) = .ok k ∧ Commit.fromKey (w.dbs q) k = .ok c ∧
      WorkPanics X.E w.fs (makeFilter X.glob R.folder) X.depth R.root (some c.tree) (w.dbs q, w.cache) := by
  have hcl := World.Reachable.closed hs q
  rw [panic_open (by simp) ho] at h
  revert h
  refine readDb_bind_panic (fun h => (headName_calm _ h).elim) fun head hh => ?_
  cases hk : (reflogGet (w.dbs q) head none).toOption with
  | none =>
    intro h
    refine absurd h ?_
    rw [SM.bind_apply, SM.read_apply]
    simp only [startOf, hk]
    exact calm_emit _ _
  | some k =>
    have hgk := headKey_of hh hk
    intro h
    rw [SM.bind_apply, SM.read_apply] at h
    simp only [startOf, hk] at h
    revert h
    refine bind_panic (fun h => (calm_emit _ _ h).elim) fun _ s1 he => readDb_bind_panic (fun h => ?_) fun c hc => bind_panic (fun h => ?_) fun _ _ _ h => (calm_emit _ _ h).elim
    · have : s1.db = w.dbs q := by simp [emit, SM.modify_apply] at he; rw [← he]
      rw [this] at h
      exact .inl ⟨k, hgk, fromKey_panic hcl h⟩
    · simp [emit, SM.modify_apply] at he
      subst he
      exact .inr ⟨k, c, hgk, hc, compareWork_panic hi hw (opens_folder ho) h⟩

/-- **C78** for `checkout-head`: the same; without a commit in HEAD the directory is compared with nothing. -/
theorem C78_checkout_head (X : Ctx) (hi : IterOk X.iter) (w : World) (hw : w.fs.Wf) (hs : w.Reachable X.E.H) (R : Repo) (q : List Bytes) (ho : Opens X w R q) (refname : Bytes)
    (h : (mainRun X (.checkoutHead refname) w).1 = .panicked) :
    BadHead (w.dbs q) ∨ ∃ t, ((∃ k c, getHeadKey (w.dbs q) = .ok k ∧ Commit.fromKey (w.dbs q) k = .ok c ∧ t = some c.tree) ∨ ((∀ k, getHeadKey (w.dbs q) ≠ .ok k) ∧ t = none)) ∧
      WorkPanics X.E w.fs (makeFilter X.glob R.folder) X.depth R.root t (w.dbs q, w.cache) := by
  have hcl := World.Reachable.closed hs q
  rw [panic_open (by simp) ho] at h
  revert h
  refine readDb_bind_panic (fun h => (headName_calm _ h).elim) fun head hh => ?_
  have tail : ∀ t : Option Key, ((do
      let r ← compareWork X R R.root t
      if r.isEmpty then do
        onDb (putHead refname)
        emit (.text sNewHead)
      else do
        emit (.text sNotClean)
        emit (.result (simplify r)) : Snap.C Unit) (startOf w q)).1 = .panic → WorkPanics X.E w.fs (makeFilter X.glob R.folder) X.depth R.root t (w.dbs q, w.cache) := by
    intro t
    refine bind_panic (fun h => compareWork_panic (s := startOf w q) hi hw (opens_folder ho) h) fun r s' _ h => ?_
    refine absurd h (calm_ite (fun _ => ?_) (fun _ => ?_) s')
    · exact calm_bind (calm_onDb (calm_write _)) fun _ => calm_emit _
    · exact calm_bind (calm_emit _) fun _ => calm_emit _
  intro h
  rw [SM.bind_apply, SM.read_apply] at h
  simp only at h
  revert h
  cases hk : (reflogGet (w.dbs q) head none).toOption with
  | none =>
    refine readDb_bind_panic ?_ fun t htt h => .inr ⟨t, .inr ⟨fun k hk' => ?_, ?_⟩, tail t h⟩
    · simp only [startOf, hk]; exact nofun
    · unfold getHeadKey at hk'
      rw [show headName (w.dbs q) = .ok head from hh, Res.ok_bind] at hk'
      rw [hk'] at hk
      simp [Res.toOption] at hk
    · simp only [startOf, hk] at htt
      simpa [Res.pure_eq] using htt.symm
  | some k =>
    have hgk := headKey_of hh hk
    refine readDb_bind_panic (fun h => .inl ?_) fun t htt h => .inr ⟨t, .inl ?_, tail t h⟩
    · simp only [startOf, hk] at h
      revert h
      exact res_bind_panic (fun h => ⟨k, hgk, fromKey_panic hcl h⟩) fun _ _ => nofun
    · simp only [startOf, hk] at htt
      obtain ⟨c, h1, h2⟩ := Res.bind_eq_ok htt
      exact ⟨k, c, hgk, h1, by simpa [Res.pure_eq] using h2.symm⟩

theorem status_eq {X : Ctx} {w : World} {R : Repo} {q : List Bytes} {head : Bytes} {k : Key} (hh : headName (w.dbs q) = .ok head) (hk : reflogGet (w.dbs q) head none = .ok k) :
    (Command.status.inRepo X R (startOf w q)).1 = (Commit.fromKey (w.dbs q) k >>= fun c =>
      (compare X.E w.fs X.iter X.depth (.fileSystem R.root X.glob R.folder) (some c.tree) (w.dbs q, w.cache)).1 >>= fun _ => pure ()) := by
  show (cmdStatus X R (startOf w q)).1 = _
  unfold cmdStatus
  rw [readDb_bind, show headName (startOf w q).db = .ok head from hh]
  simp only [SM.bind_apply, SM.read_apply, startOf, hk, Res.toOption, emit, SM.modify_apply, readDb_apply]
  cases Commit.fromKey (w.dbs q) k with
  | ok c =>
    simp only [compareWork_eq, Res.ok_bind]
    cases hc : compare X.E w.fs X.iter X.depth (.fileSystem R.root X.glob R.folder) (some c.tree) (w.dbs q, w.cache) with
    | mk r d => cases r <;> rfl
  | _ => rfl

theorem checkoutHead_eq {X : Ctx} {w : World} {R : Repo} {q : List Bytes} {head : Bytes} {k : Key} (refname : Bytes) (hh : headName (w.dbs q) = .ok head) (hk : reflogGet (w.dbs q) head none = .ok k) :
    ((Command.checkoutHead refname).inRepo X R (startOf w q)).1 = .panic ↔ (Commit.fromKey (w.dbs q) k >>= fun c =>
      (compare X.E w.fs X.iter X.depth (.fileSystem R.root X.glob R.folder) (some c.tree) (w.dbs q, w.cache)).1) = .panic := by
  show (cmdCheckoutHead X R refname (startOf w q)).1 = _ ↔ _
  unfold cmdCheckoutHead
  rw [readDb_bind, show headName (startOf w q).db = .ok head from hh]
  simp only [SM.bind_apply, SM.read_apply, startOf, hk, Res.toOption, readDb_apply]
  cases Commit.fromKey (w.dbs q) k with
  | ok c =>
    simp only [compareWork_eq, Res.ok_bind, Res.pure_eq]
    cases hc : compare X.E w.fs X.iter X.depth (.fileSystem R.root X.glob R.folder) (some c.tree) (w.dbs q, w.cache) with
    | mk r d =>
      cases r with
      | ok r =>
        simp only
        refine iff_of_false ?_ nofun
        refine calm_ite (fun _ => ?_) (fun _ => ?_) _
        · exact calm_bind (calm_onDb (calm_write _)) fun _ => calm_emit _
        · exact calm_bind (calm_emit _) fun _ => calm_emit _
      | _ => simp
  | _ => simp [Bind.bind, Res.bind]

theorem headKey_split {db : Db} {k : Key} (h : getHeadKey db = .ok k) : ∃ head, headName db = .ok head ∧ reflogGet db head none = .ok k := Res.bind_eq_ok h

/-- **C78**, the first cause: if the newest entry of HEAD is not a commit, `status`, `checkout-head` and `compare` without a key panic. -/
theorem C78_bad_head (X : Ctx) (w : World) (hs : w.Reachable X.E.H) (R : Repo) (q : List Bytes) (ho : Opens X w R q) (h : BadHead (w.dbs q)) (refname : Bytes) (path : Option Path) (stat : Bool) :
    (mainRun X .status w).1 = .panicked ∧ (mainRun X (.checkoutHead refname) w).1 = .panicked ∧ (mainRun X (.compare path none stat) w).1 = .panicked := by
  obtain ⟨k, hk, hl⟩ := h
  obtain ⟨head, h1, h2⟩ := headKey_split hk
  have hp : Commit.fromKey (w.dbs q) k = .panic := by
    rcases fromKey_cases (World.Reachable.closed hs q) k with ⟨c, _, h⟩ | ⟨h, _⟩
    · exact absurd h hl
    · exact h
  rw [panic_open (by simp) ho, panic_open (by simp) ho, panic_open (by simp) ho]
  refine ⟨?_, ?_, ?_⟩
  · rw [status_eq h1 h2, hp]; rfl
  · rw [checkoutHead_eq refname h1 h2, hp]; rfl
  · show (cmdCompare X R path none stat (startOf w q)).1 = _
    have : cmdCompare X R path none stat (startOf w q) = _ := readDb_bind _ _ _
    rw [this]
    have hk' : (getHeadKey (startOf w q).db >>= fun c => Commit.fromKey (startOf w q).db c >>= fun c => pure c.tree) = .panic := by
      rw [show getHeadKey (startOf w q).db = .ok k from hk, Res.ok_bind, show Commit.fromKey (startOf w q).db k = .panic from hp]
      rfl
    dsimp only
    rw [hk']

/-- **C78**, the others: if both could be listed, and something of the tree is not in the directory, or a new file is not a regular file seen from the current directory, then
`compare`, `status` and `checkout-head` panic: whatever the cache and the failures of writes. -/
theorem C78_panics (X : Ctx) (hi : IterOk X.iter) (w : World) (R : Repo) (q : List Bytes) (ho : Opens X w R q) (path : Option Path) (key : Option Keyish) (t : Key)
    (ht : compareKey (w.dbs q) key = .ok t) (A : PMap Bool) (B : PMap (Key × Bool)) (hA : walkReal w.fs (makeFilter X.glob R.folder) X.depth (path.getD R.root) = .ok A)
    (hB : walkItems (w.dbs q) X.depth t = .ok B) (h : Missing A B ∨ ∃ x, (x, false) ∈ A ∧ x ∉ B.map (·.1) ∧ ∀ c md, w.fs.metadata x ≠ .ok (.file c md)) :
    (∀ stat, (mainRun X (.compare path key stat) w).1 = .panicked) ∧
    (key = none → path = none → (mainRun X .status w).1 = .panicked ∧ ∀ refname, (mainRun X (.checkoutHead refname) w).1 = .panicked) := by
  have hp := compare_panics_of (E := X.E) (fs := w.fs) (s := (w.dbs q, w.cache)) (t := some t) hi hA hB h
  refine ⟨fun stat => ?_, ?_⟩
  · rw [panic_open (by simp) ho, cmdCompare_eq X R path key stat (startOf w q) ht]
    unfold compareTail
    rw [SM.bind_apply, compareWork_eq]
    have hp' : (compare X.E (startOf w q).fs X.iter X.depth (.fileSystem (path.getD R.root) X.glob R.folder) (some t) ((startOf w q).db, (startOf w q).cache)).1 = .panic := hp
    rw [hp']
  · rintro rfl rfl
    obtain ⟨k, h1, h2⟩ := Res.bind_eq_ok (show (getHeadKey (w.dbs q) >>= fun c => Commit.fromKey (w.dbs q) c >>= fun c => pure c.tree) = .ok t from ht)
    obtain ⟨c, h3, h4⟩ := Res.bind_eq_ok h2
    simp [Res.pure_eq] at h4
    subst h4
    obtain ⟨head, h5, h6⟩ := headKey_split h1
    refine ⟨?_, fun refname => ?_⟩ <;> rw [panic_open (by simp) ho]
    · rw [status_eq h5 h6, h3, Res.ok_bind, show (compare X.E w.fs X.iter X.depth (.fileSystem R.root X.glob R.folder) (some c.tree) (w.dbs q, w.cache)).1 = .panic from hp]; rfl
    · rw [checkoutHead_eq refname h5 h6, h3, Res.ok_bind]; exact hp

/-- **C78**: with writes that do not fail, a cache of keys and files that can be read, `status` panics if and only if the newest entry of HEAD is not a commit, or one of the
directories contains a dangling link that stops the listing, or something of the commit is not in the directory, or a new file is not a regular file seen from the current directory. -/
theorem C78_status_iff (X : Ctx) (hi : IterOk X.iter) (w : World) (hs : w.Reachable X.E.H) (R : Repo) (q : List Bytes) (ho : Opens X w R q)
    (hf : Fit (w.dbs q, w.cache)) (hr : ∀ p c md, w.fs.metadata p = .ok (.file c md) → ∃ k, fileKey X.E p c = .ok k) :
    (mainRun X .status w).1 = .panicked ↔ BadHead (w.dbs q) ∨ ∃ k c, getHeadKey (w.dbs q) = .ok k ∧ Commit.fromKey (w.dbs q) k = .ok c ∧
      (walkReal w.fs (makeFilter X.glob R.folder) X.depth R.root = .panic ∨
        ∃ A B, walkReal w.fs (makeFilter X.glob R.folder) X.depth R.root = .ok A ∧ walkItems (w.dbs q) X.depth c.tree = .ok B ∧
          (Missing A B ∨ ∃ x, (x, false) ∈ A ∧ x ∉ B.map (·.1) ∧ ∀ c md, w.fs.metadata x ≠ .ok (.file c md))) := by
  constructor
  · intro h
    rw [panic_open (by simp) ho] at h
    cases hk : getHeadKey (w.dbs q) with
    | ok k =>
      obtain ⟨head, h1, h2⟩ := headKey_split hk
      rw [status_eq h1 h2] at h
      rcases fromKey_cases (World.Reachable.closed hs q) k with ⟨c, hc, _⟩ | ⟨_, hl⟩
      · refine .inr ⟨k, c, rfl, hc, ?_⟩
        rw [hc, Res.ok_bind] at h
        have hp : (compare X.E w.fs X.iter X.depth (.fileSystem R.root X.glob R.folder) (some c.tree) (w.dbs q, w.cache)).1 = .panic := by
          revert h
          exact res_bind_panic id fun _ _ => nofun
        rcases compare_start hp with hA | ⟨A, B, hA, hB⟩
        · exact .inl hA
        · exact .inr ⟨A, B, hA, hB, (compare_panics_iff hi hA hB hf hr).mp hp⟩
      · exact .inl ⟨k, hk, hl⟩
    | _ =>
      exfalso
      revert h
      show (cmdStatus X R (startOf w q)).1 = _ → False
      refine readDb_bind_panic (fun h => (headName_calm _ h).elim) fun head hh => ?_
      have hno : (reflogGet (w.dbs q) head none).toOption = none := by
        cases hx : (reflogGet (w.dbs q) head none).toOption with
        | none => rfl
        | some k => rw [headKey_of (db := w.dbs q) hh hx] at hk; simp at hk
      rw [SM.bind_apply, SM.read_apply]
      simp only [startOf, hno]
      exact calm_emit _ _
  · rintro (h | ⟨k, c, h1, h2, h⟩)
    · exact (C78_bad_head X w hs R q ho h [] none false).1
    · rcases h with h | ⟨A, B, hA, hB, h⟩
      · obtain ⟨head, h3, h4⟩ := headKey_split h1
        rw [panic_open (by simp) ho, status_eq h3 h4, h2, Res.ok_bind]
        unfold compare
        simp only [SM.bind_apply, SM.lift_apply, h]
        rfl
      · refine ((C78_panics X hi w R q ho none none c.tree ?_ A B hA hB h).2 rfl rfl).1
        show (getHeadKey (w.dbs q) >>= fun c => Commit.fromKey (w.dbs q) c >>= fun c => pure c.tree) = _
        rw [h1, Res.ok_bind, h2]
        rfl

end Snap.Props
