import Verif.Lemmas.Ds
/-! Computations whose only effect on the database is a fixed sequence of `put`s. -/
namespace Snap

/-- `put` the byte strings in turn, then give the result; stops at the first failing write. -/
def execPuts {α} (H : Bytes → Key) : List Bytes → Res α → M α
  | [], r => SM.lift r
  | w :: ws, r => do
    let _ ← put H w
    execPuts H ws r

/-- The computation does nothing but a fixed sequence of puts (not depending on the database) and has a fixed result unless a write fails. -/
def IsPuts {α} (H : Bytes → Key) (x : M α) : Prop := ∃ ws r, ∀ db, x db = execPuts H ws r db

theorem SM.ext' {σ α} {x y : SM σ α} (h : ∀ s, x s = y s) : x = y := funext h

theorem execPuts_cons {α} (H : Bytes → Key) (w : Bytes) (ws : List Bytes) (r : Res α) (db : Db) :
    execPuts H (w :: ws) r db = match put H w db with
      | (.ok _, db) => execPuts H ws r db
      | (.err e, db) => (.err e, db)
      | (.panic, db) => (.panic, db)
      | (.fuel, db) => (.fuel, db) := by
  rw [execPuts, SM.bind_apply]
  rcases put_cases H w db with e | e <;> rw [e]

theorem execPuts_bind {α β} (H : Bytes → Key) (ws : List Bytes) (r : Res α) (f : α → M β) (ws' : List Bytes) (r' : Res β)
    (hok : ∀ a, r = .ok a → ∀ db, f a db = execPuts H ws' r' db)
    (herr : (∀ a, r ≠ .ok a) → ws' = [] ∧ ∀ db : Db, (SM.lift r >>= f) db = (r', db)) (db : Db) :
    (execPuts H ws r >>= f) db = execPuts H (ws ++ ws') r' db := by
  induction ws generalizing db with
  | nil =>
    simp only [execPuts, List.nil_append]
    cases r with
    | ok a => exact hok a rfl db
    | err e => obtain ⟨rfl, h⟩ := herr (by simp); exact h db
    | panic => obtain ⟨rfl, h⟩ := herr (by simp); exact h db
    | fuel => obtain ⟨rfl, h⟩ := herr (by simp); exact h db
  | cons w ws ih =>
    rw [List.cons_append, execPuts_cons, SM.bind_apply, execPuts_cons]
    rcases put_cases H w db with e | e <;> rw [e]
    simp only
    have := ih { db with hashed := w :: db.hashed, faults := db.faults.tail, data := insertIgnore db.data (H w).asDbKey w }
    rw [SM.bind_apply] at this
    exact this

theorem isPuts_lift {α} (H : Bytes → Key) (r : Res α) : IsPuts H (SM.lift r : M α) := ⟨[], r, fun _ => rfl⟩
theorem isPuts_pure {α} (H : Bytes → Key) (a : α) : IsPuts H (pure a : M α) := ⟨[], .ok a, fun _ => rfl⟩
theorem isPuts_throw {α} (H : Bytes → Key) (e : Err) : IsPuts H (SM.throw e : M α) := ⟨[], .err e, fun _ => rfl⟩
theorem isPuts_panic {α} (H : Bytes → Key) : IsPuts H (SM.panic : M α) := ⟨[], .panic, fun _ => rfl⟩

theorem isPuts_bind {α β} {H : Bytes → Key} {x : M α} {f : α → M β} (hx : IsPuts H x) (hf : ∀ a, IsPuts H (f a)) : IsPuts H (x >>= f) := by
  obtain ⟨ws, r, hx⟩ := hx
  have e : x = execPuts H ws r := SM.ext' hx
  subst e
  cases r with
  | ok a =>
    obtain ⟨ws', r', hf⟩ := hf a
    exact ⟨ws ++ ws', r', execPuts_bind H ws (.ok a) f ws' r' (fun a' h => by cases h; exact hf) (fun h => absurd rfl (h a))⟩
  | err e =>
    exact ⟨ws ++ [], .err e, execPuts_bind H ws (.err e) f [] (.err e) (fun a' h => by cases h) (fun _ => ⟨rfl, fun _ => rfl⟩)⟩
  | panic =>
    exact ⟨ws ++ [], .panic, execPuts_bind H ws .panic f [] .panic (fun a' h => by cases h) (fun _ => ⟨rfl, fun _ => rfl⟩)⟩
  | fuel =>
    exact ⟨ws ++ [], .fuel, execPuts_bind H ws .fuel f [] .fuel (fun a' h => by cases h) (fun _ => ⟨rfl, fun _ => rfl⟩)⟩

theorem isPuts_put (H : Bytes → Key) (d : Bytes) : IsPuts H (put H d) := by
  refine ⟨[d], .ok (H d), ?_⟩
  intro db
  rw [execPuts_cons]
  rcases put_cases H d db with e | e <;> rw [e] <;> rfl

theorem isPuts_putObj (H : Bytes → Key) (o : Object) : IsPuts H (putObj H o) :=
  isPuts_bind (isPuts_lift H _) (fun _ => isPuts_put H _)

theorem isPuts_ite {α} {H : Bytes → Key} {c : Prop} [Decidable c] {x y : M α} (hx : IsPuts H x) (hy : IsPuts H y) :
    IsPuts H (if c then x else y) := by split <;> assumption

/-! ### What puts do to the database -/

/-- `b` is `a` after some puts. -/
structure Grow (H : Bytes → Key) (a b : Db) : Prop where
  data : a.data <+: b.data
  hashed : a.hashed <:+ b.hashed
  state : b.state = a.state
  reflog : b.reflog = a.reflog
  inv : Inv H a → Inv H b

theorem Grow.refl (H : Bytes → Key) (a : Db) : Grow H a a := ⟨List.prefix_refl _, List.suffix_refl _, rfl, rfl, id⟩
theorem Grow.trans {H : Bytes → Key} {a b c : Db} (h : Grow H a b) (g : Grow H b c) : Grow H a c :=
  ⟨h.data.trans g.data, h.hashed.trans g.hashed, g.state.trans h.state, g.reflog.trans h.reflog, fun i => g.inv (h.inv i)⟩

theorem grow_put (H : Bytes → Key) (d : Bytes) (db : Db) : Grow H db (put H d db).2 := by
  refine ⟨?_, ?_, ?_, ?_, fun h => inv_put h d⟩ <;> rcases put_cases H d db with e | e <;> rw [e] <;>
    simp [insertIgnore_prefix, List.suffix_cons]

theorem grow_execPuts {α} (H : Bytes → Key) (ws : List Bytes) (r : Res α) (db : Db) : Grow H db (execPuts H ws r db).2 := by
  induction ws generalizing db with
  | nil => exact Grow.refl H db
  | cons w ws ih =>
    have hg := grow_put H w db
    rw [execPuts_cons]
    rcases put_cases H w db with e | e <;> rw [e] at hg ⊢
    · exact hg
    · exact hg.trans (ih _)

theorem IsPuts.grow {α} {H : Bytes → Key} {x : M α} (h : IsPuts H x) (db : Db) : Grow H db (x db).2 := by
  obtain ⟨ws, r, hx⟩ := h
  rw [hx]; exact grow_execPuts H ws r db

theorem NoColl.mono {H : Bytes → Key} {a b : Db} (h : NoColl H b) (g : a.hashed <:+ b.hashed) : NoColl H a :=
  fun x hx y hy => h x (g.subset hx) y (g.subset hy)

theorem execPuts_result {α} (H : Bytes → Key) (ws : List Bytes) (r : Res α) (db : Db) :
    (execPuts H ws r db).1 = r ∨ (execPuts H ws r db).1 = .err .sqlite := by
  induction ws generalizing db with
  | nil => left; rfl
  | cons w ws ih =>
    rw [execPuts_cons]
    rcases put_cases H w db with e | e <;> rw [e]
    · right; rfl
    · exact ih _

theorem write_nofault (f : Db → Db) {db : Db} (h : db.faults = []) : write f db = (.ok (), f db) := by
  rcases write_cases f db with ⟨fs, e, _⟩ | e
  · rw [h] at e; simp at e
  · rw [e, h]; cases db; simp at h; subst h; rfl

theorem put_nofault {H : Bytes → Key} {d : Bytes} {db : Db} (h : db.faults = []) :
    put H d db = (.ok (H d), { db with hashed := d :: db.hashed, data := insertIgnore db.data (H d).asDbKey d }) := by
  rcases put_cases H d db with e | e
  · exfalso
    unfold put Snap.rawPut at e
    simp only [SM.bind_apply, SM.modify_apply] at e
    have hw := write_nofault (fun db => { db with data := insertIgnore db.data (H d).asDbKey d }) (db := { db with hashed := d :: db.hashed }) h
    rw [hw] at e
    simp at e
  · rw [e, h]; rfl

theorem execPuts_nofault {α} (H : Bytes → Key) (ws : List Bytes) (r : Res α) (db : Db) (h : db.faults = []) :
    (execPuts H ws r db).1 = r ∧ (execPuts H ws r db).2.faults = [] := by
  induction ws generalizing db with
  | nil => exact ⟨rfl, h⟩
  | cons w ws ih =>
    rw [execPuts_cons, put_nofault h]
    exact ih _ h

/-- All rows that `execPuts` would write are there. -/
theorem execPuts_present {α} (H : Bytes → Key) (ws : List Bytes) (r : Res α) (a : α) (db db' : Db)
    (h : execPuts H ws r db = (.ok a, db')) : ∀ w ∈ ws, ∃ row ∈ db'.data, row.1 = (H w).asDbKey := by
  induction ws generalizing db with
  | nil => simp
  | cons w ws ih =>
    rw [execPuts_cons] at h
    rcases put_cases H w db with e | e
    · rw [e] at h; simp at h
    · rw [e] at h
      simp only at h
      intro x hx
      rcases List.mem_cons.mp hx with rfl | hx
      · have hg := (grow_execPuts H ws r { db with hashed := x :: db.hashed, faults := db.faults.tail, data := insertIgnore db.data (H x).asDbKey x }).data
        rw [h] at hg
        have : ∃ row ∈ insertIgnore db.data (H x).asDbKey x, row.1 = (H x).asDbKey := by
          rw [← assoc_isSome_iff, insertIgnore_assoc]
          cases assoc db.data (H x).asDbKey <;> simp
        obtain ⟨row, hr, he⟩ := this
        exact ⟨row, hg.subset hr, he⟩
      · exact ih _ h x hx

theorem execPuts_again {α} (H : Bytes → Key) (ws : List Bytes) (r : Res α) (db : Db)
    (h : ∀ w ∈ ws, ∃ row ∈ db.data, row.1 = (H w).asDbKey) :
    (execPuts H ws r db).2.data = db.data := by
  induction ws generalizing db with
  | nil => rfl
  | cons w ws ih =>
    rw [execPuts_cons]
    have hw := h w (by simp)
    have hi : insertIgnore db.data (H w).asDbKey w = db.data := by
      rcases insertIgnore_cases db.data (H w).asDbKey w with ⟨_, e⟩ | ⟨hn, _⟩
      · exact e
      · obtain ⟨row, hr, he⟩ := hw; exact absurd he (hn row hr)
    rcases put_cases H w db with e | e <;> rw [e]
    simp only
    rw [hi]
    exact ih { db with hashed := w :: db.hashed, faults := db.faults.tail } (fun x hx => h x (by simp [hx]))

/-- Decomposition of a successful sequence. -/
theorem bind_ok {σ α β} {x : SM σ α} {f : α → SM σ β} {s s'' : σ} {b : β} (h : (x >>= f) s = (.ok b, s'')) :
    ∃ a s', x s = (.ok a, s') ∧ f a s' = (.ok b, s'') := by
  rw [SM.bind_apply] at h
  split at h
  · rename_i a s' e; exact ⟨a, s', e, h⟩
  all_goals simp at h

theorem isPuts_cases {α} {H : Bytes → Key} {x : M α} (h : IsPuts H x) : ∃ r, ∀ db, (x db).1 = r ∨ (x db).1 = .err .sqlite := by
  obtain ⟨ws, r, hx⟩ := h
  exact ⟨r, fun db => by rw [hx]; exact execPuts_result H ws r db⟩

set_option linter.unusedSectionVars false
variable [Serde] [LawfulSerde]

/-- The object just put can be read. -/
theorem putObj_getObj {H : Bytes → Key} {o : Object} {db db' : Db} {k : Key} (hi : Inv H db) (hp : putObj H o db = (.ok k, db'))
    (hc : NoColl H db') : getObj db' k = .ok o := by
  rcases putObj_cases H o db with ⟨_, e⟩ | ⟨b, hb, e | e⟩
  · rw [e] at hp; simp at hp
  · rw [e] at hp; simp at hp
  · have hi' : Inv H db' := by have := putObj_inv hi o; rw [hp] at this; exact this
    rw [e] at hp
    simp only [Prod.mk.injEq, Res.ok.injEq] at hp
    obtain ⟨rfl, hdb⟩ := hp
    have hst : ∃ v, get db' (H b) = .ok v := by
      rw [← hdb]
      simp only [get_eq_ok, insertIgnore_assoc, if_true]
      cases assoc db.data (H b).asDbKey <;> simp
    obtain ⟨v, hv⟩ := hst
    have hbh : b ∈ db'.hashed := by rw [← hdb]; simp
    have : v = b := get_of_noColl hi' hc hbh hv
    subst this
    simp [getObj, hv, Object.decode_encode hb]

theorem getObj_mono {a b : Db} (h : a.data <+: b.data) {k : Key} {o : Object} (hg : getObj a k = .ok o) : getObj b k = .ok o := by
  unfold getObj at hg ⊢
  cases hk : get a k with
  | ok v =>
    rw [hk] at hg
    rw [show get b k = .ok v from rawGet_mono h hk]; exact hg
  | err e => rw [hk] at hg; simp at hg
  | panic => rw [hk] at hg; simp at hg
  | fuel => rw [hk] at hg; simp at hg

end Snap
