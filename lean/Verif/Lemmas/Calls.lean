import Verif.Lemmas.Ds
import Verif.SpecStore
/-! The concrete database represents the abstract store. -/
namespace Snap
open Spec

/-- Concrete effect of a successful call on the tables. -/
def Call.eff (H : Bytes → Key) (db : Db) : Call → Db
  | .put d => { db with data := insertIgnore db.data (H d).asDbKey d }
  | .rawPut k v => { db with data := insertIgnore db.data k v }
  | .putState k v => { db with state := insertReplace db.state k v }
  | .putHead h => { db with state := insertReplace db.state sHEAD h }
  | .reflogPush n r k => { db with reflog := db.reflog ++ [⟨n, r, k.asDbKey⟩] }

/-- Equal tables. -/
def SameTables (a b : Db) : Prop := a.data = b.data ∧ a.state = b.state ∧ a.reflog = b.reflog

theorem SameTables.refl (a : Db) : SameTables a a := ⟨rfl, rfl, rfl⟩
theorem SameTables.symm {a b : Db} (h : SameTables a b) : SameTables b a := ⟨h.1.symm, h.2.1.symm, h.2.2.symm⟩
theorem SameTables.trans {a b c : Db} (h : SameTables a b) (g : SameTables b c) : SameTables a c :=
  ⟨h.1.trans g.1, h.2.1.trans g.2.1, h.2.2.trans g.2.2⟩

theorem Call.run_cases (H : Bytes → Key) (c : Call) (db : Db) :
    ((c.run H db).1 = .err .sqlite ∧ SameTables (c.run H db).2 db)
    ∨ ((c.run H db).1 = .ok () ∧ SameTables (c.run H db).2 (c.eff H db)) := by
  cases c with
  | put d =>
    simp only [Call.run, SM.bind_apply]
    rcases put_cases H d db with e | e <;> rw [e]
    · left; exact ⟨rfl, rfl, rfl, rfl⟩
    · right; exact ⟨rfl, rfl, rfl, rfl⟩
  | rawPut k v =>
    simp only [Call.run, Snap.rawPut]
    rcases write_total (fun db => { db with data := insertIgnore db.data k v }) db with ⟨e', e⟩ | ⟨e', e⟩ <;> rw [e, e']
    · left; exact ⟨rfl, rfl, rfl, rfl⟩
    · right; exact ⟨rfl, rfl, rfl, rfl⟩
  | putState k v =>
    simp only [Call.run, Snap.rawPutState]
    rcases write_total (fun db => { db with state := insertReplace db.state k v }) db with ⟨e', e⟩ | ⟨e', e⟩ <;> rw [e, e']
    · left; exact ⟨rfl, rfl, rfl, rfl⟩
    · right; exact ⟨rfl, rfl, rfl, rfl⟩
  | putHead v =>
    simp only [Call.run, Snap.putHead, Snap.rawPutState]
    rcases write_total (fun db => { db with state := insertReplace db.state sHEAD v }) db with ⟨e', e⟩ | ⟨e', e⟩ <;> rw [e, e']
    · left; exact ⟨rfl, rfl, rfl, rfl⟩
    · right; exact ⟨rfl, rfl, rfl, rfl⟩
  | reflogPush n r k =>
    simp only [Call.run, Snap.reflogPush]
    rcases write_total (fun db => { db with reflog := db.reflog ++ [⟨n, r, k.asDbKey⟩] }) db with ⟨e', e⟩ | ⟨e', e⟩ <;> rw [e, e']
    · left; exact ⟨rfl, rfl, rfl, rfl⟩
    · right; exact ⟨rfl, rfl, rfl, rfl⟩

/-- Representation relation. -/
structure Rep (db : Db) (s : Store) : Prop where
  obj : ∀ k, assoc db.data k = s.obj k
  st : ∀ k, assoc db.state k = s.st k
  log : db.reflog = s.log.map fun e => ⟨e.1, e.2.1, e.2.2.asDbKey⟩

theorem Rep.congr {a b : Db} {s : Store} (h : Rep a s) (hs : SameTables b a) : Rep b s :=
  ⟨by rw [hs.1]; exact h.obj, by rw [hs.2.1]; exact h.st, by rw [hs.2.2]; exact h.log⟩

theorem rep_empty (fs : List Bool) : Rep { faults := fs } Store.empty := ⟨fun _ => rfl, fun _ => rfl, rfl⟩

theorem setOnce_rep {l : List (Bytes × Bytes)} {m : Bytes → Option Bytes} (h : ∀ k, assoc l k = m k) (k v : Bytes) (x : Bytes) :
    assoc (insertIgnore l k v) x = setOnce m k v x := by
  rw [insertIgnore_assoc, h]
  unfold setOnce
  by_cases hx : x = k
  · subst hx; simp
  · have : ¬ k = x := fun e => hx e.symm
    simp [hx, this]

theorem rep_eff {H : Bytes → Key} {db : Db} {s : Store} (h : Rep db s) (c : Call) : Rep (c.eff H db) (s.apply H c) := by
  cases c with
  | put d => exact ⟨setOnce_rep h.obj _ _, h.st, h.log⟩
  | rawPut k v => exact ⟨setOnce_rep h.obj _ _, h.st, h.log⟩
  | putState k v =>
    refine ⟨h.obj, ?_, h.log⟩
    intro x
    simp only [Call.eff, Store.apply, setLast, insertReplace_assoc, h.st, eq_comm]
  | putHead v =>
    refine ⟨h.obj, ?_, h.log⟩
    intro x
    simp only [Call.eff, Store.apply, setLast, insertReplace_assoc, h.st, eq_comm, sHEAD]
  | reflogPush n r k =>
    refine ⟨h.obj, h.st, ?_⟩
    simp [Call.eff, Store.apply, h.log]

theorem rep_run {H : Bytes → Key} {db : Db} {s : Store} (h : Rep db s) (cs : List Call) :
    Rep (runCalls H cs db) ((succeeded H cs db).foldl (Store.apply H) s) := by
  induction cs generalizing db s with
  | nil => exact h
  | cons c cs ih =>
    simp only [runCalls, succeeded, List.foldl_append]
    rcases c.run_cases H db with ⟨e, hs⟩ | ⟨e, hs⟩
    · simp only [e, Res.isOk]
      exact ih (h.congr hs)
    · simp only [e, Res.isOk]
      exact ih ((rep_eff h c).congr hs)

/-! Observations determined by the representation -/

theorem Rep.rawGet {db : Db} {s : Store} (h : Rep db s) (k : Bytes) :
    rawGet db k = match s.obj k with | some v => .ok v | none => .err .sqlite := by
  simp only [Snap.rawGet, h.obj]
  cases s.obj k <;> rfl

theorem Rep.rawGetState {db : Db} {s : Store} (h : Rep db s) (k : Bytes) : rawGetState db k = .ok (s.st k) := by
  simp only [Snap.rawGetState, h.st]

theorem Rep.refRows {db : Db} {s : Store} (h : Rep db s) (n : Bytes) (r : Option Bytes) :
    (refRows db n r).map (·.key) = (s.pushed n r).map (·.asDbKey) := by
  simp only [Snap.refRows, h.log, Store.pushed, List.filter_map, List.map_map]
  have : (fun e : Bytes × Option Bytes × Key =>
      (((fun r_1 : RefRow => r_1.refname == n && r_1.remote == r) ∘ fun e => ({ refname := e.1, remote := e.2.1, key := e.2.2.asDbKey } : RefRow)) e))
      = fun e => decide (e.1 = n ∧ e.2.1 = r) := by
    funext e; rw [Bool.eq_iff_iff]; simp
  have h2 := congrArg (fun p => List.filter p s.log) this
  rw [show (List.filter ((fun r_1 : RefRow => r_1.refname == n && r_1.remote == r) ∘ fun e => ({ refname := e.1, remote := e.2.1, key := e.2.2.asDbKey } : RefRow)) s.log) = _ from h2]
  rfl

theorem mapRes_fromDbKey (ks : List Key) (rows : List RefRow) (h : rows.map (·.key) = ks.map (·.asDbKey)) :
    mapRes (fun r => fromDbKey r.key) rows = .ok ks := by
  have : mapRes (fun r : RefRow => fromDbKey r.key) rows = mapRes fromDbKey (rows.map (·.key)) := by rw [mapRes_map]
  rw [this, h, mapRes_map, mapRes_ok (g := id) _ (fun k _ => fromDbKey_asDbKey k)]
  simp

theorem Rep.reflogWalk {db : Db} {s : Store} (h : Rep db s) (n : Bytes) (r : Option Bytes) :
    reflogWalk db n r = .ok (s.pushed n r).reverse := by
  unfold Snap.reflogWalk
  apply mapRes_fromDbKey
  rw [List.map_reverse, h.refRows, List.map_reverse]

theorem Rep.reflogGet {db : Db} {s : Store} (h : Rep db s) (n : Bytes) (r : Option Bytes) :
    reflogGet db n r = match (s.pushed n r).getLast? with | some k => .ok k | none => .err .notFound := by
  unfold Snap.reflogGet
  have := h.refRows n r
  have h1 := congrArg List.getLast? this
  rw [List.getLast?_map, List.getLast?_map] at h1
  cases hr : (Snap.refRows db n r).getLast? with
  | none =>
    rw [hr] at h1
    cases hp : (s.pushed n r).getLast? with
    | none => rfl
    | some k => rw [hp] at h1; simp at h1
  | some row =>
    rw [hr] at h1
    cases hp : (s.pushed n r).getLast? with
    | none => rw [hp] at h1; simp at h1
    | some k =>
      rw [hp] at h1; simp at h1
      simp only [h1]; exact fromDbKey_asDbKey k

theorem fold_st (H : Bytes → Key) (cs : List Call) (s : Store) (k : Bytes) :
    (cs.foldl (Store.apply H) s).st k = ((stateWrites k cs).getLast?).or (s.st k) := by
  induction cs generalizing s with
  | nil => simp [stateWrites]
  | cons c cs ih =>
    simp only [List.foldl_cons, ih]
    cases c with
    | putState k' v =>
      simp only [Store.apply, setLast, stateWrites]
      by_cases h : k' = k
      · simp only [h, if_true]
        cases hh : stateWrites k cs <;> simp [List.getLast?_cons]
      · have : ¬ k = k' := fun e => h e.symm
        simp [h, this]
    | putHead v =>
      simp only [Store.apply, setLast, stateWrites]
      by_cases h : ([72, 69, 65, 68] : Bytes) = k
      · simp only [h, if_true]
        cases hh : stateWrites k cs <;> simp [List.getLast?_cons]
      · have : ¬ k = [72, 69, 65, 68] := fun e => h e.symm
        simp [h, this]
    | put d => rfl
    | rawPut a b => rfl
    | reflogPush a b c => rfl

theorem fold_pushed (H : Bytes → Key) (cs : List Call) (s : Store) (n : Bytes) (r : Option Bytes) :
    (cs.foldl (Store.apply H) s).pushed n r = s.pushed n r ++ pushes n r cs := by
  induction cs generalizing s with
  | nil => simp [pushes]
  | cons c cs ih =>
    simp only [List.foldl_cons, ih]
    cases c with
    | reflogPush n' r' k =>
      simp only [Store.apply, Store.pushed, pushes, List.filter_append, List.map_append]
      by_cases h : n' = n ∧ r' = r
      · simp [h]
      · simp [h]
    | put d => rfl
    | rawPut a b => rfl
    | putState a b => rfl
    | putHead a => rfl

theorem fold_obj_some (H : Bytes → Key) (cs : List Call) (s : Store) {k v : Bytes} (h : s.obj k = some v) :
    (cs.foldl (Store.apply H) s).obj k = some v := by
  induction cs generalizing s with
  | nil => exact h
  | cons c cs ih =>
    simp only [List.foldl_cons]
    apply ih
    cases c <;> simp only [Store.apply, setOnce, h]
    all_goals (split <;> simp_all)

/-! ### Transactions -/

/-- History together with the outcome of every step. -/
def Conn.outcomes (H : Bytes → Key) (c : Conn) : List ConnOp → List (ConnOp × Bool)
  | [] => []
  | o :: os => (o, (c.step H o).1.isOk) :: Conn.outcomes H (c.step H o).2 os

theorem rep_history {H : Bytes → Key} (ops : List ConnOp) (c : Conn) (s : Store) (p : Option (List Call))
    (hd : Rep c.durable s)
    (hw : match c.work, p with
      | none, none => True
      | some w, some p => Rep w (p.foldl (Store.apply H) s)
      | _, _ => False) :
    Rep (c.run H ops).durable ((committed p (c.outcomes H ops)).foldl (Store.apply H) s) := by
  induction ops generalizing c s p with
  | nil => cases p <;> exact hd
  | cons o os ih =>
    obtain ⟨dur, work⟩ := c
    cases work with
    | none =>
      cases p with
      | some p => exact absurd hw (by simp)
      | none =>
        cases o with
        | begin =>
          simp only [Conn.run, Conn.outcomes, Conn.step, Conn.begin, Res.isOk, committed]
          exact ih _ _ _ hd hd
        | commit =>
          simp only [Conn.run, Conn.outcomes, Conn.step, Conn.commit, Res.isOk, committed]
          exact ih _ _ _ hd trivial
        | rollback =>
          simp only [Conn.run, Conn.outcomes, Conn.step, Conn.rollback, Res.isOk, committed]
          exact ih _ _ _ hd trivial
        | crash =>
          simp only [Conn.run, Conn.outcomes, Conn.step, Conn.crash, Res.isOk, committed]
          exact ih _ _ _ (hd.congr ⟨rfl, rfl, rfl⟩) trivial
        | call k =>
          simp only [Conn.run, Conn.outcomes, Conn.step, Conn.exec]
          rcases k.run_cases H dur with ⟨e, hs⟩ | ⟨e, hs⟩
          · simp only [e, Res.isOk, committed]
            exact ih _ _ _ (hd.congr hs) trivial
          · simp only [e, Res.isOk, committed, List.foldl_cons]
            exact ih _ _ _ ((rep_eff hd k).congr hs) trivial
    | some w =>
      cases p with
      | none => exact absurd hw (by simp)
      | some p =>
        simp only at hw
        cases o with
        | begin =>
          simp only [Conn.run, Conn.outcomes, Conn.step, Conn.begin, Res.isOk, committed]
          exact ih _ _ _ hd hw
        | commit =>
          simp only [Conn.run, Conn.outcomes, Conn.step, Conn.commit]
          split
          · simp only [Res.isOk, committed]
            exact ih _ _ _ hd (Rep.congr hw ⟨rfl, rfl, rfl⟩)
          · simp only [Res.isOk, committed, List.foldl_append]
            exact ih _ _ none (Rep.congr hw ⟨rfl, rfl, rfl⟩) trivial
        | rollback =>
          simp only [Conn.run, Conn.outcomes, Conn.step, Conn.rollback, Res.isOk, committed]
          exact ih _ _ none (hd.congr ⟨rfl, rfl, rfl⟩) trivial
        | crash =>
          simp only [Conn.run, Conn.outcomes, Conn.step, Conn.crash, Res.isOk, committed]
          exact ih _ _ none (hd.congr ⟨rfl, rfl, rfl⟩) trivial
        | call k =>
          simp only [Conn.run, Conn.outcomes, Conn.step, Conn.exec]
          rcases k.run_cases H w with ⟨e, hs⟩ | ⟨e, hs⟩
          · simp only [e, Res.isOk, committed]
            exact ih _ _ _ hd (Rep.congr hw hs)
          · simp only [e, Res.isOk, committed]
            refine ih _ _ (some (p ++ [k])) hd ?_
            simp only [List.foldl_append, List.foldl_cons, List.foldl_nil]
            exact (rep_eff hw k).congr hs

end Snap
