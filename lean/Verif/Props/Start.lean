import Verif.Props.Failing
import Verif.Props.Progress
import Verif.Props.Clean
/-! Property C102: processes that do not start or end as they should, in particular commands that run without their transaction. -/
namespace Snap.Props
open Snap
set_option linter.unusedSectionVars false
variable [Serde] [LawfulSerde]

/-! ### What a failing command has written -/

/-- The refs and HEAD are left alone. -/
def Quiet {α} (x : C α) : Prop := ∀ s, (x s).2.db.state = s.db.state ∧ (x s).2.db.reflog = s.db.reflog
/-- The refs and HEAD are left alone unless all goes well. -/
def RefsLast {α} (x : C α) : Prop := ∀ s, (∀ a, (x s).1 ≠ .ok a) → (x s).2.db.state = s.db.state ∧ (x s).2.db.reflog = s.db.reflog

theorem Quiet.refsLast {α} {x : C α} (h : Quiet x) : RefsLast x := fun s _ => h s

theorem refsLast_bind {α β} {x : C α} {f : α → C β} (hx : Quiet x) (hf : ∀ a, RefsLast (f a)) : RefsLast (x >>= f) := by
  intro s h
  rw [SM.bind_apply] at h ⊢
  have hq := hx s
  cases hs : x s with
  | mk r s' =>
    rw [hs] at hq h
    cases r with
    | ok a =>
      have := hf a s' h
      exact ⟨this.1.trans hq.1, this.2.trans hq.2⟩
    | err e => exact hq
    | panic => exact hq
    | fuel => exact hq

theorem puts_quiet {H : Bytes → Key} {cs : List Call} (h : ∀ c ∈ cs, c.isPut) (d : Db) : (runCalls H cs d).state = d.state ∧ (runCalls H cs d).reflog = d.reflog := by
  induction cs generalizing d with
  | nil => exact ⟨rfl, rfl⟩
  | cons c cs ih =>
    have hc := h c (by simp)
    have ih := ih (fun c hc => h c (by simp [hc])) (c.run H d).2
    rw [runCalls]
    refine ⟨ih.1.trans ?_, ih.2.trans ?_⟩ <;>
    · cases c with
      | put b =>
        simp only [Call.run, SM.bind_apply]
        rcases put_cases H b d with e | e <;> rw [e] <;> rfl
      | _ => exact hc.elim

theorem quiet_traced {α} {H : Bytes → Key} {x : C α} (h : Traced Sys.db H Call.isPut x) : Quiet x := by
  intro s
  obtain ⟨cs, g1, g2, _⟩ := h s trivial trivial
  rw [g2]
  exact puts_quiet g1 _

theorem refsLast_write {f : Db → Db} : RefsLast (onDb (write f)) := by
  intro s h
  rcases write_cases f s.db with ⟨fs, _, e⟩ | e
  · have : (onDb (write f) s) = (.err .sqlite, { s with db := { s.db with faults := fs } }) := by
      show (_, { s with db := (write f s.db).2 }) = _
      rw [e]
    rw [this]
    exact ⟨rfl, rfl⟩
  · exact (h () (by show (write f s.db).1 = _; rw [e])).elim

theorem refsLast_command (X : Ctx) (R : Repo) (cmd : Command) : RefsLast (cmd.inRepo X R) := by
  have hm := traced_command X R cmd
  have q1 : ∀ {α} (f : Db → Res α), Quiet (readDb f) := fun f => quiet_traced (H := X.E.H) (traced_readDb f)
  cases cmd with
  | commit path message refname =>
    exact refsLast_bind (q1 _) fun r => refsLast_bind (q1 _) fun ps => refsLast_bind (quiet_traced (traced_put_onDb X R _)) fun key =>
      refsLast_bind (quiet_traced (H := X.E.H) (traced_onDb (traced_isPuts (isPuts_commitTree _ _ _ _)))) fun ck => refsLast_write
  | checkoutHead refname =>
    refine refsLast_bind (q1 _) fun h => refsLast_bind (fun s => ⟨rfl, rfl⟩) fun o => refsLast_bind (q1 _) fun t => refsLast_bind (quiet_traced (traced_compareWork X R _ _)) fun r => ?_
    split
    · intro s h
      rw [SM.bind_apply] at h ⊢
      have hl := refsLast_write (f := fun db => { db with state := insertReplace db.state sHEAD refname }) s
      change (∀ a, (onDb (putHead refname) s).1 ≠ .ok a) → (onDb (putHead refname) s).2.db.state = s.db.state ∧ (onDb (putHead refname) s).2.db.reflog = s.db.reflog at hl
      cases hs : onDb (putHead refname) s with
      | mk r s' =>
        rw [hs] at h hl
        cases r with
        | ok a => exact (h () rfl).elim
        | err e => exact hl (by simp)
        | panic => exact hl (by simp)
        | fuel => exact hl (by simp)
    · exact refsLast_bind (quiet_traced (H := X.E.H) (traced_emit _)) fun _ => (quiet_traced (H := X.E.H) (traced_emit _)).refsLast
  | refUpdate key refname => exact refsLast_bind (q1 _) fun k => refsLast_bind (q1 _) fun r => refsLast_write
  | reflogPush key refname remote => exact refsLast_bind (q1 _) fun k => refsLast_write
  | setHead refname => exact refsLast_write
  | insert path => exact (quiet_traced hm).refsLast
  | compare path key stat => exact (quiet_traced hm).refsLast
  | status => exact (quiet_traced hm).refsLast
  | commitTree tree parents => exact (quiet_traced hm).refsLast
  | _ => exact (quiet_traced (H := X.E.H) (traced_mono hm fun _ h => h.elim)).refsLast

/-! ### The theorems -/

/-- **C102**: if the callback cannot be registered, the cache not opened or its transaction not begun, the process ends with an error of its own (status 1) or a panic, having
printed nothing, and changes nothing; so success means that all of this worked. -/
theorem C102_stops (st : Starts) (X : Ctx) (cmd : Command) (w : World) (h : ¬ st.ready) :
    (mainStart st X cmd w).2 = ([], w) ∧ (mainStart st X cmd w).1 ≠ .success ∧ (∀ e, (mainStart st X cmd w).1 ≠ .fatal e) ∧
      (st.callback = false → (mainStart st X cmd w).1 = .failure .sqlite) := by
  rcases mainStart_cases st X cmd w with ⟨_, h1, h2⟩ | ⟨h', _⟩ | ⟨h', _⟩
  · refine ⟨h1, ?_, ?_, fun hc => by simp [mainStart, hc]⟩
    · rcases h2 with ⟨e, h2⟩ | h2 | h2 <;> simp [h2]
    · rcases h2 with ⟨e, h2⟩ | h2 | h2 <;> simp [h2]
  · exact (h h').elim
  · exact (h h').elim

/-- **C102**: a process that starts and has its transaction does what it does in a world where nothing of this fails, whether or not `ROLLBACK` on the database fails. If
`ROLLBACK` on the cache fails, only the status differs, and only after `fatal: …`: it is 1 instead of 0. -/
theorem C102_usual (st : Starts) (X : Ctx) (cmd : Command) (w : World) (h : st.ready) (hb : st.begins = true) :
    (mainStart st X cmd w).2 = (mainRun X cmd w).2 ∧
    ((mainStart st X cmd w).1 = (mainRun X cmd w).1 ∨ (st.cacheRollsBack = false ∧ (∃ e, (mainRun X cmd w).1 = .fatal e) ∧ (mainStart st X cmd w).1 = .failure .sqlite)) := by
  rcases mainStart_cases st X cmd w with ⟨h', _⟩ | ⟨_, e⟩ | ⟨_, hb', _⟩
  · exact (h' h).elim
  · rw [e]
    refine ⟨rfl, ?_⟩
    show st.exit _ = _ ∨ _
    cases hx : (mainRun X cmd w).1 with
    | fatal e =>
      cases hc : st.cacheRollsBack with
      | true => left; simp [Starts.exit, hc]
      | false => right; exact ⟨rfl, ⟨_, rfl⟩, by simp [Starts.exit, hc]⟩
    | _ => left; rfl
  · rw [hb] at hb'; cases hb'

/-- **C102**: without its transaction a command prints the same, ends alike and does the same to files, cache and all other databases; in its database all that it wrote
stays, whether it ends well or not. -/
theorem C102_unheld (st : Starts) (X : Ctx) (cmd : Command) (hc : cmd ≠ .init) (w : World) (R : Repo) (q : List Bytes) (ho : Opens X w R q) (h : st.ready) (hb : st.begins = false) :
    mainStart st X cmd w = (st.exit (mainRun X cmd w).1, (mainRun X cmd w).2.1, (mainRun X cmd w).2.2.setDb q (cmd.inRepo X R (startOf w q)).2.db) ∧
    ((cmd.inRepo X R (startOf w q)).1 = .ok () → commitOk (cmd.inRepo X R (startOf w q)).2.db → ∀ q', SameTables ((mainStart st X cmd w).2.2.dbs q') ((mainRun X cmd w).2.2.dbs q')) := by
  have e : mainStart st X cmd w = (st.exit (mainRun X cmd w).1, (mainRun X cmd w).2.1, (mainRun X cmd w).2.2.setDb q (cmd.inRepo X R (startOf w q)).2.db) := by
    have e' : mainStart st X cmd w = runStarted st X R q cmd w := by
      obtain ⟨h1, h2, h3⟩ := h
      obtain ⟨g1, g2, g3⟩ := ho
      simp only [mainStart, h1, h2, h3, Bool.not_true, Bool.false_eq_true, if_false, g1, g2, g3]
      cases cmd <;> first | exact (hc rfl).elim | rfl
    rw [e', runStarted_unheld hb, mainRun_open hc ho]
  refine ⟨e, fun hr hk q' => ?_⟩
  rw [e]
  simp only [World.setDb]
  split
  · rename_i hq
    subst hq
    rw [mainRun_open hc ho]
    exact (runIn_committed X R q' cmd w () hr hk).1.symm
  · exact SameTables.refl _

/-- **C102**: whatever fails: if the command does not end well (`fatal: …` or a panic), HEAD and all refs in every database are as before, and every database still has all
its rows, in the same order; at most rows of new objects are added. So a transaction is only needed to get rid of objects that nothing refers to. -/
theorem C102_refs (st : Starts) (X : Ctx) (cmd : Command) (hc : cmd ≠ .init) (w : World)
    (h : (∃ e, (mainStart st X cmd w).1 = .fatal e) ∨ (mainStart st X cmd w).1 = .panicked ∨ (mainStart st X cmd w).1 = .fuel) (q : List Bytes) :
    ((mainStart st X cmd w).2.2.dbs q).state = (w.dbs q).state ∧ ((mainStart st X cmd w).2.2.dbs q).reflog = (w.dbs q).reflog ∧
      (w.dbs q).data <+: ((mainStart st X cmd w).2.2.dbs q).data ∧ ((st.begins = true) → ((mainStart st X cmd w).2.2.dbs q).data = (w.dbs q).data) := by
  have hx : ∀ x : Exit, ((∃ e, st.exit x = .fatal e) ∨ st.exit x = .panicked ∨ st.exit x = .fuel) → ((∃ e, x = .fatal e) ∨ x = .panicked ∨ x = .fuel) := by
    intro x hx
    cases x with
    | success => simp [Starts.exit] at hx
    | failure e => simp [Starts.exit] at hx
    | fatal e => exact .inl ⟨e, rfl⟩
    | panicked => exact .inr (.inl rfl)
    | fuel => exact .inr (.inr rfl)
  rcases mainStart_cases st X cmd w with ⟨_, e, _⟩ | ⟨_, e⟩ | ⟨hr, hb, _, R, q', ho, _⟩
  · rw [e]; exact ⟨rfl, rfl, List.prefix_refl _, fun _ => rfl⟩
  · rw [e] at h ⊢
    have := C41_failed X cmd hc w (hx _ h) q
    exact ⟨this.2.1, this.2.2, by rw [this.1]; exact List.prefix_refl _, fun _ => this.1⟩
  · obtain ⟨e, _⟩ := C102_unheld st X cmd hc w R q' ho hr hb
    rw [e] at h ⊢
    have hf := hx _ h
    refine ⟨?_, ?_, ?_, fun hb' => by rw [hb] at hb'; cases hb'⟩
    all_goals
      simp only [World.setDb]
      by_cases hq : q = q'
      · subst hq
        simp only [if_true]
        have hn : ∀ a, (cmd.inRepo X R (startOf w q)).1 ≠ .ok a := by
          intro a ha
          rw [mainRun_open hc ho] at hf
          have : (runIn X R q cmd w).1 = exitOf (cmd.inRepo X R (startOf w q)).1 (Cache.finish (cmd.inRepo X R (startOf w q)).1 w.cache (cmd.inRepo X R (startOf w q)).2.cache).1 := rfl
          rw [this, ha] at hf
          simp only [exitOf] at hf
          split at hf <;> simp at hf
        first
        | exact (refsLast_command X R cmd (startOf w q) hn).1
        | exact (refsLast_command X R cmd (startOf w q) hn).2
        | (obtain ⟨cs, _, g2, _⟩ := traced_command X R cmd (startOf w q) trivial trivial
           rw [g2]
           exact runCalls_data_prefix _ _ _)
      · simp only [hq, if_false]
        rw [mainRun_open hc ho, runIn_dbs X R q' cmd w q hq]
        try exact List.prefix_refl _

/-- **C102**: whatever fails, from a world the program can reach it comes to such a world: nothing dangles, all objects are still there and the history of every ref is
continued. (These worlds include the ones left by processes that went without a transaction, any number of them.) -/
theorem C102_safe (st : Starts) (X : Ctx) (cmd : Command) {w : World} (h : w.Reachable X.E.H) (q : List Bytes) :
    (mainStart st X cmd w).2.2.Reachable X.E.H ∧ Spec.NoDangling ((mainStart st X cmd w).2.2.dbs q) ∧
    (∀ k v, rawGet (w.dbs q) k = .ok v → rawGet ((mainStart st X cmd w).2.2.dbs q) k = .ok v) ∧
    ∀ n r ks, reflogWalk (w.dbs q) n r = .ok ks → ∃ new, reflogWalk ((mainStart st X cmd w).2.2.dbs q) n r = .ok (new ++ ks) := by
  have hs : World.Step X.E.H w (mainStart st X cmd w).2.2 := .started st X rfl cmd w _ fun _ => SameDb.refl _
  have hr := World.Reachable.step h hs
  have hk := C43_kept (World.Steps.tail (.refl w) hs) q
  exact ⟨hr, C40_no_dangling hr q, hk.1, hk.2⟩

/-! ### Doing it again -/

/-- The rows after putting these byte strings. -/
def rowsOf (H : Bytes → Key) (ws : List Bytes) (l : List (Bytes × Bytes)) : List (Bytes × Bytes) := ws.foldl (fun l w => insertIgnore l (H w).asDbKey w) l

theorem rowsOf_append (H : Bytes → Key) (a b : List Bytes) (l : List (Bytes × Bytes)) : rowsOf H (a ++ b) l = rowsOf H b (rowsOf H a l) := List.foldl_append

theorem rowsOf_mono (H : Bytes → Key) (ws : List Bytes) (l : List (Bytes × Bytes)) : l <+: rowsOf H ws l := by
  induction ws generalizing l with
  | nil => exact List.prefix_refl _
  | cons w ws ih => exact (insertIgnore_prefix l _ w).trans (ih _)

theorem rowsOf_have (H : Bytes → Key) (ws : List Bytes) (l : List (Bytes × Bytes)) : ∀ w ∈ ws, ∃ row ∈ rowsOf H ws l, row.1 = (H w).asDbKey := by
  induction ws generalizing l with
  | nil => simp
  | cons x ws ih =>
    intro w hw
    rcases List.mem_cons.mp hw with rfl | hw
    · rcases insertIgnore_cases l (H w).asDbKey w with ⟨⟨r, hr, he⟩, _⟩ | ⟨_, e⟩
      · exact ⟨r, (rowsOf_mono H (w :: ws) l).subset hr, he⟩
      · refine ⟨((H w).asDbKey, w), (rowsOf_mono H ws _).subset ?_, rfl⟩
        show _ ∈ insertIgnore l (H w).asDbKey w
        rw [e]; simp
    · exact ih _ w hw

theorem rowsOf_had (H : Bytes → Key) (ws : List Bytes) (l : List (Bytes × Bytes)) (h : ∀ w ∈ ws, ∃ row ∈ l, row.1 = (H w).asDbKey) : rowsOf H ws l = l := by
  induction ws with
  | nil => rfl
  | cons x ws ih =>
    have e : insertIgnore l (H x).asDbKey x = l := by
      rcases insertIgnore_cases l (H x).asDbKey x with ⟨_, e⟩ | ⟨hn, _⟩
      · exact e
      · obtain ⟨r, hr, he⟩ := h x (by simp)
        exact (hn r hr he).elim
    show rowsOf H ws (insertIgnore l (H x).asDbKey x) = l
    rw [e]
    exact ih fun w hw => h w (by simp [hw])

theorem execPuts_rows {α} (H : Bytes → Key) (ws : List Bytes) (r : Res α) (db : Db) : ∃ ws', ws' <+: ws ∧ (execPuts H ws r db).2.data = rowsOf H ws' db.data := by
  induction ws generalizing db with
  | nil => exact ⟨[], List.prefix_refl _, rfl⟩
  | cons w ws ih =>
    rw [execPuts_cons]
    rcases put_cases H w db with e | e
    · rw [e]; exact ⟨[], List.nil_prefix, rfl⟩
    · rw [e]
      obtain ⟨ws', h1, h2⟩ := ih { db with hashed := w :: db.hashed, faults := db.faults.tail, data := insertIgnore db.data (H w).asDbKey w }
      exact ⟨w :: ws', List.cons_prefix_cons.mpr ⟨rfl, h1⟩, h2⟩

theorem execPuts_all {α} (H : Bytes → Key) (ws : List Bytes) (r : Res α) (db : Db) (h : db.faults = []) : (execPuts H ws r db).2.data = rowsOf H ws db.data := by
  induction ws generalizing db with
  | nil => rfl
  | cons w ws ih =>
    rw [execPuts_cons, put_nofault h]
    exact ih { db with hashed := w :: db.hashed, data := insertIgnore db.data (H w).asDbKey w } h

/-- A sequence of puts that was broken off, done again. -/
theorem puts_again {α} {H : Bytes → Key} {x : M α} (hx : IsPuts H x) (db d' : Db) (hd : d'.data = (x db).2.data ∨ d'.data = db.data) (hf : d'.faults = []) :
    (x d').1 = (x { db with faults := [] }).1 ∧ (x d').2.data = (x { db with faults := [] }).2.data ∧ (x d').2.faults = [] ∧ (x { db with faults := [] }).2.faults = [] := by
  obtain ⟨ws, r, hx⟩ := hx
  rw [hx db] at hd
  rw [hx, hx]
  have n1 := execPuts_nofault H ws r d' hf
  have n2 := execPuts_nofault H ws r { db with faults := [] } rfl
  refine ⟨n1.1.trans n2.1.symm, ?_, n1.2, n2.2⟩
  rw [execPuts_all H ws r d' hf, execPuts_all H ws r { db with faults := [] } rfl]
  rcases hd with hd | hd
  · rw [hd]
    obtain ⟨ws', ⟨t, rfl⟩, e⟩ := execPuts_rows H ws r db
    rw [e, rowsOf_append, rowsOf_append, rowsOf_had H ws' _ (rowsOf_have H ws' db.data)]
  · rw [hd]

/-- What `insert` and `commit` make of databases with the same refs. -/
def Redo (X : Ctx) (R : Repo) (cmd : Command) : Prop := ∀ (s : Sys) (d' : Db), d'.data = (cmd.inRepo X R s).2.db.data ∨ d'.data = s.db.data → d'.state = s.db.state → d'.reflog = s.db.reflog → d'.faults = [] →
    let a := cmd.inRepo X R { s with db := d' }
    let b := cmd.inRepo X R { s with db := { s.db with faults := [] } }
    a.1 = b.1 ∧ a.2.out = b.2.out ∧ a.2.fs = b.2.fs ∧ a.2.cache = b.2.cache ∧ SameTables a.2.db b.2.db ∧ a.2.db.faults = [] ∧ b.2.db.faults = []

theorem redo_insert (X : Ctx) (R : Repo) (path : Path) : Redo X R (.insert path) := by
  intro s d' hd hs hr hf
  have hP := isPuts_putFsItem X.E s.fs (makeFilter X.glob R.folder) X.depth path
  have hdata : (Command.inRepo X R (.insert path) s).2.db.data = (putFsItem X.E s.fs (makeFilter X.glob R.folder) X.depth path s.db).2.data := by
    rw [run_insert]
    split <;> (rename_i h; rw [h])
  rw [hdata] at hd
  have h := puts_again hP s.db d' hd hf
  have g1 := hP.grow d'
  have g2 := hP.grow { s.db with faults := [] }
  intro a b
  have ea : a = _ := run_insert X R path { s with db := d' }
  have eb : b = _ := run_insert X R path { s with db := { s.db with faults := [] } }
  rw [ea, eb]
  simp only at h g1 g2 ⊢
  have hst := g1.state.trans (hs.trans g2.state.symm)
  have hrl := g1.reflog.trans (hr.trans g2.reflog.symm)
  revert h hst hrl
  generalize putFsItem X.E s.fs (makeFilter X.glob R.folder) X.depth path d' = u
  generalize putFsItem X.E s.fs (makeFilter X.glob R.folder) X.depth path { s.db with faults := [] } = v
  obtain ⟨u, ud⟩ := u
  obtain ⟨v, vd⟩ := v
  rintro ⟨h1, h2, h3, h4⟩ hst hrl
  simp only at h1 h2 h3 h4 hst hrl
  subst h1
  cases u <;> exact ⟨rfl, rfl, rfl, rfl, ⟨h2, hst, hrl⟩, h3, h4⟩

/-- Puts, then an entry of a ref. -/
theorem push_again {H : Bytes → Key} {x : M Key} (hx : IsPuts H x) (n : Bytes) (db d' : Db) (hd : d'.data = ((x >>= fun k => reflogPush n none k) db).2.data ∨ d'.data = db.data) (hs : d'.state = db.state)
    (hr : d'.reflog = db.reflog) (hf : d'.faults = []) :
    let a := (x >>= fun k => reflogPush n none k) d'
    let b := (x >>= fun k => reflogPush n none k) { db with faults := [] }
    a.1 = b.1 ∧ SameTables a.2 b.2 ∧ a.2.faults = [] ∧ b.2.faults = [] := by
  have hdata : ((x >>= fun k => reflogPush n none k) db).2.data = (x db).2.data := by
    rw [SM.bind_apply]
    cases hx : x db with
    | mk r d =>
      cases r with
      | ok k =>
        simp only
        unfold reflogPush
        rcases write_cases (fun db => { db with reflog := db.reflog ++ [⟨n, none, k.asDbKey⟩] }) d with ⟨fs, _, e⟩ | e <;> rw [e]
      | err e => rfl
      | panic => rfl
      | fuel => rfl
  rw [hdata] at hd
  have h := puts_again hx db d' hd hf
  have g1 := hx.grow d'
  have g2 := hx.grow { db with faults := [] }
  intro a b
  have ea : a = _ := SM.bind_apply _ _ _
  have eb : b = _ := SM.bind_apply _ _ _
  rw [ea, eb]
  have hst := g1.state.trans (hs.trans g2.state.symm)
  have hrl := g1.reflog.trans (hr.trans g2.reflog.symm)
  revert h hst hrl
  generalize x d' = u
  generalize x { db with faults := [] } = v
  obtain ⟨u, ud⟩ := u
  obtain ⟨v, vd⟩ := v
  rintro ⟨h1, h2, h3, h4⟩ hst hrl
  simp only at h1 h2 h3 h4 hst hrl
  subst h1
  cases u with
  | ok k =>
    simp only [reflogPush]
    rw [write_nofault _ h3, write_nofault _ h4]
    exact ⟨rfl, ⟨h2, hst, by rw [hrl]⟩, h3, h4⟩
  | err e => exact ⟨rfl, ⟨h2, hst, hrl⟩, h3, h4⟩
  | panic => exact ⟨rfl, ⟨h2, hst, hrl⟩, h3, h4⟩
  | fuel => exact ⟨rfl, ⟨h2, hst, hrl⟩, h3, h4⟩

theorem refOrHead_same {a b : Db} (h : a.state = b.state) (n : Option Bytes) : refOrHead a n = refOrHead b n := by
  cases n with
  | some n => rfl
  | none => simp only [refOrHead, headName, getHead, rawGetState, h]

theorem parentsOf_same {a b : Db} (h : a.reflog = b.reflog) (n : Bytes) : parentsOf a n = parentsOf b n := by
  simp only [parentsOf, reflogGet, refRows, h]

theorem redo_commit (X : Ctx) (R : Repo) (path : Option Path) (message : Bytes) (refname : Option Bytes) : Redo X R (.commit path message refname) := by
  intro s d' hd hs hr hf
  have e1 := refOrHead_same hs refname
  have stop : ∀ {r : Res Unit}, (∀ v : Sys, refOrHead v.db refname = refOrHead s.db refname → (∀ n, parentsOf v.db n = parentsOf s.db n) →
      (Command.commit path message refname).inRepo X R v = (r, v)) →
      let a := (Command.commit path message refname).inRepo X R { s with db := d' }
      let b := (Command.commit path message refname).inRepo X R { s with db := { s.db with faults := [] } }
      a.1 = b.1 ∧ a.2.out = b.2.out ∧ a.2.fs = b.2.fs ∧ a.2.cache = b.2.cache ∧ SameTables a.2.db b.2.db ∧ a.2.db.faults = [] ∧ b.2.db.faults = [] := by
    intro r h a b
    have h0 := h s rfl fun _ => rfl
    have ha : a = _ := h { s with db := d' } e1 fun n => parentsOf_same hr n
    have hb : b = _ := h { s with db := { s.db with faults := [] } } rfl fun n => rfl
    rw [h0] at hd
    rw [ha, hb]
    exact ⟨rfl, rfl, rfl, rfl, ⟨by rcases hd with hd | hd <;> exact hd, hs, hr⟩, hf, rfl⟩
  cases h1 : refOrHead s.db refname with
  | ok n =>
    cases h2 : parentsOf s.db n with
    | ok ps =>
      have hx : IsPuts X.E.H (putFsItem X.E s.fs (makeFilter X.glob R.folder) X.depth (path.getD R.root) >>= fun key => Snap.commitTree X.E.H key ps { message := message }) :=
        isPuts_bind (isPuts_putFsItem _ _ _ _ _) fun key => isPuts_commitTree _ _ _ _
      have run : ∀ d : Db, refOrHead d refname = .ok n → parentsOf d n = .ok ps → (Command.commit path message refname).inRepo X R { s with db := d } =
          onDb ((putFsItem X.E s.fs (makeFilter X.glob R.folder) X.depth (path.getD R.root) >>= fun key => Snap.commitTree X.E.H key ps { message := message }) >>= fun k => reflogPush n none k)
            { s with db := d } := by
        intro d g1 g2
        rw [run_commit X R path message refname { s with db := d } g1 g2, bind_assoc]
      have h0 := run s.db h1 h2
      have ha := run d' (e1.trans h1) ((parentsOf_same hr n).trans h2)
      have hb := run { s.db with faults := [] } h1 h2
      change (Command.commit path message refname).inRepo X R s = _ at h0
      rw [h0] at hd
      intro a b
      have ha' : a = _ := ha
      have hb' : b = _ := hb
      rw [ha', hb']
      have := push_again hx n s.db d' hd hs hr hf
      exact ⟨this.1, rfl, rfl, rfl, this.2.1, this.2.2.1, this.2.2.2⟩
    | err e =>
      refine stop (r := .err e) fun v g1 g2 => ?_
      show cmdCommit X R path message refname v = _
      unfold cmdCommit
      rw [readDb_bind, g1, h1]
      simp only
      rw [readDb_bind, g2, h2]
    | panic =>
      refine stop (r := .panic) fun v g1 g2 => ?_
      show cmdCommit X R path message refname v = _
      unfold cmdCommit
      rw [readDb_bind, g1, h1]
      simp only
      rw [readDb_bind, g2, h2]
    | fuel =>
      refine stop (r := .fuel) fun v g1 g2 => ?_
      show cmdCommit X R path message refname v = _
      unfold cmdCommit
      rw [readDb_bind, g1, h1]
      simp only
      rw [readDb_bind, g2, h2]
  | err e =>
    refine stop (r := .err e) fun v g1 g2 => ?_
    show cmdCommit X R path message refname v = _
    unfold cmdCommit
    rw [readDb_bind, g1, h1]
  | panic =>
    refine stop (r := .panic) fun v g1 g2 => ?_
    show cmdCommit X R path message refname v = _
    unfold cmdCommit
    rw [readDb_bind, g1, h1]
  | fuel =>
    refine stop (r := .fuel) fun v g1 g2 => ?_
    show cmdCommit X R path message refname v = _
    unfold cmdCommit
    rw [readDb_bind, g1, h1]

/-- No write to the database at `q` fails any more. -/
def Spec.mended (w : World) (q : List Bytes) : World := w.setDb q { w.dbs q with faults := [] }

theorem finish_tables {r : Res Unit} {d d' v v' : Db} (h : SameTables v v') (hd : (∀ u, r ≠ .ok u) → SameTables d d') (hf : v.faults = []) (hf' : v'.faults = []) :
    SameTables (Conn.finish r (Conn.mk d (some v))).durable (Conn.finish r (Conn.mk d' (some v'))).durable := by
  cases r with
  | ok u => simp only [Conn.finish, Conn.commit, hf, hf']; exact h
  | err e => exact hd (by simp)
  | panic => exact hd (by simp)
  | fuel => exact hd (by simp)

/-- A world with the same files and cache, and at most rows that the command had written. -/
theorem again_alike {X : Ctx} {cmd : Command} (hi : cmd ≠ .init) {R : Repo} (hre : Redo X R cmd) {w v : World} {q : List Bytes} (ho : Opens X w R q) (hfs : v.fs = w.fs) (hca : v.cache = w.cache)
    (hdb : ∀ q', q' ≠ q → v.dbs q' = w.dbs q') (hd : (v.dbs q).data = (cmd.inRepo X R (startOf w q)).2.db.data ∨ (v.dbs q).data = (w.dbs q).data) (hs : (v.dbs q).state = (w.dbs q).state)
    (hr : (v.dbs q).reflog = (w.dbs q).reflog) :
    let a := mainRun X cmd (Spec.mended v q)
    let b := mainRun X cmd (Spec.mended w q)
    a.1 = b.1 ∧ a.2.1 = b.2.1 ∧ a.2.2.fs = b.2.2.fs ∧ a.2.2.cache = b.2.2.cache ∧
      (b.1 = .success → ∀ q', SameTables (a.2.2.dbs q') (b.2.2.dbs q')) ∧ ((v.dbs q).data = (w.dbs q).data → ∀ q', SameTables (a.2.2.dbs q') (b.2.2.dbs q')) := by
  have hoa : Opens X (Spec.mended v q) R q := by
    obtain ⟨h1, h2, h3⟩ := ho
    refine ⟨?_, h2, ?_⟩
    · show findDbFolder v.fs X.dbPath = _; rw [hfs]; exact h1
    · show openDb v.fs R.folder = _; rw [hfs]; exact h3
  have hob : Opens X (Spec.mended w q) R q := ho
  have hrun : ∀ u : World, runIn X R q cmd u = (let s := cmd.inRepo X R (startOf u q)
      let ca := Cache.finish s.1 u.cache s.2.cache
      (exitOf s.1 ca.1, s.2.out, World.setDb { u with fs := s.2.fs, cache := ca.2 } q (Conn.finish s.1 (Conn.mk (u.dbs q) (some s.2.db))).durable)) := fun _ => rfl
  have key := hre (startOf w q) { v.dbs q with faults := [] } hd hs hr rfl
  have ea : startOf (Spec.mended v q) q = { startOf w q with db := { v.dbs q with faults := [] } } := by
    simp only [startOf, Spec.mended, World.setDb, if_true, hfs, hca]
  have eb : startOf (Spec.mended w q) q = { startOf w q with db := { (startOf w q).db with faults := [] } } := by
    simp only [startOf, Spec.mended, World.setDb, if_true]
  intro a b
  have ha : a = _ := (mainRun_open hi hoa).trans (hrun _)
  have hb : b = _ := (mainRun_open hi hob).trans (hrun _)
  rw [ea] at ha
  rw [eb] at hb
  rw [ha, hb]
  simp only at key ⊢
  revert key
  generalize cmd.inRepo X R { startOf w q with db := { v.dbs q with faults := [] } } = x
  generalize cmd.inRepo X R { startOf w q with db := { (startOf w q).db with faults := [] } } = y
  obtain ⟨rx, x⟩ := x
  obtain ⟨ry, y⟩ := y
  rintro ⟨h1, h2, h3, h4, h5, h6, h7⟩
  simp only at h1 h2 h3 h4 h5 h6 h7
  subst h1
  have hcm : (Spec.mended v q).cache = (Spec.mended w q).cache := hca
  refine ⟨by rw [h4, hcm], h2, h3, by simp only [World.setDb]; rw [h4, hcm], ?_, ?_⟩
  · intro hok q'
    simp only [World.setDb]
    split
    · refine finish_tables h5 (fun hn => ?_) h6 h7
      exfalso
      cases rx with
      | ok u => exact hn u rfl
      | _ => simp [exitOf] at hok
    · rename_i hq
      simp only [Spec.mended, World.setDb, hq, if_false, hdb q' hq]
      exact SameTables.refl _
  · intro hdd q'
    simp only [World.setDb]
    split
    · refine finish_tables h5 (fun hn => ?_) h6 h7
      simp only [Spec.mended, World.setDb, if_true]
      exact ⟨hdd, hs, hr⟩
    · rename_i hq
      simp only [Spec.mended, World.setDb, hq, if_false, hdb q' hq]
      exact SameTables.refl _

/-- **C102**: an `insert` or `commit` that did not end well, with or without its transaction, can simply be run again: where no write fails any more it ends as it would have
ended had the first attempt not taken place, and prints the same; and if it ends well, every database has the same tables, row by row, as without the first attempt. -/
theorem C102_again (st : Starts) (X : Ctx) (cmd : Command) (hc : (∃ p, cmd = .insert p) ∨ ∃ p m r, cmd = .commit p m r) (w : World) (R : Repo) (q : List Bytes) (ho : Opens X w R q)
    (h : (∃ e, (mainStart st X cmd w).1 = .fatal e) ∨ (mainStart st X cmd w).1 = .panicked ∨ (mainStart st X cmd w).1 = .fuel) :
    let a := mainRun X cmd (Spec.mended (mainStart st X cmd w).2.2 q)
    let b := mainRun X cmd (Spec.mended w q)
    a.1 = b.1 ∧ a.2.1 = b.2.1 ∧ a.2.2.fs = b.2.2.fs ∧ a.2.2.cache = b.2.2.cache ∧ (b.1 = .success → ∀ q', SameTables (a.2.2.dbs q') (b.2.2.dbs q')) := by
  have hi : cmd ≠ .init := by rcases hc with ⟨p, rfl⟩ | ⟨p, m, r, rfl⟩ <;> simp
  have hre : Redo X R cmd := by
    rcases hc with ⟨p, rfl⟩ | ⟨p, m, r, rfl⟩
    · exact redo_insert X R p
    · exact redo_commit X R p m r
  have hnf : NoFs (cmd.inRepo X R) := noFs_command X R cmd (by rcases hc with ⟨p, rfl⟩ | ⟨p, m, r, rfl⟩ <;> rfl)
  have hnc : NoCache (cmd.inRepo X R) := noCache_command X R cmd (by rcases hc with ⟨p, rfl⟩ | ⟨p, m, r, rfl⟩ <;> rfl)
  have hx : ∀ x : Exit, ((∃ e, st.exit x = .fatal e) ∨ st.exit x = .panicked ∨ st.exit x = .fuel) → ((∃ e, x = .fatal e) ∨ x = .panicked ∨ x = .fuel) := by
    intro x hx
    cases x with
    | success => simp [Starts.exit] at hx
    | failure e => simp [Starts.exit] at hx
    | fatal e => exact .inl ⟨e, rfl⟩
    | panicked => exact .inr (.inl rfl)
    | fuel => exact .inr (.inr rfl)
  have hrefs := C102_refs st X cmd hi w h q
  have hin : ((∃ e, (mainRun X cmd w).1 = .fatal e) ∨ (mainRun X cmd w).1 = .panicked ∨ (mainRun X cmd w).1 = .fuel) →
      (mainRun X cmd w).2.2.fs = w.fs ∧ (mainRun X cmd w).2.2.cache = w.cache := by
    rw [mainRun_open hi ho]
    intro hf
    refine ⟨hnf (startOf w q), ?_⟩
    have e : (runIn X R q cmd w).2.2.cache = (Cache.finish (cmd.inRepo X R (startOf w q)).1 w.cache (cmd.inRepo X R (startOf w q)).2.cache).2 := rfl
    have e' : (runIn X R q cmd w).1 = exitOf (cmd.inRepo X R (startOf w q)).1 (Cache.finish (cmd.inRepo X R (startOf w q)).1 w.cache (cmd.inRepo X R (startOf w q)).2.cache).1 := rfl
    have hcc : (cmd.inRepo X R (startOf w q)).2.cache = w.cache := hnc (startOf w q)
    rw [e, hcc]
    rw [e'] at hf
    cases hr : (cmd.inRepo X R (startOf w q)).1 with
    | ok u =>
      rw [hr] at hf
      simp only [exitOf] at hf
      split at hf <;> simp at hf
    | err e => rfl
    | panic => rfl
    | fuel => rfl
  suffices hmain : (mainStart st X cmd w).2.2.fs = w.fs ∧ (mainStart st X cmd w).2.2.cache = w.cache ∧ (∀ q', q' ≠ q → (mainStart st X cmd w).2.2.dbs q' = w.dbs q') ∧
      (((mainStart st X cmd w).2.2.dbs q).data = (cmd.inRepo X R (startOf w q)).2.db.data ∨ ((mainStart st X cmd w).2.2.dbs q).data = (w.dbs q).data) by
    obtain ⟨m1, m2, m3, m4⟩ := hmain
    obtain ⟨a1, a2, a3, a4, a5, _⟩ := again_alike hi hre ho m1 m2 m3 m4 hrefs.1 hrefs.2.1
    exact ⟨a1, a2, a3, a4, a5⟩
  rcases mainStart_cases st X cmd w with ⟨_, e, _⟩ | ⟨_, e⟩ | ⟨hr, hb, _, _⟩
  · rw [e]; exact ⟨rfl, rfl, fun _ _ => rfl, .inr rfl⟩
  · rw [e] at h ⊢
    have hf := hx _ h
    have := hin hf
    refine ⟨this.1, this.2, fun q' hq => ?_, .inr (C41_failed X cmd hi w hf q).1⟩
    show (mainRun X cmd w).2.2.dbs q' = _
    rw [mainRun_open hi ho, runIn_dbs X R q cmd w q' hq]
  · obtain ⟨e, _⟩ := C102_unheld st X cmd hi w R q ho hr hb
    rw [e] at h ⊢
    have := hin (hx _ h)
    refine ⟨this.1, this.2, fun q' hq => ?_, .inl (by simp [World.setDb])⟩
    simp only [World.setDb, hq, if_false]
    rw [mainRun_open hi ho, runIn_dbs X R q cmd w q' hq]

end Snap.Props
