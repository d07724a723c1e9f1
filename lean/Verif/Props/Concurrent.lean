import Verif.Model.Sched
import Verif.Props.Commands
/-!
C70: processes running at the same time have the effect of the committed ones running one after the other.
-/
namespace Snap.Props
open Snap
set_option linter.unusedSectionVars false
variable [Serde] [LawfulSerde]

/-- Running a process with nobody else around, on the database `d`, with a successful COMMIT. -/
def _root_.Snap.Proc.alone (H : Bytes → Key) (p : Proc) (d : Db) : Db :=
  let v := runCalls H (p.calls (p.sees d)) (p.sees d)
  { v with faults := v.faults.tail }

/-- Running processes one after the other. -/
def serial (H : Bytes → Key) (P : Nat → Proc) (order : List Nat) (d : Db) : Db := order.foldl (fun d p => (P p).alone H d) d

/-- The processes whose COMMIT wrote something, in that order; what the others saw. -/
structure Serial (H : Bytes → Key) (P : Nat → Proc) (d : Db) (s : Sched) (order : List Nat) : Prop where
  nodup : order.Nodup
  wrote : ∀ p, p ∈ order ↔ ∃ snap, s.procs p = .ended snap true
  durable : s.durable = serial H P order d
  active : ∀ p snap view done todo r, s.procs p = .active snap view done todo r →
    snap = (P p).sees s.durable ∧ view = runCalls H done snap ∧ (P p).calls snap = done ++ todo
  ended : ∀ p snap w, s.procs p = .ended snap w → ∃ a b, order = a ++ b ∧ snap = (P p).sees (serial H P a d) ∧
    (w = true → (P p).ok snap = true ∧ (runCalls H ((P p).calls snap) snap).faults.head? ≠ some true ∧ ∃ b', b = p :: b')

theorem serial_append (H : Bytes → Key) (P : Nat → Proc) (a : List Nat) (p : Nat) (d : Db) : serial H P (a ++ [p]) d = (P p).alone H (serial H P a d) := by
  simp [serial]

theorem nodup_split {α : Type} {a a' b b' : List α} {p : α} (hn : (a ++ p :: b).Nodup) (e : a ++ p :: b = a' ++ p :: b') : a = a' := by
  induction a generalizing a' with
  | nil =>
    cases a' with
    | nil => rfl
    | cons x a' =>
      simp only [List.nil_append, List.cons_append, List.cons.injEq] at e
      obtain ⟨rfl, rfl⟩ := e
      simp at hn
  | cons y a ih =>
    cases a' with
    | nil =>
      simp only [List.nil_append, List.cons_append, List.cons.injEq] at e
      obtain ⟨rfl, _⟩ := e
      simp at hn
    | cons x a' =>
      simp only [List.cons_append, List.cons.injEq] at e
      obtain ⟨rfl, e⟩ := e
      rw [ih (List.nodup_cons.1 hn).2 e]

theorem snoc_induction {α : Type} {K : List α → Prop} (nil : K []) (snoc : ∀ l a, K l → K (l ++ [a])) (l : List α) : K l := by
  have : ∀ l : List α, K l.reverse := by
    intro l
    induction l with
    | nil => exact nil
    | cons a l ih => rw [List.reverse_cons]; exact snoc _ _ ih
  rw [← List.reverse_reverse l]
  exact this _

theorem set_self (s : Sched) (p : Nat) (x : PState) : (s.set p x).procs p = x := by simp [Sched.set]
theorem set_other (s : Sched) {p p' : Nat} (x : PState) (h : p' ≠ p) : (s.set p x).procs p' = s.procs p' := by simp [Sched.set, h]

theorem serial_step {H : Bytes → Key} {P : Nat → Proc} {d : Db} {s s' : Sched} {order : List Nat} (h : Serial H P d s order) (st : Sched.Step H P s s') :
    ∃ more, Serial H P d s' (order ++ more) := by
  cases st with
  | start p hp =>
    refine ⟨[], ?_⟩
    rw [List.append_nil]
    refine ⟨h.nodup, fun i => ?_, h.durable, fun i snap view done todo r hi => ?_, fun i snap w hi => ?_⟩
    · by_cases hip : i = p
      · subst hip; rw [h.wrote, set_self, hp]; simp
      · rw [h.wrote, set_other _ _ hip]
    · by_cases hip : i = p
      · subst hip; rw [set_self] at hi
        cases hi
        exact ⟨rfl, rfl, rfl⟩
      · rw [set_other _ _ hip] at hi; exact h.active i _ _ _ _ _ hi
    · by_cases hip : i = p
      · subst hip; rw [set_self] at hi; cases hi
      · rw [set_other _ _ hip] at hi; exact h.ended i _ _ hi
  | @call p snap₀ view₀ done₀ todo₀ c r₀ hp hl =>
    refine ⟨[], ?_⟩
    rw [List.append_nil]
    refine ⟨h.nodup, fun i => ?_, h.durable, fun i snap view done todo r hi => ?_, fun i snap w hi => ?_⟩
    · by_cases hip : i = p
      · subst hip; rw [h.wrote, set_self, hp]; simp
      · rw [h.wrote, set_other _ _ hip]
    · by_cases hip : i = p
      · subst hip; rw [set_self] at hi
        obtain ⟨h1, h2, h3⟩ := h.active _ _ _ _ _ _ hp
        cases hi
        refine ⟨h1, ?_, by rw [h3]; simp⟩
        rw [runCalls_append, ← h2]; rfl
      · rw [set_other _ _ hip] at hi; exact h.active i _ _ _ _ _ hi
    · by_cases hip : i = p
      · subst hip; rw [set_self] at hi; cases hi
      · rw [set_other _ _ hip] at hi; exact h.ended i _ _ hi
  | @commit p snap₀ view₀ done₀ hp ho hf hl =>
    obtain ⟨h1, h2, h3⟩ := h.active _ _ _ _ _ _ hp
    have hn : p ∉ order := by rw [h.wrote, hp]; simp
    refine ⟨[p], ?_, fun i => ?_, ?_, fun i snap view done todo r hi => ?_, fun i snap w hi => ?_⟩
    · rw [List.nodup_append]
      refine ⟨h.nodup, by simp, fun a ha b hb => ?_⟩
      rw [List.mem_singleton] at hb; subst hb
      rintro rfl; exact hn ha
    · change _ ↔ ∃ snap, (s.set p _).procs i = _
      by_cases hip : i = p
      · subst hip; rw [set_self]; simp
      · rw [set_other _ _ hip, ← h.wrote]; simp [hip]
    · rw [serial_append, ← h.durable, Proc.alone, ← h1, h3, List.append_nil, ← h2]
    · have hi : (s.set p (.ended snap₀ true)).procs i = .active snap view done todo r := hi
      by_cases hip : i = p
      · subst hip; rw [set_self] at hi; cases hi
      · rw [set_other _ _ hip] at hi
        have := hl i hip
        rw [hi] at this; cases this
    · have hi : (s.set p (.ended snap₀ true)).procs i = .ended snap w := hi
      by_cases hip : i = p
      · subst hip; rw [set_self] at hi; cases hi
        exact ⟨order, [i], rfl, by rw [← h.durable]; exact h1, fun _ => ⟨ho, by rw [h3, List.append_nil, ← h2]; exact hf, [], rfl⟩⟩
      · rw [set_other _ _ hip] at hi
        obtain ⟨a, b, e, g, k⟩ := h.ended i _ _ hi
        refine ⟨a, b ++ [p], by rw [e, List.append_assoc], g, fun hw => ?_⟩
        obtain ⟨k1, k2, b', rfl⟩ := k hw
        exact ⟨k1, k2, b' ++ [p], rfl⟩
  | @stop p snap₀ view₀ done₀ todo₀ r₀ hp =>
    obtain ⟨h1, _, _⟩ := h.active _ _ _ _ _ _ hp
    refine ⟨[], ?_⟩
    rw [List.append_nil]
    refine ⟨h.nodup, fun i => ?_, h.durable, fun i snap view done todo r hi => ?_, fun i snap w hi => ?_⟩
    · by_cases hip : i = p
      · subst hip; rw [h.wrote, set_self, hp]; simp
      · rw [h.wrote, set_other _ _ hip]
    · by_cases hip : i = p
      · subst hip; rw [set_self] at hi; cases hi
      · rw [set_other _ _ hip] at hi; exact h.active i _ _ _ _ _ hi
    · by_cases hip : i = p
      · subst hip; rw [set_self] at hi; cases hi
        exact ⟨order, [], by simp, by rw [← h.durable]; exact h1, by simp⟩
      · rw [set_other _ _ hip] at hi; exact h.ended i _ _ hi

/-- C70: however the steps of any number of processes are interleaved, and wherever they fail or are killed, the database file at every moment is what
the processes that committed leave when run one after the other in the order of their COMMITs, each with nobody else around. Every process,
committed or not, has worked on the file as it was between two of them, and this one has not changed before its end. -/
theorem C70_serial {H : Bytes → Key} {P : Nat → Proc} {d : Db} {s : Sched} (h : Sched.Run H P { durable := d } s) : ∃ order, Serial H P d s order := by
  induction h with
  | refl => exact ⟨[], List.nodup_nil, by simp, rfl, by simp, by simp⟩
  | tail _ st ih =>
    obtain ⟨order, ih⟩ := ih
    obtain ⟨more, h⟩ := serial_step ih st
    exact ⟨_, h⟩

/-- C70: at any moment at most one process has unfinished writes; what a process without the lock has in its view are the tables of the file. -/
theorem C70_one_writer {H : Bytes → Key} {P : Nat → Proc} {d : Db} {s : Sched} (h : Sched.Run H P { durable := d } s) :
    (∀ p p', (s.procs p).reserved = true → (s.procs p').reserved = true → p = p') ∧
    ∀ p snap view done todo, s.procs p = .active snap view done todo false → SameTables view s.durable := by
  constructor
  · induction h with
    | refl => simp [PState.reserved]
    | @tail b c hb st ih =>
      have other : ∀ (p : Nat) (x : PState) (d' : Db), (x.reserved = true → ∀ p', p' ≠ p → (b.procs p').reserved = false) →
          ∀ i j, (({ b.set p x with durable := d' } : Sched).procs i).reserved = true → (({ b.set p x with durable := d' } : Sched).procs j).reserved = true → i = j := by
        intro p x d' hx i j hi hj
        have hi : ((b.set p x).procs i).reserved = true := hi
        have hj : ((b.set p x).procs j).reserved = true := hj
        by_cases hip : i = p
        · by_cases hjp : j = p
          · rw [hip, hjp]
          · rw [hip, set_self] at hi
            rw [set_other _ _ hjp, hx hi j hjp] at hj; cases hj
        · rw [set_other _ _ hip] at hi
          by_cases hjp : j = p
          · rw [hjp, set_self] at hj
            rw [hx hj i hip] at hi; cases hi
          · rw [set_other _ _ hjp] at hj; exact ih i j hi hj
      cases st with
      | start p hp => exact other p _ b.durable (by simp [PState.reserved])
      | @call p snap view done todo c r hp hl =>
        refine other p _ b.durable fun hr p' hp' => ?_
        simp only [PState.reserved, Bool.or_eq_true] at hr
        rcases hr with hr | hr
        · cases hc : (b.procs p').reserved with
          | false => rfl
          | true => exact absurd (ih p' p hc (by rw [hp]; exact hr)) hp'
        · exact hl hr p' hp'
      | commit p hp ho hf hl => exact other p _ _ (by simp [PState.reserved])
      | stop p hp => exact other p _ b.durable (by simp [PState.reserved])
  · induction h with
    | refl => simp
    | @tail b c hb st ih =>
      obtain ⟨order, hs⟩ := C70_serial hb
      cases st with
      | start p hp =>
        intro i snap view done todo hi
        by_cases hip : i = p
        · subst hip; rw [set_self] at hi; cases hi; exact ⟨rfl, rfl, rfl⟩
        · rw [set_other _ _ hip] at hi; exact ih i _ _ _ _ hi
      | @call p snap₀ view₀ done₀ todo₀ c r₀ hp hl =>
        intro i snap view done todo hi
        by_cases hip : i = p
        · subst hip; rw [set_self] at hi
          simp only [PState.active.injEq, Bool.or_eq_false_iff] at hi
          obtain ⟨-, rfl, -, -, rfl, hr⟩ := hi
          have hv := ih _ _ _ _ _ hp
          refine SameTables.trans ?_ hv
          rcases c.run_cases H view₀ with ⟨_, e⟩ | ⟨e, _⟩
          · exact e
          · rw [e] at hr; simp [Res.isOk] at hr
        · rw [set_other _ _ hip] at hi; exact ih i _ _ _ _ hi
      | @commit p snap₀ view₀ done₀ hp ho hf hl =>
        intro i snap view done todo hi
        have hi : (b.set p (.ended snap₀ true)).procs i = .active snap view done todo false := hi
        by_cases hip : i = p
        · subst hip; rw [set_self] at hi; cases hi
        · rw [set_other _ _ hip] at hi
          have := hl i hip
          rw [hi] at this; cases this
      | @stop p snap₀ view₀ done₀ todo₀ r₀ hp =>
        intro i snap view done todo hi
        by_cases hip : i = p
        · subst hip; rw [set_self] at hi; cases hi
        · rw [set_other _ _ hip] at hi; exact ih i _ _ _ _ hi

/-! ### Commands -/

/-- A command on a repository: the files and the cache it sees, and which of its statements fail. -/
structure _root_.Snap.Task where
  X : Ctx
  cmd : Command
  fs : Fs
  cache : Cache
  faults : List Bool := []

/-- The world in which the task runs when its database is `d`. -/
def _root_.Snap.Task.world (t : Task) (d : Db) : World := { fs := t.fs, cache := t.cache, dbs := fun _ => { d with faults := t.faults } }

/-- The database at `q` after the task has run with nobody else around. -/
def _root_.Snap.Task.after (t : Task) (q : List Bytes) (d : Db) : Db := (mainRun t.X t.cmd (t.world d)).2.2.dbs q

/-- The process is this task: whatever database it finds, its calls have the effect of the command's body and it ends with COMMIT if that succeeds. -/
structure _root_.Snap.Task.Is (t : Task) (H : Bytes → Key) (R : Repo) (q : List Bytes) (p : Proc) : Prop where
  hash : t.X.E.H = H
  notInit : t.cmd ≠ .init
  opens : ∀ d, Opens t.X (t.world d) R q
  faults : p.faults = t.faults
  calls : ∀ d, runCalls H (p.calls d) d = (t.cmd.inRepo t.X R { db := d, cache := t.cache, fs := t.fs }).2.db
  may : ∀ d, ∀ c ∈ p.calls d, t.cmd.mayCall c
  ok : ∀ d, p.ok d = (t.cmd.inRepo t.X R { db := d, cache := t.cache, fs := t.fs }).1.isOk

/-- There is such a process for every command but `init`. -/
theorem task_proc (t : Task) {R : Repo} {q : List Bytes} (hi : t.cmd ≠ .init) (ho : ∀ d, Opens t.X (t.world d) R q) : ∃ p, t.Is t.X.E.H R q p := by
  have h : ∀ d, ∃ cs : List Call, (∀ c ∈ cs, t.cmd.mayCall c) ∧ (t.cmd.inRepo t.X R { db := d, cache := t.cache, fs := t.fs }).2.db = runCalls t.X.E.H cs d := by
    intro d
    obtain ⟨cs, h1, h2, _⟩ := traced_command t.X R t.cmd { db := d, cache := t.cache, fs := t.fs } trivial trivial
    exact ⟨cs, h1, h2⟩
  exact ⟨{ faults := t.faults, calls := fun d => (h d).choose, ok := fun d => (t.cmd.inRepo t.X R { db := d, cache := t.cache, fs := t.fs }).1.isOk },
    rfl, hi, ho, rfl, fun d => (h d).choose_spec.2.symm, fun d => (h d).choose_spec.1, fun _ => rfl⟩

/-- Alone, such a process does what the command does when run by `main`. -/
theorem task_alone {t : Task} {H : Bytes → Key} {R : Repo} {q : List Bytes} {p : Proc} (h : t.Is H R q p) (d : Db) (ho : p.ok (p.sees d) = true)
    (hf : (runCalls H (p.calls (p.sees d)) (p.sees d)).faults.head? ≠ some true) : p.alone H d = t.after q d := by
  have hb := h.opens d
  rw [Task.after, mainRun_open h.notInit hb]
  have hs : p.sees d = { d with faults := t.faults } := by rw [Proc.sees, h.faults]
  rw [hs] at ho hf
  rw [Proc.alone, hs]
  rw [h.ok] at ho
  rw [h.calls] at hf ⊢
  simp only [runIn, World.setDb, if_true, Conn.begin, Conn.exec, Conn.view, Option.getD_some, Command.body, Task.world]
  cases hr : (t.cmd.inRepo t.X R { db := { d with faults := t.faults }, cache := t.cache, fs := t.fs }).1 with
  | ok u =>
    simp only [Conn.finish, Conn.commit]
    split
    · rename_i fs hfs
      rw [hfs] at hf; simp at hf
    · rfl
  | err e => rw [hr] at ho; cases ho
  | panic => rw [hr] at ho; cases ho
  | fuel => rw [hr] at ho; cases ho

/-- The databases after each of the committed tasks; `order` as in `Serial`. -/
def tasksAfter (T : Nat → Task) (q : List Bytes) (order : List Nat) (d : Db) : Db := order.foldl (fun d p => (T p).after q d) d

theorem serial_tasks {H : Bytes → Key} {P : Nat → Proc} {T : Nat → Task} {R : Nat → Repo} {q : List Bytes} (hT : ∀ p, (T p).Is H (R p) q (P p)) {d : Db} {s : Sched}
    {order : List Nat} (h : Serial H P d s order) : ∀ a b, order = a ++ b → serial H P a d = tasksAfter T q a d := by
  intro a
  induction a using snoc_induction with
  | nil => intros; rfl
  | snoc a p ih =>
    intro b e
    have e' : order = a ++ (p :: b) := by rw [e]; simp
    have hi := ih _ e'
    rw [serial_append, tasksAfter, List.foldl_append, List.foldl_cons, List.foldl_nil, ← tasksAfter, ← hi]
    obtain ⟨snap, hp⟩ := (h.wrote p).1 (by rw [e']; simp)
    obtain ⟨a', b', e2, hs, hw⟩ := h.ended p snap true hp
    obtain ⟨h1, h2, b'', rfl⟩ := hw rfl
    have : a' = a := nodup_split (by rw [← e2]; exact h.nodup) (e2.symm.trans e')
    subst this
    subst hs
    exact task_alone (hT p) _ h1 h2

theorem tasks_steps {H : Bytes → Key} {P : Nat → Proc} {T : Nat → Task} {R : Nat → Repo} {q : List Bytes} (hT : ∀ p, (T p).Is H (R p) q (P p)) (order : List Nat) (w : World) :
    ∃ w', World.Steps H w w' ∧ w'.dbs q = tasksAfter T q order (w.dbs q) ∧ ∀ q', q' ≠ q → SameDb (w'.dbs q') (w.dbs q') := by
  induction order using snoc_induction with
  | nil => exact ⟨w, .refl w, rfl, fun q' _ => SameDb.refl _⟩
  | snoc a p ih =>
    obtain ⟨w', h1, h2, h3⟩ := ih
    let w1 : World := { fs := (T p).fs, cache := (T p).cache, dbs := fun q' => if q' = q then { w'.dbs q with faults := (T p).faults } else w'.dbs q' }
    have e1 : World.Step H w' w1 := by
      refine .edit w' w1 fun q' => ?_
      change SameDb (if q' = q then { w'.dbs q with faults := (T p).faults } else w'.dbs q') _
      by_cases hq : q' = q
      · rw [if_pos hq, hq]; exact ⟨⟨rfl, rfl, rfl⟩, fun _ h => h⟩
      · rw [if_neg hq]; exact SameDb.refl _
    have ho : Opens (T p).X w1 (R p) q := (hT p).opens {}
    refine ⟨(mainRun (T p).X (T p).cmd w1).2.2, (h1.tail e1).tail (.run (T p).X (hT p).hash (T p).cmd w1), ?_, fun q' hq => ?_⟩
    · rw [tasksAfter, List.foldl_append, List.foldl_cons, List.foldl_nil, ← tasksAfter, ← h2, Task.after, mainRun_open (hT p).notInit ho, mainRun_open (hT p).notInit ((hT p).opens _)]
      simp only [runIn, World.setDb, if_true, Task.world, w1]
    · rw [mainRun_open (hT p).notInit ho, runIn_dbs _ _ _ _ _ _ hq]
      change SameDb (if q' = q then { w'.dbs q with faults := (T p).faults } else w'.dbs q') _
      rw [if_neg hq]; exact h3 q' hq

/-- C70, for commands: run at the same time on one database, in any interleaving, any of them failing or being killed at any point, they leave what
those that committed leave when run one after the other by `main`. Each command has worked on the database as it was between two of those. -/
theorem C70_commands {H : Bytes → Key} {P : Nat → Proc} {T : Nat → Task} {R : Nat → Repo} {q : List Bytes} (hT : ∀ p, (T p).Is H (R p) q (P p)) {d : Db} {s : Sched}
    (h : Sched.Run H P { durable := d } s) :
    ∃ order : List Nat, order.Nodup ∧ (∀ p, p ∈ order ↔ ∃ snap, s.procs p = .ended snap true) ∧ s.durable = tasksAfter T q order d ∧
      ∀ p snap w, s.procs p = .ended snap w → ∃ a b, order = a ++ b ∧ snap = ((T p).world (tasksAfter T q a d)).dbs q ∧ (w = true → ∃ b', b = p :: b') := by
  obtain ⟨order, hs⟩ := C70_serial h
  have ht := serial_tasks hT hs
  refine ⟨order, hs.nodup, hs.wrote, by rw [hs.durable, ht order [] (by simp)], fun p snap w hp => ?_⟩
  obtain ⟨a, b, e, g, k⟩ := hs.ended p snap w hp
  refine ⟨a, b, e, ?_, fun hw => (k hw).2.2⟩
  rw [g, ht a b e, Proc.sees, (hT p).faults]
  rfl

/-- So the database is one that commands run one after the other can produce. -/
theorem C70_reachable {H : Bytes → Key} {P : Nat → Proc} {T : Nat → Task} {R : Nat → Repo} {q : List Bytes} (hT : ∀ p, (T p).Is H (R p) q (P p)) {w : World} {s : Sched}
    (h : Sched.Run H P { durable := w.dbs q } s) : ∃ w', World.Steps H w w' ∧ w'.dbs q = s.durable ∧ ∀ q', q' ≠ q → SameDb (w'.dbs q') (w.dbs q') := by
  obtain ⟨order, -, -, e, -⟩ := C70_commands hT h
  rw [e]
  exact tasks_steps hT order w

/-- Nothing that a committed command has stored, and no commit it made, is lost by commands that ran at the same time. -/
theorem C70_kept {H : Bytes → Key} {P : Nat → Proc} {T : Nat → Task} {R : Nat → Repo} {q : List Bytes} (hT : ∀ p, (T p).Is H (R p) q (P p)) {d : Db} {s : Sched}
    (h : Sched.Run H P { durable := d } s) {p : Nat} {snap : Db} (hp : s.procs p = .ended snap true) :
    (∀ k v, rawGet ((T p).after q snap) k = .ok v → rawGet s.durable k = .ok v) ∧
    ∀ n r ks, reflogWalk ((T p).after q snap) n r = .ok ks → ∃ new, reflogWalk s.durable n r = .ok (new ++ ks) := by
  obtain ⟨order, -, -, e, hk⟩ := C70_commands hT h
  obtain ⟨a, b, ho, hs, hb⟩ := hk p snap true hp
  obtain ⟨b', rfl⟩ := hb rfl
  have hd : s.durable = tasksAfter T q b' ((T p).after q snap) := by
    rw [e, ho, tasksAfter, List.foldl_append, List.foldl_cons, hs]; rfl
  obtain ⟨w', h1, h2, -⟩ := tasks_steps hT b' { fs := (T p).fs, cache := (T p).cache, dbs := fun _ => (T p).after q snap }
  have := C43_kept h1 q
  rw [h2, ← hd] at this
  exact this

end Snap.Props
