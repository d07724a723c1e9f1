import Verif.Model.BothSched
import Verif.Props.CacheShare
/-!
C108: database and cache shared at the same time.
-/
namespace Snap.Props
open Snap
set_option linter.unusedSectionVars false
variable [Serde] [LawfulSerde]

/-- The task with this cache. -/
def _root_.Snap.Task.withCache (t : Task) (c : Cache) : Task := { t with cache := c }

/-- The task as it looks from the cache, when its database is `d`; its files stand still. -/
def _root_.Snap.Task.cacheTask (t : Task) (R : Repo) (q : List Bytes) (f : List Bool) (d : Db) : CacheTask :=
  { X := t.X, A := Spec.resting t.X.E t.fs (makeFilter t.X.glob R.folder), R := R, q := q, cmd := t.cmd, world := { fs := t.fs, cache := {}, dbs := fun _ => d }, later := t.fs, faults := f }

/-- On the cache this task leaves what the command leaves when run by `main`. -/
theorem C108_alone {t : Task} {R : Repo} {q : List Bytes} {f : List Bool} {d : Db} (hc : t.cmd.compares = true) (ho : ∀ d, Opens t.X (t.world d) R q) (c : Cache) :
    (t.cacheTask R q f d).after c = (mainRun t.X t.cmd ((t.cacheTask R q f d).on c)).2.2.cache := by
  unfold CacheTask.after
  have := C95_still t.X ((t.cacheTask R q f d).on c) R q (ho {}) t.cmd hc
  rw [← this]
  rfl

theorem both_projects {H : Bytes → Key} {P : Nat → Cache → Proc} {Q : Nat → Db → CProc} {κ : Nat → Cache} {δ : Nat → Db} {a b : Both} (h : Both.Run H P Q κ δ a b) :
    Sched.Run H (fun p => P p (κ p)) a.db b.db ∧ CSched.Run (fun p => Q p (δ p)) a.cache b.cache := by
  induction h with
  | refl => exact ⟨.refl, .refl⟩
  | db _ st ih => exact ⟨ih.1.tail st, ih.2⟩
  | cache _ st ih => exact ⟨ih.1, ih.2.tail st⟩

/-- What is running: each process is the command `T p` on the repository `R p`, whose database is at `q`; `F p`: which of its statements on the cache fail. -/
structure _root_.Snap.Both.Of (H : Bytes → Key) (T : Nat → Task) (R : Nat → Repo) (q : List Bytes) (F : Nat → List Bool) (P : Nat → Cache → Proc) (Q : Nat → Db → CProc) : Prop where
  db : ∀ p c, ((T p).withCache c).Is H (R p) q (P p c)
  cache : ∀ p d, ((T p).cacheTask (R p) q (F p) d).Is (Q p d)

/-- **C108**: the database is what the commands that committed to it leave when `main` runs them one after the other, each with the cache that it saw. The cache is what those that committed to that leave,
each with the database that it saw. What they saw: the files after some of these commands. -/
theorem C108_commands {H : Bytes → Key} {T : Nat → Task} {R : Nat → Repo} {q : List Bytes} {F : Nat → List Bool} {P : Nat → Cache → Proc} {Q : Nat → Db → CProc} (hb : Both.Of H T R q F P Q)
    {κ : Nat → Cache} {δ : Nat → Db} {d : Db} {c : Cache} {s : Both} (h : Both.Run H P Q κ δ ⟨{ durable := d }, { durable := c }⟩ s) (ha : s.Agree κ δ) :
    ∃ od oc : List Nat, od.Nodup ∧ oc.Nodup ∧ (∀ p, p ∈ od ↔ ∃ snap, s.db.procs p = .ended snap true) ∧ (∀ p, p ∈ oc ↔ ∃ snap, s.cache.procs p = .ended snap true) ∧
      s.db.durable = tasksAfter (fun p => (T p).withCache (κ p)) q od d ∧
      s.cache.durable = cacheAfter (fun p => (T p).cacheTask (R p) q (F p) (δ p)) oc c ∧
      (∀ p x, (s.db.procs p).saw = some x → ∃ a b, od = a ++ b ∧ δ p = { tasksAfter (fun p => (T p).withCache (κ p)) q a d with faults := (T p).faults } ∧ (p ∈ od → ∃ b', b = p :: b')) ∧
      ∀ p x, (s.cache.procs p).saw = some x → ∃ a b, oc = a ++ b ∧ κ p = { cacheAfter (fun p => (T p).cacheTask (R p) q (F p) (δ p)) a c with faults := F p } ∧ (p ∈ oc → ∃ b', b = p :: b') := by
  obtain ⟨h1, h2⟩ := both_projects h
  obtain ⟨od, ho⟩ := C70_serial h1
  have hd : ∀ p, ((T p).withCache (κ p)).Is H (R p) q (P p (κ p)) := fun p => hb.db p (κ p)
  have ht := serial_tasks (T := fun p => (T p).withCache (κ p)) hd ho
  obtain ⟨oc, g1, g2, g3, g4, g5⟩ := C107_commands (T := fun p => (T p).cacheTask (R p) q (F p) (δ p)) (fun p => hb.cache p (δ p)) h2
  refine ⟨od, oc, ho.nodup, g1, ho.wrote, g2, by rw [ho.durable, ht od [] (by simp)], g3, fun p x hx => ?_, fun p x hx => ?_⟩
  · have hs : ∀ y, (P p (κ p)).sees y = { y with faults := (T p).faults } := fun y => by rw [Proc.sees, (hd p).faults]; rfl
    have hδ := (ha p).2 x hx
    cases hp : s.db.procs p with
    | idle => rw [hp] at hx; cases hx
    | active snap view done todo r =>
      rw [hp] at hx
      simp only [PState.saw, Option.some.injEq] at hx
      subst hx
      have e := (ho.active p _ _ _ _ _ hp).1
      refine ⟨od, [], by simp, ?_, fun hm => ?_⟩
      · rw [hδ, e, hs, ho.durable, ht od [] (by simp)]
      · obtain ⟨y, hy⟩ := (ho.wrote p).mp hm
        rw [hp] at hy; cases hy
    | ended snap w =>
      rw [hp] at hx
      simp only [PState.saw, Option.some.injEq] at hx
      subst hx
      obtain ⟨a, b, e, g, k⟩ := ho.ended p _ _ hp
      refine ⟨a, b, e, by rw [hδ, g, ht a b e, hs], fun hm => ?_⟩
      obtain ⟨y, hy⟩ := (ho.wrote p).mp hm
      rw [hp] at hy
      simp only [PState.ended.injEq] at hy
      exact (k hy.2).2.2
  · have hκ := (ha p).1 x hx
    cases hp : s.cache.procs p with
    | idle => rw [hp] at hx; cases hx
    | active snap view done todo r =>
      rw [hp] at hx
      simp only [CState.saw, Option.some.injEq] at hx
      subst hx
      obtain ⟨a, b, e, g⟩ := g4 p _ _ _ _ _ hp
      refine ⟨a, b, e, by rw [hκ, g]; rfl, fun hm => ?_⟩
      obtain ⟨y, hy⟩ := (g2 p).mp hm
      rw [hp] at hy; cases hy
    | ended snap w =>
      rw [hp] at hx
      simp only [CState.saw, Option.some.injEq] at hx
      subst hx
      obtain ⟨a, b, e, g, k⟩ := g5 p _ _ hp
      refine ⟨a, b, e, by rw [hκ, g]; rfl, fun hm => ?_⟩
      obtain ⟨y, hy⟩ := (g2 p).mp hm
      rw [hp] at hy
      simp only [CState.ended.injEq] at hy
      exact k hy.2

theorem resting_untorn (E : Env) (fs : Fs) (filter : Filter) (l : List Fs) (hl : fs ∈ l) : Spec.Untorn E l (Spec.resting E fs filter) :=
  C95_untorn E (fun _ => fs) filter l (fun _ => hl) fun _ _ _ _ _ _ h1 h2 => by
    rw [h1] at h2
    simp only [Res.ok.injEq, Ent.file.injEq] at h2
    rw [h2.1]

/-- So every command, whatever runs beside it, works on a database that commands run one after the other produce, and on a cache of which C61 and C95 hold: `l'` are the states of the files that are
seen now, `l` those seen before. -/
theorem C108_each {H : Bytes → Key} {T : Nat → Task} {R : Nat → Repo} {q : List Bytes} {F : Nat → List Bool} {P : Nat → Cache → Proc} {Q : Nat → Db → CProc} (hb : Both.Of H T R q F P Q)
    {κ : Nat → Cache} {δ : Nat → Db} {w : World} {s : Both} (h : Both.Run H P Q κ δ ⟨{ durable := w.dbs q }, { durable := w.cache }⟩ s) (ha : s.Agree κ δ) {E : Env} (hE : ∀ p, (T p).X.E = E)
    {l l' : List Fs} (hl : ∀ p, (T p).fs ∈ l') (hu : World.Uses E l w) :
    (∃ w', World.Steps H w w' ∧ w'.dbs q = s.db.durable) ∧ (∃ L w', World.Uses E L w' ∧ (∀ f ∈ L, f ∈ l' ∨ f ∈ l) ∧ w'.cache.rows = s.cache.durable.rows) ∧
    ∀ p, (∃ x, (s.db.procs p).saw = some x) → (∃ x, (s.cache.procs p).saw = some x) →
      (∃ w', World.Steps H w w' ∧ δ p = { w'.dbs q with faults := (T p).faults }) ∧ ∃ L, (∀ f ∈ L, f ∈ l' ∨ f ∈ l) ∧ World.Uses E L (((T p).withCache (κ p)).world (δ p)) := by
  obtain ⟨od, oc, -, -, -, -, e1, e2, h1, h2⟩ := C108_commands hb h ha
  have hd : ∀ p, ((T p).withCache (κ p)).Is H (R p) q (P p (κ p)) := fun p => hb.db p (κ p)
  have steps : ∀ o, ∃ w', World.Steps H w w' ∧ w'.dbs q = tasksAfter (fun p => (T p).withCache (κ p)) q o (w.dbs q) := fun o => by
    obtain ⟨w', g1, g2, _⟩ := tasks_steps (T := fun p => (T p).withCache (κ p)) hd o w
    exact ⟨w', g1, g2⟩
  have uses := fun o => uses_tasks (T := fun p => (T p).cacheTask (R p) q (F p) (δ p)) (l' := l') hE (fun p => by
    have := resting_untorn E (T p).fs (makeFilter (T p).X.glob (R p).folder) l' (hl p)
    rw [← hE p] at this ⊢
    exact this) hu o
  refine ⟨by rw [e1]; exact steps od, by rw [e2]; exact uses oc, fun p hx hy => ?_⟩
  obtain ⟨x, hx⟩ := hx
  obtain ⟨y, hy⟩ := hy
  obtain ⟨a, _, _, g1, _⟩ := h1 p x hx
  obtain ⟨a', _, _, g2, _⟩ := h2 p y hy
  obtain ⟨w', g3, g4⟩ := steps a
  obtain ⟨L, v, g5, g6, g7⟩ := uses a'
  refine ⟨⟨w', g3, by rw [g1, g4]⟩, L, g6, .edit _ g5 ?_⟩
  show (κ p).rows = _
  rw [g2, g7]

/-- There are such processes, for all commands but `init`. -/
theorem C108_processes {H : Bytes → Key} (T : Nat → Task) (R : Nat → Repo) (q : List Bytes) (F : Nat → List Bool) (hH : ∀ p, (T p).X.E.H = H) (hi : ∀ p, (T p).cmd ≠ .init)
    (ho : ∀ p d, Opens (T p).X ((T p).world d) (R p) q) : ∃ P Q, Both.Of H T R q F P Q := by
  have h1 : ∀ p c, ∃ x, ((T p).withCache c).Is H (R p) q x := fun p c => by
    have := task_proc ((T p).withCache c) (R := R p) (q := q) (hi p) (fun d => ho p d)
    rw [← hH p]
    exact this
  exact ⟨fun p c => (h1 p c).choose, fun p d => (C107_process ((T p).cacheTask (R p) q (F p) d)).choose, fun p c => (h1 p c).choose_spec, fun p d => (C107_process _).choose_spec⟩

/-- Nothing is lost: entries of the cache stay, and so does what a command has committed to the database. -/
theorem C108_kept {H : Bytes → Key} {T : Nat → Task} {R : Nat → Repo} {q : List Bytes} {F : Nat → List Bool} {P : Nat → Cache → Proc} {Q : Nat → Db → CProc} (hb : Both.Of H T R q F P Q)
    {κ : Nat → Cache} {δ : Nat → Db} {d : Db} {c : Cache} {s : Both} (h : Both.Run H P Q κ δ ⟨{ durable := d }, { durable := c }⟩ s) (ha : s.Agree κ δ) :
    (∀ ck k, c.get ck = .ok (some k) → s.cache.durable.get ck = .ok (some k)) ∧
    ∀ p snap, s.db.procs p = .ended snap true → (∀ k v, rawGet (((T p).withCache (κ p)).after q (δ p)) k = .ok v → rawGet s.db.durable k = .ok v) ∧
      ∀ n r ks, reflogWalk (((T p).withCache (κ p)).after q (δ p)) n r = .ok ks → ∃ new, reflogWalk s.db.durable n r = .ok (new ++ ks) := by
  obtain ⟨h1, h2⟩ := both_projects h
  refine ⟨fun ck k hk => C107_kept (T := fun p => (T p).cacheTask (R p) q (F p) (δ p)) (fun p => hb.cache p (δ p)) h2 ck k hk, fun p snap hp => ?_⟩
  rw [(ha p).2 snap (by rw [hp]; rfl)]
  exact C70_kept (T := fun p => (T p).withCache (κ p)) (fun p => hb.db p (κ p)) h1 hp

end Snap.Props
