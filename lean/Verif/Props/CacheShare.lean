import Verif.Model.CacheSched
import Verif.Props.Concurrent
import Verif.Props.Clean
import Verif.Props.LiveHash
/-!
C107: processes that use the cache at the same time have the effect of the committed ones running one after the other.
-/
namespace Snap.Props
open Snap
set_option linter.unusedSectionVars false
variable [Serde] [LawfulSerde]

/-- Running a process with nobody else around, on the cache `c`, with a successful COMMIT. -/
def _root_.Snap.CProc.alone (p : CProc) (c : Cache) : Cache :=
  let v := (putAll (p.puts (p.sees c)) (p.sees c)).2
  { v with faults := v.faults.tail }

/-- Running processes one after the other. -/
def cacheSerial (P : Nat → CProc) (order : List Nat) (c : Cache) : Cache := order.foldl (fun c p => (P p).alone c) c

/-- The processes whose COMMIT wrote something, in that order; what the others saw. -/
structure CacheSerial (P : Nat → CProc) (c : Cache) (s : CSched) (order : List Nat) : Prop where
  nodup : order.Nodup
  wrote : ∀ p, p ∈ order ↔ ∃ snap, s.procs p = .ended snap true
  durable : s.durable = cacheSerial P order c
  single : ∀ p p', (s.procs p).writer = true → (s.procs p').writer = true → p = p'
  active : ∀ p snap view done todo w, s.procs p = .active snap view done todo w →
    (∃ a b, order = a ++ b ∧ snap = (P p).sees (cacheSerial P a c)) ∧ (w = true → snap = (P p).sees s.durable) ∧ view = (putAll done snap).2 ∧ (P p).puts snap = done ++ todo
  ended : ∀ p snap w, s.procs p = .ended snap w → ∃ a b, order = a ++ b ∧ snap = (P p).sees (cacheSerial P a c) ∧
    (w = true → (P p).ok snap = true ∧ (putAll ((P p).puts snap) snap).2.faults.head? ≠ some true ∧ ∃ b', b = p :: b')

theorem cacheSerial_append (P : Nat → CProc) (a : List Nat) (p : Nat) (c : Cache) : cacheSerial P (a ++ [p]) c = (P p).alone (cacheSerial P a c) := by
  simp [cacheSerial]

theorem putAll_snoc (l : List (CacheKey × Key)) (e : CacheKey × Key) (c : Cache) : (putAll (l ++ [e]) c).2 = (Cache.put e.1 e.2 (putAll l c).2).2 := by
  induction l generalizing c with
  | nil => rfl
  | cons x l ih => simp only [List.cons_append, putAll]; exact ih _

theorem cset_self (s : CSched) (p : Nat) (x : CState) : (s.set p x).procs p = x := by simp [CSched.set]

theorem cset_other (s : CSched) {p i : Nat} (x : CState) (h : i ≠ p) : (s.set p x).procs i = s.procs i := by simp [CSched.set, h]

theorem cacheSerial_step {P : Nat → CProc} {c : Cache} {s s' : CSched} {order : List Nat} (h : CacheSerial P c s order) (st : CSched.Step P s s') : ∃ more, CacheSerial P c s' (order ++ more) := by
  cases st with
  | start p hp =>
    refine ⟨[], ?_⟩
    rw [List.append_nil]
    refine ⟨h.nodup, fun i => ?_, h.durable, fun i j hi hj => ?_, fun i snap view done todo w hi => ?_, fun i snap w hi => ?_⟩
    · rw [h.wrote i]
      by_cases e : i = p
      · subst e; rw [cset_self, hp]; simp
      · rw [cset_other _ _ e]
    · by_cases ei : i = p
      · subst ei; rw [cset_self] at hi; cases hi
      · by_cases ej : j = p
        · subst ej; rw [cset_self] at hj; cases hj
        · rw [cset_other _ _ ei] at hi
          rw [cset_other _ _ ej] at hj
          exact h.single i j hi hj
    · by_cases e : i = p
      · subst e
        rw [cset_self] at hi
        simp only [CState.active.injEq] at hi
        obtain ⟨rfl, rfl, rfl, rfl, rfl⟩ := hi
        exact ⟨⟨order, [], by simp, by rw [h.durable]⟩, by simp, rfl, by simp⟩
      · rw [cset_other _ _ e] at hi; exact h.active i _ _ _ _ _ hi
    · by_cases e : i = p
      · subst e; rw [cset_self] at hi; cases hi
      · rw [cset_other _ _ e] at hi; exact h.ended i _ _ hi
  | @put p snap₀ view₀ done₀ todo₀ e₀ w₀ hp hl =>
    refine ⟨[], ?_⟩
    rw [List.append_nil]
    obtain ⟨h1, h2, h3, h4⟩ := h.active p _ _ _ _ _ hp
    have only : (w₀ || (Cache.put e₀.1 e₀.2 view₀).1.isOk) = true → ∀ i, i ≠ p → (s.procs i).writer = false := by
      intro hw i hne
      by_cases hw0 : w₀ = true
      · cases hi : (s.procs i).writer with
        | false => rfl
        | true => exact (hne (h.single i p hi (by rw [hp]; exact hw0))).elim
      · replace hw := (Bool.or_eq_true _ _ ▸ hw : _ ∨ _).resolve_left hw0
        rcases hl hw with hl | hl
        · exact (hw0 hl).elim
        · exact hl.1 i
    refine ⟨h.nodup, fun i => ?_, h.durable, fun i j hi hj => ?_, fun i snap view done todo w hi => ?_, fun i snap w hi => ?_⟩
    · rw [h.wrote i]
      by_cases e : i = p
      · subst e; rw [cset_self, hp]; simp
      · rw [cset_other _ _ e]
    · by_cases ei : i = p
      · by_cases ej : j = p
        · rw [ei, ej]
        · subst ei
          rw [cset_self] at hi
          rw [cset_other _ _ ej, only hi j ej] at hj
          cases hj
      · by_cases ej : j = p
        · subst ej
          rw [cset_self] at hj
          rw [cset_other _ _ ei, only hj i ei] at hi
          cases hi
        · rw [cset_other _ _ ei] at hi
          rw [cset_other _ _ ej] at hj
          exact h.single i j hi hj
    · by_cases e : i = p
      · subst e
        rw [cset_self] at hi
        simp only [CState.active.injEq] at hi
        obtain ⟨rfl, rfl, rfl, rfl, rfl⟩ := hi
        refine ⟨h1, fun hw => ?_, ?_, by rw [h4]; simp⟩
        · by_cases hw0 : w₀ = true
          · exact h2 hw0
          · replace hw := (Bool.or_eq_true _ _ ▸ hw : _ ∨ _).resolve_left hw0
            rcases hl hw with hl | hl
            · exact (hw0 hl).elim
            · exact hl.2
        · rw [putAll_snoc, ← h3]
      · rw [cset_other _ _ e] at hi; exact h.active i _ _ _ _ _ hi
    · by_cases e : i = p
      · subst e; rw [cset_self] at hi; cases hi
      · rw [cset_other _ _ e] at hi; exact h.ended i _ _ hi
  | @commit p snap₀ view₀ done₀ hp ho hf =>
    obtain ⟨h1, h2, h3, h4⟩ := h.active p _ _ _ _ _ hp
    have hsnap := h2 rfl
    rw [List.append_nil] at h4
    have hnew : p ∉ order := fun hm => by obtain ⟨sn, e⟩ := (h.wrote p).mp hm; rw [hp] at e; cases e
    have others : ∀ i, i ≠ p → (s.procs i).writer = false := by
      intro i hne
      cases hi : (s.procs i).writer with
      | false => rfl
      | true => exact (hne (h.single i p hi (by rw [hp]; rfl))).elim
    have hprocs : ∀ i, ({ s.set p (.ended snap₀ true) with durable := { view₀ with faults := view₀.faults.tail } } : CSched).procs i = (s.set p (.ended snap₀ true)).procs i := fun _ => rfl
    refine ⟨[p], ?_, fun i => ?_, ?_, fun i j hi hj => ?_, fun i snap view done todo w hi => ?_, fun i snap w hi => ?_⟩
    · exact List.nodup_append.mpr ⟨h.nodup, by simp, fun a ha b hb => by rw [List.mem_singleton.mp hb]; rintro rfl; exact hnew ha⟩
    · rw [hprocs, List.mem_append, List.mem_singleton, h.wrote i]
      by_cases e : i = p
      · subst e; rw [cset_self]; simp
      · rw [cset_other _ _ e]; simp [e]
    · rw [cacheSerial_append, ← h.durable]
      show ({ view₀ with faults := view₀.faults.tail } : Cache) = _
      unfold CProc.alone
      rw [← hsnap, h4, ← h3]
    · exfalso
      rw [hprocs] at hi
      by_cases ei : i = p
      · subst ei; rw [cset_self] at hi; cases hi
      · rw [cset_other _ _ ei, others i ei] at hi; cases hi
    · rw [hprocs] at hi
      by_cases e : i = p
      · subst e; rw [cset_self] at hi; cases hi
      · rw [cset_other _ _ e] at hi
        obtain ⟨⟨a, b, g1, g2⟩, _, g3⟩ := h.active i _ _ _ _ _ hi
        refine ⟨⟨a, b ++ [p], by rw [g1]; simp, g2⟩, fun hw => ?_, g3⟩
        have := others i e
        rw [hi] at this
        simp only [CState.writer] at this
        rw [hw] at this
        cases this
    · rw [hprocs] at hi
      by_cases e : i = p
      · subst e
        rw [cset_self] at hi
        simp only [CState.ended.injEq] at hi
        obtain ⟨rfl, rfl⟩ := hi
        exact ⟨order, [i], rfl, by rw [hsnap, h.durable], fun _ => ⟨ho, by rw [h4, ← h3]; exact hf, [], rfl⟩⟩
      · rw [cset_other _ _ e] at hi
        obtain ⟨a, b, g1, g2, g3⟩ := h.ended i _ _ hi
        refine ⟨a, b ++ [p], by rw [g1]; simp, g2, fun hw => ?_⟩
        obtain ⟨g4, g5, b', g6⟩ := g3 hw
        exact ⟨g4, g5, b' ++ [p], by rw [g6]; rfl⟩
  | @stop p snap₀ view₀ done₀ todo₀ w₀ hp =>
    refine ⟨[], ?_⟩
    rw [List.append_nil]
    obtain ⟨⟨a, b, g1, g2⟩, _⟩ := h.active p _ _ _ _ _ hp
    refine ⟨h.nodup, fun i => ?_, h.durable, fun i j hi hj => ?_, fun i snap view done todo w hi => ?_, fun i snap w hi => ?_⟩
    · rw [h.wrote i]
      by_cases e : i = p
      · subst e; rw [cset_self, hp]; simp
      · rw [cset_other _ _ e]
    · have ne : ∀ i, ((s.set p (.ended snap₀ false)).procs i).writer = true → i ≠ p := fun i hi e => by subst e; rw [cset_self] at hi; cases hi
      have hi' := hi; have hj' := hj
      rw [cset_other _ _ (ne i hi)] at hi'
      rw [cset_other _ _ (ne j hj)] at hj'
      exact h.single i j hi' hj'
    · by_cases e : i = p
      · subst e; rw [cset_self] at hi; cases hi
      · rw [cset_other _ _ e] at hi; exact h.active i _ _ _ _ _ hi
    · by_cases e : i = p
      · subst e
        rw [cset_self] at hi
        simp only [CState.ended.injEq] at hi
        obtain ⟨rfl, rfl⟩ := hi
        exact ⟨a, b, g1, g2, by simp⟩
      · rw [cset_other _ _ e] at hi; exact h.ended i _ _ hi

/-- **C107**: whatever the interleaving, the cache is what the processes that committed leave when run one after the other, and each process has worked on the cache as it was after some of them; those
that wrote, on what the one before had left. -/
theorem C107_serial {P : Nat → CProc} {c : Cache} {s : CSched} (h : CSched.Run P { durable := c } s) : ∃ order, CacheSerial P c s order := by
  induction h with
  | refl => exact ⟨[], List.nodup_nil, by simp, rfl, by simp [CState.writer], by simp, by simp⟩
  | tail _ st ih =>
    obtain ⟨order, ih⟩ := ih
    obtain ⟨more, h⟩ := cacheSerial_step ih st
    exact ⟨_, h⟩

/-- No two processes have the write lock. -/
theorem C107_one_writer {P : Nat → CProc} {c : Cache} {s : CSched} (h : CSched.Run P { durable := c } s) (p p' : Nat) (hp : (s.procs p).writer = true) (hp' : (s.procs p').writer = true) : p = p' := by
  obtain ⟨order, ho⟩ := C107_serial h
  exact ho.single p p' hp hp'

/-! ### Commands -/

/-- A command: everything it meets but the cache. `A`: what it sees of the files, which others may be changing; `faults`: which of its statements on the cache fail. -/
structure _root_.Snap.CacheTask where
  X : Ctx
  A : Sights
  R : Repo
  q : List Bytes
  cmd : Command
  world : World
  later : Fs
  faults : List Bool := []

/-- Its world when the cache is `c`. -/
def _root_.Snap.CacheTask.on (t : CacheTask) (c : Cache) : World := { t.world with cache := { c with faults := t.faults } }

/-- The cache after the command has run with nobody else around. -/
def _root_.Snap.CacheTask.after (t : CacheTask) (c : Cache) : Cache := (runRacing t.X t.A t.R t.q t.cmd t.later (t.on c)).2.2.cache

/-- The process is this command: its puts have the effect of the command's body, and it ends with COMMIT if that succeeds. -/
structure _root_.Snap.CacheTask.Is (t : CacheTask) (p : CProc) : Prop where
  faults : p.faults = t.faults
  puts : ∀ c, (putAll (p.puts c) c).2 = (t.cmd.racing t.X t.A t.R (startOf { t.world with cache := c } t.q)).2.cache
  entered : ∀ c, ∀ e ∈ p.puts c, ∃ hi, Spec.Entered t.X.E t.A 0 hi e.1 e.2
  ok : ∀ c, p.ok c = (t.cmd.racing t.X t.A t.R (startOf { t.world with cache := c } t.q)).1.isOk

theorem racing_other (X : Ctx) (A : Sights) (R : Repo) (cmd : Command) (hc : cmd.compares = false) : cmd.racing X A R = cmd.inRepo X R := by
  cases cmd <;> first | rfl | cases hc

/-- What a command does to the cache is a sequence of puts, of keys of contents that it has read. -/
theorem racing_puts (X : Ctx) (A : Sights) (R : Repo) (cmd : Command) (s : Sys) :
    ∃ ps, (putAll ps s.cache).2 = (cmd.racing X A R s).2.cache ∧ ∀ e ∈ ps, ∃ hi, Spec.Entered X.E A 0 hi e.1 e.2 := by
  cases hc : cmd.compares with
  | false => exact ⟨[], by rw [racing_other X A R cmd hc]; exact (noCache_command X R cmd hc s).symm, by simp⟩
  | true => ?_
  refine racing_hold (I := fun t => ∃ ps, (putAll ps s.cache).2 = t.2 ∧ ∀ e ∈ ps, ∃ hi, Spec.Entered X.E A 0 hi e.1 e.2) X A R cmd hc
    (compareLive_hold (I := fun t => ∃ ps, (putAll ps s.cache).2 = t.2 ∧ ∀ e ∈ ps, ∃ hi, Spec.Entered X.E A 0 hi e.1 e.2) X.E A ?_ X.iter X.depth) (fun _ _ _ h => h) s ⟨[], rfl, by simp⟩
  intro p t ht
  obtain ⟨ps, h1, h2⟩ := ht
  rcases hashLive_cache X.E A p t with e | ⟨len, ck, evs, k, g1, g2, g3, g4, e⟩
  · exact ⟨ps, by rw [e]; exact h1, h2⟩
  · refine ⟨ps ++ [(ck, k)], by rw [putAll_snoc, h1, e], fun x hx => ?_⟩
    rcases List.mem_append.mp hx with hx | hx
    · exact h2 x hx
    · rw [List.mem_singleton.mp hx]
      exact ⟨t.2 + 2, t.2, p, len, evs, Nat.zero_le _, by omega, g1, g2, keyOf_of_put (d := t.1.1) (d' := (putRead X.E evs len t.1.1).2) (Prod.ext g4 rfl)⟩

/-- There is such a process for every command. -/
theorem C107_process (t : CacheTask) : ∃ p, t.Is p := by
  have h := fun c => racing_puts t.X t.A t.R t.cmd (startOf { t.world with cache := c } t.q)
  exact ⟨{ faults := t.faults, puts := fun c => (h c).choose, ok := fun c => (t.cmd.racing t.X t.A t.R (startOf { t.world with cache := c } t.q)).1.isOk }, rfl,
    fun c => (h c).choose_spec.1, fun c => (h c).choose_spec.2, fun _ => rfl⟩

/-- The other commands do not touch the cache. -/
theorem C107_others (X : Ctx) (R : Repo) (cmd : Command) (hc : cmd.compares = false) (s : Sys) : (cmd.inRepo X R s).2.cache = s.cache := noCache_command X R cmd hc s

theorem cacheTask_alone {t : CacheTask} {p : CProc} (h : t.Is p) (c : Cache) (ho : p.ok (p.sees c) = true) (hf : (putAll (p.puts (p.sees c)) (p.sees c)).2.faults.head? ≠ some true) :
    p.alone c = t.after c := by
  have hs : p.sees c = { c with faults := t.faults } := by rw [CProc.sees, h.faults]
  rw [CacheTask.after, runRacing_eq]
  rw [hs] at ho hf
  rw [CProc.alone, hs]
  rw [h.ok] at ho
  rw [h.puts] at hf ⊢
  simp only [World.setDb, CacheTask.on]
  cases hr : (t.cmd.racing t.X t.A t.R (startOf { t.world with cache := { c with faults := t.faults } } t.q)).1 with
  | ok u =>
    simp only [Cache.finish]
    split
    · rename_i fs hfs
      rw [hfs] at hf; simp at hf
    · rfl
  | err e => rw [hr] at ho; cases ho
  | panic => rw [hr] at ho; cases ho
  | fuel => rw [hr] at ho; cases ho

/-- The cache after each of these commands in turn. -/
def cacheAfter (T : Nat → CacheTask) (order : List Nat) (c : Cache) : Cache := order.foldl (fun c p => (T p).after c) c

theorem cacheSerial_tasks {P : Nat → CProc} {T : Nat → CacheTask} (hT : ∀ p, (T p).Is (P p)) {c : Cache} {s : CSched} {order : List Nat} (h : CacheSerial P c s order) :
    ∀ a b, order = a ++ b → cacheSerial P a c = cacheAfter T a c := by
  intro a
  induction a using snoc_induction with
  | nil => intros; rfl
  | snoc a p ih =>
    intro b e
    have e' : order = a ++ (p :: b) := by rw [e]; simp
    have ha := ih _ e'
    obtain ⟨snap, hp⟩ := (h.wrote p).mp (by rw [e']; simp)
    obtain ⟨a₁, b₁, g1, g2, g3⟩ := h.ended p snap true hp
    obtain ⟨g4, g5, b', rfl⟩ := g3 rfl
    have hsplit : a = a₁ := nodup_split (by rw [← e']; exact h.nodup) (e'.symm.trans g1)
    subst hsplit
    rw [cacheSerial_append]
    rw [g2] at g4 g5
    rw [cacheTask_alone (hT p) _ g4 g5, ha]
    simp [cacheAfter]

/-- **C107** for commands: the cache is that left by the committed ones, in some order, each run by itself; and every command, committed or not, has worked on the cache left by some of them: a command
that has committed entries, on that of exactly those before it. -/
theorem C107_commands {P : Nat → CProc} {T : Nat → CacheTask} (hT : ∀ p, (T p).Is (P p)) {c : Cache} {s : CSched} (h : CSched.Run P { durable := c } s) :
    ∃ order : List Nat, order.Nodup ∧ (∀ p, p ∈ order ↔ ∃ snap, s.procs p = .ended snap true) ∧ s.durable = cacheAfter T order c ∧
      (∀ p snap view done todo w, s.procs p = .active snap view done todo w → ∃ a b, order = a ++ b ∧ snap = ((T p).on (cacheAfter T a c)).cache) ∧
      ∀ p snap w, s.procs p = .ended snap w → ∃ a b, order = a ++ b ∧ snap = ((T p).on (cacheAfter T a c)).cache ∧ (w = true → ∃ b', b = p :: b') := by
  obtain ⟨order, ho⟩ := C107_serial h
  have key := cacheSerial_tasks hT ho
  have sees : ∀ p c, (P p).sees c = ((T p).on c).cache := fun p c => by rw [CProc.sees, (hT p).faults]; rfl
  refine ⟨order, ho.nodup, ho.wrote, ?_, fun p snap view done todo w hp => ?_, fun p snap w hp => ?_⟩
  · rw [ho.durable, key order [] (by simp)]
  · obtain ⟨⟨a, b, e, g⟩, _⟩ := ho.active p _ _ _ _ _ hp
    exact ⟨a, b, e, by rw [g, key a b e, sees]⟩
  · obtain ⟨a, b, e, g, g'⟩ := ho.ended p _ _ hp
    exact ⟨a, b, e, by rw [g, key a b e, sees], fun hw => (g' hw).2.2⟩

theorem after_rows (t : CacheTask) (hc : t.cmd.compares = false) (c : Cache) : (t.after c).rows = c.rows := by
  rw [CacheTask.after, runRacing_eq, racing_other _ _ _ _ hc]
  simp only [World.setDb]
  rcases finish_rows (t.cmd.inRepo t.X t.R (startOf (t.on c) t.q)).1 (t.on c).cache (t.cmd.inRepo t.X t.R (startOf (t.on c) t.q)).2.cache with e | e
  · rw [e]; rfl
  · rw [e, noCache_command t.X t.R t.cmd hc]; rfl

theorem cacheAfter_snoc (T : Nat → CacheTask) (a : List Nat) (p : Nat) (c : Cache) : cacheAfter T (a ++ [p]) c = (T p).after (cacheAfter T a c) := by simp [cacheAfter]

theorem ages_tasks (T : Nat → CacheTask) (w : World) (order : List Nat) : ∃ w', World.Ages w w' ∧ w'.cache.rows = (cacheAfter T order w.cache).rows := by
  induction order using snoc_induction with
  | nil => exact ⟨w, .refl w, rfl⟩
  | snoc a p ih =>
    obtain ⟨v, h1, h2⟩ := ih
    rw [cacheAfter_snoc]
    cases hc : (T p).cmd.compares with
    | true => exact ⟨_, .race (.edit h1 (v' := (T p).on (cacheAfter T a w.cache)) h2.symm) (T p).X (T p).A (T p).R (T p).q (T p).cmd hc (T p).later, rfl⟩
    | false => exact ⟨v, h1, by rw [after_rows _ hc]; exact h2⟩

theorem uses_tasks {E : Env} {l l' : List Fs} {T : Nat → CacheTask} (hE : ∀ p, (T p).X.E = E) (hA : ∀ p, Spec.Untorn E l' (T p).A) {w : World} (h : World.Uses E l w) (order : List Nat) :
    ∃ L w', World.Uses E L w' ∧ (∀ f ∈ L, f ∈ l' ∨ f ∈ l) ∧ w'.cache.rows = (cacheAfter T order w.cache).rows := by
  induction order using snoc_induction with
  | nil => exact ⟨l, w, h, fun _ h => .inr h, rfl⟩
  | snoc a p ih =>
    obtain ⟨L, v, h1, h2, h3⟩ := ih
    rw [cacheAfter_snoc]
    cases hc : (T p).cmd.compares with
    | false => exact ⟨L, v, h1, h2, by rw [after_rows _ hc]; exact h3⟩
    | true =>
      refine ⟨l' ++ L, _, .race (T p).X (hE p) (T p).A l' (hA p) (T p).R (T p).q (T p).cmd hc (T p).later (.edit ((T p).on (cacheAfter T a w.cache)) h1 h3.symm), fun f hf => ?_, rfl⟩
      rcases List.mem_append.mp hf with hf | hf
      · exact .inl hf
      · exact h2 f hf

/-- Commands that run at the same time leave a cache that could have come about without that; C57 and C95 hold of it. -/
theorem C107_ages {P : Nat → CProc} {T : Nat → CacheTask} (hT : ∀ p, (T p).Is (P p)) {w : World} {s : CSched} (h : CSched.Run P { durable := w.cache } s) :
    ∃ w', World.Ages w w' ∧ w'.cache.rows = s.durable.rows := by
  obtain ⟨order, -, -, e, -⟩ := C107_commands hT h
  rw [e]
  exact ages_tasks T w order

/-- Nothing in the cache is lost or changed by commands that run at the same time. -/
theorem C107_kept {P : Nat → CProc} {T : Nat → CacheTask} (hT : ∀ p, (T p).Is (P p)) {c : Cache} {s : CSched} (h : CSched.Run P { durable := c } s) (ck : CacheKey) (k : Key)
    (hk : c.get ck = .ok (some k)) : s.durable.get ck = .ok (some k) := by
  obtain ⟨w', h1, h2⟩ := C107_ages (w := { fs := {}, dbs := fun _ => {}, cache := c }) hT h
  rw [get_rows h2.symm]
  exact C95_kept _ w' h1 ck k hk

/-- Commands that see files as they were at some time (C95) only ever meet caches with right entries, however they are interleaved, so that C61 and C95 hold of each of them. `l` and `l'`: the states of the
files that were seen before and now. -/
theorem C107_right {E : Env} {l l' : List Fs} {P : Nat → CProc} {T : Nat → CacheTask} (hT : ∀ p, (T p).Is (P p)) (hE : ∀ p, (T p).X.E = E) (hA : ∀ p, Spec.Untorn E l' (T p).A) {w : World}
    (hu : World.Uses E l w) {s : CSched} (h : CSched.Run P { durable := w.cache } s) :
    (∃ L w', World.Uses E L w' ∧ (∀ f ∈ L, f ∈ l' ∨ f ∈ l) ∧ w'.cache.rows = s.durable.rows) ∧
    ∀ p snap, ((∃ view done todo wr, s.procs p = .active snap view done todo wr) ∨ ∃ wr, s.procs p = .ended snap wr) →
      ∃ L w', World.Uses E L w' ∧ (∀ f ∈ L, f ∈ l' ∨ f ∈ l) ∧ w'.cache = snap ∧ w'.fs = (T p).world.fs ∧ w'.dbs = (T p).world.dbs := by
  obtain ⟨order, -, -, e, h1, h2⟩ := C107_commands hT h
  refine ⟨by rw [e]; exact uses_tasks hE hA hu order, fun p snap hp => ?_⟩
  have : ∃ a, snap = ((T p).on (cacheAfter T a w.cache)).cache := by
    rcases hp with ⟨_, _, _, _, hp⟩ | ⟨_, hp⟩
    · obtain ⟨a, _, _, g⟩ := h1 p _ _ _ _ _ hp
      exact ⟨a, g⟩
    · obtain ⟨a, _, _, g, _⟩ := h2 p _ _ hp
      exact ⟨a, g⟩
  obtain ⟨a, rfl⟩ := this
  obtain ⟨L, w', g1, g2, g3⟩ := uses_tasks hE hA hu a
  exact ⟨L, _, .edit ((T p).on (cacheAfter T a w.cache)) g1 g3.symm, g2, rfl, rfl, rfl⟩

end Snap.Props
