import Verif.Props.BothShare
import Verif.ExampleCacheShare
import Verif.ExampleConcurrent
/-! Two `status` and one change of HEAD at the same time (C108). -/
namespace Snap.Props
open Snap

def exBT (p : Nat) : Task := { X := exX, cmd := if p = 2 then .setHead [121] else .status, fs := exW2.fs, cache := {} }
/-- The second `status` finds the cache locked. -/
def exBF (p : Nat) : List Bool := [decide (p = 1), false, false, false]

theorem exBOpens (p : Nat) (d : Db) : Opens (exBT p).X ((exBT p).world d) exR exQ :=
  have h : Opens exX exW2 exR exQ := ⟨by decide +kernel, by decide +kernel, by decide +kernel⟩
  h

theorem exB_single {p : Nat} {Q : CProc} (h : ((exBT p).cacheTask exR exQ (exBF p) (exW2.dbs exQ)).Is Q)
    (hl : (Command.racing exX (Spec.resting mixEnv exW2.fs (makeFilter exX.glob exR.folder)) exR (exBT p).cmd { db := exW2.dbs exQ, cache := ⟨[], exBF p⟩, fs := exW2.fs }).2.cache.faults.length = 3) :
    ∃ e, Q.puts (Q.sees {}) = [e] := by
  have hs : Q.sees {} = ⟨[], exBF p⟩ := by rw [CProc.sees, h.faults]; rfl
  rw [hs]
  have e := h.puts ⟨[], exBF p⟩
  have hn : (Q.puts ⟨[], exBF p⟩).length = 1 := by
    have h1 := putAll_faults (Q.puts ⟨[], exBF p⟩) ⟨[], exBF p⟩
    have h2 : (putAll (Q.puts ⟨[], exBF p⟩) ⟨[], exBF p⟩).2.faults.length = 3 := by rw [e]; exact hl
    have h3 : (exBF p).length = 4 := rfl
    simp only [h2, h3] at h1
    omega
  match Q.puts ⟨[], exBF p⟩, hn with
  | [e], _ => exact ⟨e, rfl⟩

/-- HEAD is moved by exactly one statement. -/
def exBP (c : Cache) : Proc :=
  { calls := fun _ => [.putHead [121]], ok := fun d => (Command.inRepo exX exR (.setHead [121]) { db := d, cache := c, fs := exW2.fs }).1.isOk }
theorem exBP_is (c : Cache) : ((exBT 2).withCache c).Is mixH exR exQ (exBP c) :=
  ⟨rfl, by simp [exBT, Task.withCache], fun d => exBOpens 2 d, rfl, fun _ => rfl, fun _ c hc => by simpa [exBP, exBT, Task.withCache, Command.mayCall] using hc, fun _ => rfl⟩

/-- both `status` look at both files, 0 writes to the cache, 1 cannot, both are through with the database, HEAD moves, 0 commits its entry. -/
theorem exBRun : ∃ P Q, Both.Of mixH exBT (fun _ => exR) exQ exBF P Q ∧ ∃ κ δ s, Both.Run mixH P Q κ δ ⟨{ durable := exW2.dbs exQ }, { durable := exC0.cache }⟩ s ∧ s.Agree κ δ ∧
    (∃ x, s.cache.procs 0 = .ended x true) ∧ (∃ x v done, s.cache.procs 1 = .active x v done [] false) ∧ (∃ x, s.db.procs 1 = .ended x false) ∧ (∃ x, s.db.procs 2 = .ended x true) := by
  obtain ⟨P₀, Q, hb₀⟩ := C108_processes exBT (fun _ => exR) exQ exBF (H := mixH) (fun _ => rfl) (fun p => by unfold exBT; simp only; split <;> simp) exBOpens
  let P : Nat → Cache → Proc := fun p c => if p = 2 then exBP c else P₀ p c
  have hb : Both.Of mixH exBT (fun _ => exR) exQ exBF P Q := ⟨fun p c => by
    by_cases e : p = 2
    · subst e; exact exBP_is c
    · have : P p c = P₀ p c := if_neg e
      rw [this]; exact hb₀.db p c, hb₀.cache⟩
  let κ : Nat → Cache := fun p => ⟨[], exBF p⟩
  let δ : Nat → Db := fun _ => exW2.dbs exQ
  obtain ⟨e0, h0⟩ := exB_single (hb.cache 0 (δ 0)) (by decide +kernel)
  obtain ⟨e1, h1⟩ := exB_single (hb.cache 1 (δ 1)) (by decide +kernel)
  have c0 : (Q 0 (δ 0)).sees {} = κ 0 := by rw [CProc.sees, (hb.cache 0 (δ 0)).faults]; rfl
  have c1 : (Q 1 (δ 1)).sees {} = κ 1 := by rw [CProc.sees, (hb.cache 1 (δ 1)).faults]; rfl
  have ok0 : (Q 0 (δ 0)).ok (κ 0) = true := by rw [(hb.cache 0 (δ 0)).ok]; decide +kernel
  have nf : exW2.dbs exQ = { exW2.dbs exQ with faults := [] } := by
    have : (exW2.dbs exQ).faults = [] := by decide +kernel
    rw [← this]
  have d0 : ∀ p, (P p (κ p)).sees (exW2.dbs exQ) = exW2.dbs exQ := fun p => by
    rw [Proc.sees, (hb.db p (κ p)).faults]
    exact nf.symm
  rw [c0] at h0
  rw [c1] at h1
  let S0 : Sched := { durable := exW2.dbs exQ }
  let C0 : CSched := { durable := {} }
  have r1 : Both.Run mixH P Q κ δ ⟨S0, C0⟩ _ := (Both.Run.refl.db (.start S0 0 rfl)).db (.start _ 1 rfl)
  have r2 := (r1.cache (.start _ 0 rfl)).cache (.start _ 1 rfl)
  have r3 := r2.cache (.put _ 0 (snap := κ 0) (view := κ 0) (done := []) (todo := []) (e := e0) (w := false) (by
    show CState.active ((Q 0 (δ 0)).sees {}) ((Q 0 (δ 0)).sees {}) [] ((Q 0 (δ 0)).puts ((Q 0 (δ 0)).sees {})) false = _
    rw [c0, h0]) (fun _ => .inr ⟨fun p' => by
      simp only [CSched.set]
      split
      · rfl
      · split <;> rfl, c0.symm⟩))
  have r4 := r3.cache (.put _ 1 (snap := κ 1) (view := κ 1) (done := []) (todo := []) (e := e1) (w := false) (by
    show CState.active ((Q 1 (δ 1)).sees {}) ((Q 1 (δ 1)).sees {}) [] ((Q 1 (δ 1)).puts ((Q 1 (δ 1)).sees {})) false = _
    rw [c1, h1]) (fun hw => by cases hw))
  have r5 := (r4.db (.stop _ 0 rfl)).db (.stop _ 1 rfl)
  have r6 := r5.db (.start _ 2 rfl)
  have r7 := r6.db (.call _ 2 rfl (fun _ p' hp' => by
    simp only [Sched.set]
    by_cases x : p' = 0
    · subst x; rfl
    · by_cases y : p' = 1
      · subst y; rfl
      · simp [x, y, hp', S0, PState.reserved]))
  have r8 := r7.db (.commit _ 2 (snap := exW2.dbs exQ) (view := (Call.run mixH (.putHead [121]) (exW2.dbs exQ)).2) (done := [.putHead [121]]) (by
    show PState.active ((P 2 (κ 2)).sees (exW2.dbs exQ)) (Call.run mixH (.putHead [121]) ((P 2 (κ 2)).sees (exW2.dbs exQ))).2 [.putHead [121]] [] (false || (Call.run mixH (.putHead [121]) ((P 2 (κ 2)).sees (exW2.dbs exQ))).1.isOk) = _
    rw [d0 2]
    have : (Call.run mixH (.putHead [121]) (exW2.dbs exQ)).1.isOk = true := by decide +kernel
    rw [this]; rfl) (by
      show (exBP (κ 2)).ok (exW2.dbs exQ) = true
      decide +kernel) (by decide +kernel) (fun p' hp' => by
    simp only [Sched.set]
    by_cases x : p' = 0
    · subst x; rfl
    · by_cases y : p' = 1
      · subst y; rfl
      · simp [x, y, hp', S0, PState.locked]))
  have r9 := r8.cache (.commit _ 0 (snap := κ 0) (view := (Cache.put e0.1 e0.2 (κ 0)).2) (done := [e0]) rfl ok0 (by simp [Cache.put, κ, exBF]))
  refine ⟨P, Q, hb, κ, δ, _, r9, fun p => ⟨fun c hc => ?_, fun d hd => ?_⟩, ⟨_, rfl⟩, ⟨_, _, _, rfl⟩, ⟨_, rfl⟩, ⟨_, rfl⟩⟩
  · by_cases x : p = 0
    · subst x; exact Option.some.inj hc
    · by_cases y : p = 1
      · subst y; exact Option.some.inj hc
      · simp [CSched.set, x, y, C0, CState.saw] at hc
  · by_cases x : p = 0
    · subst x; exact (d0 0).symm.trans (Option.some.inj hd)
    · by_cases y : p = 1
      · subst y; exact (d0 1).symm.trans (Option.some.inj hd)
      · by_cases z : p = 2
        · subst z; exact Option.some.inj hd
        · simp [Sched.set, x, y, z, S0, PState.saw] at hd

/-- So the second `status`, which has found the cache locked, and is still running, has a right cache and a database made by commands; the others too. -/
example : ∃ P Q, Both.Of mixH exBT (fun _ => exR) exQ exBF P Q ∧ ∃ κ δ s, Both.Run mixH P Q κ δ ⟨{ durable := exC0.dbs exQ }, { durable := exC0.cache }⟩ s ∧
    (∃ w', World.Steps mixH exC0 w' ∧ w'.dbs exQ = s.db.durable) ∧
    (∃ w', World.Steps mixH exC0 w' ∧ δ 1 = { w'.dbs exQ with faults := [] }) ∧ ∃ L, (∀ f ∈ L, f ∈ [exW2.fs] ∨ f ∈ []) ∧ World.Uses mixEnv L (((exBT 1).withCache (κ 1)).world (δ 1)) := by
  obtain ⟨P, Q, hb, κ, δ, s, hr, ha, _, ⟨x, _, _, hx⟩, ⟨y, hy⟩, _⟩ := exBRun
  obtain ⟨g1, _, g2⟩ := C108_each (w := exC0) (l' := [exW2.fs]) hb hr ha (E := mixEnv) (fun _ => rfl) (fun _ => List.mem_singleton.mpr rfl) exC0_uses
  obtain ⟨g3, g4⟩ := g2 1 ⟨y, by rw [hy]; rfl⟩ ⟨x, by rw [hx]; rfl⟩
  exact ⟨P, Q, hb, κ, δ, s, hr, g1, g3, g4⟩

end Snap.Props
