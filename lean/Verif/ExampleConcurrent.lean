import Verif.ExampleCli
import Verif.Props.Concurrent
/-! C70: three processes moving HEAD at the same time. -/
namespace Snap.Props
open Snap

/-- Process 0 sets HEAD to `x`. The others set it to `y`, but their statement fails, since process 0 has the lock. -/
def exT (p : Nat) : Task := { X := exX, cmd := .setHead (if p = 0 then [120] else [121]), fs := exW1.fs, cache := {}, faults := if p = 0 then [] else [true] }
def exP (p : Nat) : Proc :=
  { faults := (exT p).faults, calls := fun _ => [.putHead (if p = 0 then [120] else [121])],
    ok := fun d => ((exT p).cmd.inRepo exX exR { db := d, cache := {}, fs := exW1.fs }).1.isOk }

theorem exIs (p : Nat) : (exT p).Is mixH exR exQ (exP p) :=
  ⟨rfl, by simp [exT], fun _ => exOpens1, rfl, fun _ => rfl, fun _ c hc => by simpa [exP, exT, Command.mayCall] using hc, fun _ => rfl⟩

/-- there is a process for a commit too -/
example : ∃ p, Task.Is { X := exX, cmd := .commit none [104] none, fs := exW1.fs, cache := {} } mixH exR exQ p :=
  task_proc { X := exX, cmd := .commit none [104] none, fs := exW1.fs, cache := {} } (by simp) fun _ => exOpens1

/-- 0 and 1 look at the file, 0 writes, 1 cannot and gives up, 0 commits -/
theorem exRun : ∃ s, Sched.Run mixH exP { durable := exW1.dbs exQ } s ∧ (∃ snap, s.procs 0 = .ended snap true) ∧ (∃ snap, s.procs 1 = .ended snap false) ∧
    getHead s.durable = .ok (some [120]) := by
  refine ⟨_, ((((((Sched.Run.refl).tail (.start _ 0 rfl)).tail (.start _ 1 rfl)).tail (.call _ 0 rfl ?_)).tail (.call _ 1 rfl ?_)).tail (.stop _ 1 rfl)).tail (.commit _ 0 rfl ?_ ?_ ?_),
    ⟨_, rfl⟩, ⟨_, rfl⟩, ?_⟩
  · intro _ p' hp'
    by_cases h : p' = 1 <;> simp [Sched.set, PState.reserved, hp', h]
  · intro h
    exact absurd h (by decide +kernel)
  · decide +kernel
  · decide +kernel
  · intro p' hp'
    by_cases h : p' = 1 <;> simp [Sched.set, PState.locked, hp', h]
  · decide +kernel

example : ∃ s, ∃ order, Serial mixH exP (exW1.dbs exQ) s order ∧ getHead s.durable = .ok (some [120]) := by
  obtain ⟨s, h, _, _, g⟩ := exRun
  obtain ⟨order, o⟩ := C70_serial h
  exact ⟨s, order, o, g⟩
end Snap.Props
