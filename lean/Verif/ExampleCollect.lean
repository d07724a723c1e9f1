import Verif.ExampleCli
import Verif.Props.Collect
/-! C72: `status` stores and remembers the hashes of changed files; no ref leads to these objects. -/
namespace Snap.Props
open Snap

/-- After the first commit, with changed files, and after `status`. -/
def exUsed : World := (mainRun exX .status (withFs exW2 exNow)).2.2
/-- What `status` has stored is removed. -/
def exKept : World := exUsed.setDb exQ { exUsed.dbs exQ with data := (exW2.dbs exQ).data }

theorem exReachUsed : World.Reachable mixH exUsed := World.Reachable.step exReach2' (.run exX rfl _ _)

theorem exSwept (q : List Bytes) : Spec.Swept (exUsed.dbs q) (exKept.dbs q) := by
  by_cases hq : q = exQ
  · subst hq
    simp only [exKept, World.setDb, if_true]
    refine swept_of_closed (World.Reachable.inv exReachUsed exQ).nodup ?_ ?_ ⟨rfl, rfl, rfl, rfl⟩
    · refine Closed.same (b := exW2.dbs exQ) ⟨rfl, ?_, ?_⟩ (World.Reachable.closed exReach2 exQ)
      · show (exUsed.dbs exQ).state = _
        decide +kernel
      · show (exUsed.dbs exQ).reflog = _
        decide +kernel
    · have : (exW2.dbs exQ).data = (exUsed.dbs exQ).data.take (exW2.dbs exQ).data.length := by decide +kernel
      rw [this]
      exact List.take_sublist _ _
  · have : exKept.dbs q = exUsed.dbs q := by simp [exKept, World.setDb, hq]
    rw [this]
    exact swept_of_closed (World.Reachable.inv exReachUsed q).nodup (World.Reachable.closed exReachUsed q) (List.Sublist.refl _) ⟨rfl, rfl, rfl, rfl⟩

/-- objects have been removed -/
example : (exKept.dbs exQ).data.length < (exUsed.dbs exQ).data.length := by decide +kernel

theorem exTwins : Twins mixH exUsed exKept := C72_swept exReachUsed rfl rfl exSwept

/-- A commit, `status` and `compare` after that, and `ref log`. -/
def exSession : List (Ctx × Command × (Fs → Fs)) :=
  [(exX, .commit none [104] none, id), (exX, .status, id), (exX, .compare none none false, id), (exX, .refLog none none, id)]

example : ∀ e ∈ exSession, e.1.E.H = mixH ∧ e.2.1.ByRef := by
  simp [exSession, Command.ByRef, Command.args]
  exact rfl

example : ((Spec.session exSession exUsed).1.map (·.1)) = [.success, .success, .success, .success] := by decide +kernel
example : (Spec.session exSession exKept).1.map (·.1) = [.success, .success, .success, .success] := by decide +kernel

example : Apart mixH ((Spec.session exSession exUsed).2.dbs exQ) ((Spec.session exSession exKept).2.dbs exQ) := by
  have : ∀ x ∈ ((Spec.session exSession exUsed).2.dbs exQ).hashed ++ ((Spec.session exSession exKept).2.dbs exQ).hashed,
      ∀ y ∈ ((Spec.session exSession exUsed).2.dbs exQ).hashed ++ ((Spec.session exSession exKept).2.dbs exQ).hashed, mixH x = mixH y → x = y := by decide +kernel
  intro x hx y hy
  exact this x (List.mem_append.mpr hx) y (List.mem_append.mpr hy)

/-- **C72**, `compare --stat`: the key of the changed file comes from the cache, and the object is missing. -/
theorem C72_counterexample : ∃ (X : Ctx) (w v : World) (R : Repo) (q : List Bytes), w.Reachable X.E.H ∧ v.fs = w.fs ∧ v.cache = w.cache ∧ (∀ q, Spec.Swept (w.dbs q) (v.dbs q)) ∧
    Opens X w R q ∧ (mainRun X (.compare none none true) w).1 = .success ∧ (mainRun X (.compare none none true) v).1 = .panicked :=
  ⟨exX, exUsed, exKept, exR, exQ, exReachUsed, rfl, rfl, exSwept, ⟨by decide +kernel, by decide +kernel, by decide +kernel⟩, by decide +kernel, by decide +kernel⟩
end Snap.Props
