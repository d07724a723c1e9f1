import Verif.Props.CacheShare
import Verif.ExampleLiveHash
/-! Two `status` at the same time, on files that somebody is touching (C107). -/
namespace Snap.Props
open Snap

/-- The second one finds the cache locked. -/
def exCT (p : Nat) : CacheTask :=
  { X := exX, A := exTouch, R := exR, q := exQ, cmd := .status, world := exW2, later := exTouched, faults := [decide (p = 1), false, false, false] }

def exC0 : World := { exW2 with cache := {} }
theorem exC0_uses : World.Uses mixEnv [] exC0 := .start _ rfl

theorem putAll_faults (l : List (CacheKey × Key)) (c : Cache) : (putAll l c).2.faults.length = c.faults.length - l.length := by
  induction l generalizing c with
  | nil => rfl
  | cons e l ih =>
    simp only [putAll]
    rw [ih]
    have : (Cache.put e.1 e.2 c).2.faults.length = c.faults.length - 1 := by unfold Cache.put; split <;> simp_all
    rw [this, List.length_cons]; omega

theorem exCT_single {p : Nat} {P : CProc} (h : (exCT p).Is P)
    (hl : (Command.racing exX exTouch exR .status (startOf { exW2 with cache := ⟨[], (exCT p).faults⟩ } exQ)).2.cache.faults.length = 3) : ∃ e, P.puts (P.sees {}) = [e] := by
  have hs : P.sees {} = ⟨[], (exCT p).faults⟩ := by rw [CProc.sees, h.faults]
  rw [hs]
  have e := h.puts ⟨[], (exCT p).faults⟩
  have hn : (P.puts ⟨[], (exCT p).faults⟩).length = 1 := by
    have h1 := putAll_faults (P.puts ⟨[], (exCT p).faults⟩) ⟨[], (exCT p).faults⟩
    rw [e] at h1
    have h2 : (exCT p).faults.length = 4 := rfl
    simp only [h2] at h1
    have h3 : (Command.racing (exCT p).X (exCT p).A (exCT p).R (exCT p).cmd (startOf { (exCT p).world with cache := ⟨[], (exCT p).faults⟩ } (exCT p).q)).2.cache.faults.length = 3 := hl
    rw [h3] at h1
    omega
  match P.puts ⟨[], (exCT p).faults⟩, hn with
  | [e], _ => exact ⟨e, rfl⟩

/-- both look, 0 writes, 1 cannot, 0 commits, 1 ends without having written. -/
theorem exCRun : ∃ P : Nat → CProc, (∀ p, (exCT p).Is (P p)) ∧ ∃ s, CSched.Run P { durable := exC0.cache } s ∧ (∃ snap, s.procs 0 = .ended snap true) ∧ (∃ snap, s.procs 1 = .ended snap false) := by
  let P : Nat → CProc := fun p => (C107_process (exCT p)).choose
  have hP : ∀ p, (exCT p).Is (P p) := fun p => (C107_process (exCT p)).choose_spec
  refine ⟨P, hP, ?_⟩
  obtain ⟨e0, h0⟩ := exCT_single (hP 0) (by decide +kernel)
  obtain ⟨e1, h1⟩ := exCT_single (hP 1) (by decide +kernel)
  have s0 : (P 0).sees {} = ⟨[], [false, false, false, false]⟩ := by rw [CProc.sees, (hP 0).faults]; rfl
  have s1 : (P 1).sees {} = ⟨[], [true, false, false, false]⟩ := by rw [CProc.sees, (hP 1).faults]; rfl
  let A0 : CState := .active ((P 0).sees {}) ((P 0).sees {}) [] ((P 0).puts ((P 0).sees {})) false
  let A1 : CState := .active ((P 1).sees {}) ((P 1).sees {}) [] ((P 1).puts ((P 1).sees {})) false
  have r2 : CSched.Run P { durable := exC0.cache } ((({ durable := {} } : CSched).set 0 A0).set 1 A1) := (CSched.Run.refl.tail (.start _ 0 rfl)).tail (.start _ 1 rfl)
  have r3 := r2.tail (.put _ 0 (snap := (P 0).sees {}) (view := (P 0).sees {}) (done := []) (todo := []) (e := e0) (w := false) (by
    show A0 = _
    simp only [A0, h0]) (fun _ => .inr ⟨fun p' => by
      simp only [CSched.set]
      split
      · rfl
      · split <;> rfl, rfl⟩))
  have r4 := r3.tail (.put _ 1 (snap := (P 1).sees {}) (view := (P 1).sees {}) (done := []) (todo := []) (e := e1) (w := false) (by
    show A1 = _
    simp only [A1, h1]) (fun hw => by rw [s1] at hw; cases hw))
  have r5 := r4.tail (.commit _ 0 (snap := (P 0).sees {}) (view := (Cache.put e0.1 e0.2 ((P 0).sees {})).2) (done := [e0]) (by
    simp [CSched.set, s0, Cache.put, Res.isOk]) (by rw [(hP 0).ok, s0]; decide +kernel) (by rw [s0]; simp [Cache.put]))
  have r6 := r5.tail (.stop _ 1 (snap := (P 1).sees {}) (view := (Cache.put e1.1 e1.2 ((P 1).sees {})).2) (done := [e1]) (todo := []) (w := (Cache.put e1.1 e1.2 ((P 1).sees {})).1.isOk) (by
    simp [CSched.set]))
  exact ⟨_, r6, ⟨(P 0).sees {}, by simp [CSched.set]⟩, ⟨(P 1).sees {}, by simp [CSched.set]⟩⟩

/-- So the cache is what 0 leaves alone, and good for all that is proved about it; -/
example : ∃ P : Nat → CProc, (∀ p, (exCT p).Is (P p)) ∧ ∃ s, CSched.Run P { durable := exC0.cache } s ∧ (∃ snap, s.procs 0 = .ended snap true) ∧ (∃ order, CacheSerial P exC0.cache s order ∧ 0 ∈ order ∧ 1 ∉ order) ∧
    (∃ w', World.Ages exC0 w' ∧ w'.cache.rows = s.durable.rows) ∧
    ∃ L w', World.Uses mixEnv L w' ∧ (∀ f ∈ L, f ∈ [exW2.fs, exTouched] ∨ f ∈ []) ∧ w'.cache.rows = s.durable.rows := by
  obtain ⟨P, hP, s, hr, ⟨s0, h0⟩, s1, h1⟩ := exCRun
  obtain ⟨order, ho⟩ := C107_serial hr
  refine ⟨P, hP, s, hr, ⟨s0, h0⟩, ⟨order, ho, (ho.wrote 0).mpr ⟨s0, h0⟩, fun hm => ?_⟩, C107_ages hP hr, (C107_right hP (fun _ => rfl) (fun _ => exTouch_whole) exC0_uses hr).1⟩
  obtain ⟨x, hx⟩ := (ho.wrote 1).mp hm
  rw [h1] at hx
  cases hx

/-- 0 has stored something there, and 1 ends as well as 0 though it could not. -/
example : ((exCT 0).after {}).rows.length = 1 ∧ ((exCT 1).after {}).rows = [] ∧ (runRacing exX exTouch exR exQ .status exTouched ((exCT 1).on {})).1 = .success ∧
    (match (runRacing exX exTouch exR exQ .status exTouched ((exCT 1).on {})).2.1, (runRacing exX exTouch exR exQ .status exTouched ((exCT 0).on {})).2.1 with
      | [.headAt a b, .result r], [.headAt a' b', .result r'] => (a == a') && (b == b') && decide (r = r')
      | _, _ => false) = true := by decide +kernel

end Snap.Props
