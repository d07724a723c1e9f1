import Verif.Props.Genuine
import Verif.ExampleFetchable
/-! Concrete instances for C92. -/
namespace Snap.Props
open Snap

instance (H : Bytes → Key) (db : Db) : Decidable (Spec.Genuine H db) := inferInstanceAs (Decidable (∀ r ∈ db.data, r.1 = (H r.2).asDbKey))
instance (H : Bytes → Key) (l : List Bytes) : Decidable (Spec.Apart H l) := inferInstanceAs (Decidable (∀ x ∈ l, ∀ y ∈ l, H x = H y → x = y))

/-- The sound world. -/
def exWhole : World := withFs exG2 exRepo2
theorem exWholeOpens : Opens exG' exWhole exGR exGQ := exGOpens2
/-- The `i`th row lost, another one slipped in. -/
def exTorn (i : Nat) : World := exWhole.setDb exGQ { exG2.dbs exGQ with data := (exG2.dbs exGQ).data.eraseIdx i ++ [((mixH [9]).asDbKey, [9])] }
theorem exTornOpens (i : Nat) : Opens exG' (exTorn i) exGR exGQ := exWholeOpens
theorem exTornAlike (i : Nat) : Spec.Alike (exTorn i) exWhole exGQ := by
  refine ⟨rfl, rfl, ?_, ?_, ?_⟩ <;> simp only [exTorn, World.setDb, if_true] <;> rfl
/-- The `i`th row with the bytes of the `j`th. -/
def exForged (i j : Nat) : World := exWhole.setDb exGQ { exG2.dbs exGQ with data := (exG2.dbs exGQ).data.set i (((exG2.dbs exGQ).data.getD i ([], [])).1, ((exG2.dbs exGQ).data.getD j ([], [])).2) }

example : Spec.Genuine mixH (exWhole.dbs exGQ) ∧ (exWhole.dbs exGQ).data.length = 8 := by decide +kernel
example : Spec.Genuine mixH ((exTorn 3).dbs exGQ) ∧ Spec.Genuine mixH ((exTorn 0).dbs exGQ) := by decide +kernel
example : ¬ Spec.Genuine mixH ((exForged 3 0).dbs exGQ) := by decide +kernel

theorem exTornKey (i : Nat) (h : (canonicalize (exWhole.dbs exGQ) exTreeKey == canonicalize ((exTorn i).dbs exGQ) exTreeKey) = true) :
    ∃ k, canonicalize ((exTorn i).dbs exGQ) exTreeKey = .ok k ∧ canonicalize (exWhole.dbs exGQ) exTreeKey = .ok k := by
  obtain ⟨k, h1, _⟩ := exFetchKey
  have h1 : canonicalize (exWhole.dbs exGQ) exTreeKey = .ok k := h1
  exact ⟨k, by rw [← eq_of_beq h, h1], h1⟩


/-- A file's content is lost: the fetch stops, and what it left is part of what it should leave. -/
example : (mainRun exG' (.fetch exTreeKey [110]) (exTorn 3)).1 = .fatal .sqlite ∧ Spec.Grown (mainRun exG' (.fetch exTreeKey [110]) (exTorn 3)).2.2.fs (mainRun exG' (.fetch exTreeKey [110]) exWhole).2.2.fs := by
  obtain ⟨k, h1, h2⟩ := exTornKey 3 (by decide +kernel)
  exact ⟨by decide +kernel, C92_fetch (exTornOpens 3) (exTornAlike 3) (by decide +kernel) (by decide +kernel) (by decide +kernel) h1 h2 [110] (by decide +kernel)⟩
/-- `debug walk-tree` does not need it: what it prints is right. -/
example : (mainRun exG' (.walkTree exTreeKey) (exTorn 0)).1 = .success ∧ Spec.Agree (mainRun exG' (.walkTree exTreeKey) (exTorn 0)) (mainRun exG' (.walkTree exTreeKey) exWhole) exGQ :=
  ⟨by decide +kernel, (C92_agree (by simp) (exTornOpens 0) (exTornAlike 0) (by decide +kernel) (by decide +kernel) (by decide +kernel)
    (fun key hk => by rw [List.mem_singleton.mp hk]; exact exTornKey 0 (by decide +kernel)) (by decide +kernel)).2 (by decide +kernel)⟩
/-- One row more changes nothing. -/
example : Spec.Agree (mainRun exG' (.commit none [104] none) exWhole) (mainRun exG' (.commit none [104] none) (exTorn 8)) exGQ :=
  ((C92_more (cmd := .commit none [104] none) (w := exWhole) (v := exTorn 8) (by simp) exWholeOpens ⟨rfl, rfl, (exTornAlike 8).state.symm, (exTornAlike 8).reflog.symm, (exTornAlike 8).faults.symm⟩ (by decide +kernel) (by decide +kernel) (by decide +kernel) (by decide +kernel)
    (fun key hk => by cases hk)).2 (by decide +kernel)).2
/-- Bytes that are not under their hash: the fetch succeeds, and the file has another content. -/
example : (mainRun exG' (.fetch exTreeKey [110]) (exForged 3 0)).1 = .success ∧ (mainRun exG' (.fetch exTreeKey [110]) exWhole).1 = .success ∧
    (mainRun exG' (.fetch exTreeKey [110]) (exForged 3 0)).2.2.fs.ents.getLast?.map (·.2) = some (.file [9] ⟨0, 0⟩) ∧
    (mainRun exG' (.fetch exTreeKey [110]) exWhole).2.2.fs.ents.getLast?.map (·.2) = some (.file [] ⟨0, 0⟩) := by decide +kernel
example (k : Key) (v : Bytes) (h : get (exWhole.dbs exGQ) k = .ok v) : mixH v = k := C92_authentic (by decide +kernel) h
example := C92_kept exReach3 exQ
example := C92_unchecked (exWhole.dbs exGQ)

end Snap.Props
