import Verif.Props.Failing
import Verif.ExampleCli
/-! Concrete instances for C91. -/
namespace Snap.Props
open Snap

/-- The second write of the commit fails. -/
def exFull : World := { exW1 with dbs := fun q => { exW1.dbs q with faults := [false, true, false] } }

theorem exFullOpens : Opens exX exFull exR exQ := ⟨by decide +kernel, by decide +kernel, by decide +kernel⟩

example : ((Command.commit none [104] none).inRepo exX exR (startOf exFull exQ)).1 = .panic ∨ ((Command.commit none [104] none).inRepo exX exR (startOf exFull exQ)).1 = .err .sqlite := by
  decide +kernel
example : ((Command.commit none [104] none).inRepo exX exR (startOf exFull exQ)).2.db.faults = [false] := by decide +kernel
example := C91_last exX exR (.commit none [104] none) (startOf exFull exQ) [false] [false] (by simp) rfl
example := C91_stops exX exR (.commit none [104] none) (startOf exFull exQ)
example := C91_autorollback exX (.commit none [104] none) (by simp) exFull exR exQ exFullOpens

/-- Two writes in a transaction, the first of which fails and makes SQLite roll back: the second one is there to stay. A command never does this. -/
example : ((((Conn.mk { faults := [true, false] } none).begin.2.callsAuto mixH [(.putHead [1], true), (.putHead [2], false)]).finishAuto (.err .sqlite) false).durable.state,
    (((Conn.mk { faults := [true, false] } none).begin.2.callsAuto mixH [(.putHead [1], false), (.putHead [2], false)]).finishAuto (.err .sqlite) false).durable.state)
    = ([(sHEAD, [2])], []) := by decide +kernel
/-- The transaction is rolled back by the failing statement, and that is all. -/
example : ∀ b, (((Conn.mk { faults := [false, true] } none).begin.2.callsAuto mixH [(.putHead [1], b), (.putHead [2], b)]).finishAuto (.err .sqlite) b).durable.state = [] := by decide +kernel
/-- A `COMMIT` that fails and rolls back. -/
example : ∀ b, (((Conn.mk { faults := [false, true] } none).begin.2.callsAuto mixH [(.putHead [1], b)]).finishAuto (.ok ()) b).durable.state = [] := by decide +kernel

end Snap.Props
