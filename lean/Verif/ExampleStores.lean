import Verif.Props.Stores
import Verif.ExampleCli
/-! C83 with concrete files. -/
namespace Snap.Props
open Snap

/-- the key of the example directory, computed without a database, is the one `insert` prints -/
example : (nullStore.putFsItem exX.E exW1.fs (makeFilter exX.glob exR.folder) exX.depth exR.root ()).1.isOk = true ∧
    (match (mainRun exX (.insert exR.root) exW1).2.1 with
      | [.key k] => some k
      | _ => none) = (nullStore.putFsItem exX.E exW1.fs (makeFilter exX.glob exR.folder) exX.depth exR.root ()).1.toOption ∧
    true ∉ (exW1.dbs exQ).faults ∧ exW1.cache.faults = [] := by decide +kernel

/-- two databases with different contents give the example directory the same key -/
example : (sqliteStore.putFsItem exX.E exW1.fs (makeFilter exX.glob exR.folder) exX.depth exR.root (exW1.dbs exQ)).1.isOk = true ∧
    (sqliteStore.putFsItem exX.E exW1.fs (makeFilter exX.glob exR.folder) exX.depth exR.root (exW3.dbs exQ)).1 =
    (sqliteStore.putFsItem exX.E exW1.fs (makeFilter exX.glob exR.folder) exX.depth exR.root (exW1.dbs exQ)).1 := by decide +kernel

/-- a failing write makes a difference -/
example : (putData exX.E.table exX.E.H [.data [1]] { faults := [true] }).1 = .err .sqlite ∧ (nullStore.putData exX.E.table exX.E.H [.data [1]] ()).1.isOk = true := by decide +kernel

/-- a commit -/
example : (nullStore.commitTree exX.E.H (exX.E.H [1]) [exX.E.H [2]] { message := [104] } ()).1.isOk = true := by decide +kernel

end Snap.Props
