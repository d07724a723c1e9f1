import Verif.Model.Cli
/-!
How a process starts and ends, where that fails: registering the callback of SQLite, the directory and the database of the cache, beginning the two transactions and
rolling them back (src/main.rs:712-801). Model/Cli.lean has all of this succeed. The result of beginning the transaction on the database is dropped (src/main.rs:770); the
command then runs without one.
-/
namespace Snap
variable [Serde]

/-- What succeeds apart from the command itself; src/main.rs:717,743-759,770-771,793-794. -/
structure Starts where
  /-- `setup_sqlite_callback`; src/main.rs:717. -/
  callback : Bool := true
  /-- The directory of the cache is there or made, and its database opens; src/main.rs:743-759. The two fail with different errors, which are not told apart. -/
  cache : Bool := true
  /-- `BEGIN` on the database; src/main.rs:770. -/
  begins : Bool := true
  /-- `BEGIN` on the cache; src/main.rs:771. -/
  cacheBegins : Bool := true
  /-- `ROLLBACK` on the database; src/main.rs:793. -/
  rollsBack : Bool := true
  /-- `ROLLBACK` on the cache; src/main.rs:794. -/
  cacheRollsBack : Bool := true

/-- How the process ends if `ROLLBACK` on the cache may fail, which happens after `fatal: …` is printed; src/main.rs:788-801. -/
def Starts.exit (st : Starts) : Exit → Exit
  | .fatal e => if st.cacheRollsBack then .fatal e else .failure .sqlite
  | e => e

/-- The end of the connection to the database, where `ROLLBACK` may fail; as `Conn.finish`; src/main.rs:788-798. -/
def Starts.finish (st : Starts) (r : Res Unit) (c : Conn) : Conn :=
  match r with
  | .err _ => if st.rollsBack then c.rollback.2.crash else c.crash
  | r => c.finish r

/-- A command run by `main` on the repository `R` whose database is at `q`; as `runIn`, but if the transaction could not be begun, every statement commits by itself, and
`COMMIT` and `ROLLBACK` at the end are errors that are ignored; src/main.rs:764-800. -/
def runStarted (st : Starts) (X : Ctx) (R : Repo) (q : List Bytes) (cmd : Command) (w : World) : Exit × List Out × World :=
  let conn := if st.begins then (Conn.mk (w.dbs q) none).begin.2 else Conn.mk (w.dbs q) none
  let s := cmd.body X (some R) { db := conn.view, cache := w.cache, fs := w.fs }
  let conn := (conn.exec fun _ => (s.1, s.2.db)).2
  let ca := Cache.finish s.1 w.cache s.2.cache
  (st.exit (exitOf s.1 ca.1), s.2.out, { w with fs := s.2.fs, cache := ca.2 }.setDb q (st.finish s.1 conn).durable)

/-- `main`, where starting may fail; as `mainRun`; src/main.rs:712-801. Opening the database of the repository (src/main.rs:729) precedes the cache. -/
def mainStart (st : Starts) (X : Ctx) (cmd : Command) (w : World) : Exit × List Out × World :=
  if !st.callback then (.failure .sqlite, [], w) else
  match findDbFolder w.fs X.dbPath with
  | .err e => (.failure e, [], w)
  | .panic => (.panicked, [], w)
  | .fuel => (.fuel, [], w)
  | .ok found =>
    let repo : Res (Option (Repo × List Bytes)) := (match found with
      | none => .ok none
      | some x =>
        match Path.parent x with
        | none => .panic
        | some root => do
          let q ← openDb w.fs x
          pure (some (⟨x, root⟩, q)))
    match repo with
    | .err e => (.failure e, [], w)
    | .panic => (.panicked, [], w)
    | .fuel => (.fuel, [], w)
    | .ok repo =>
      if !st.cache then (.failure .io, [], w) else
      if !st.cacheBegins then (.failure .sqlite, [], w) else
      match cmd with
      | .init =>
        let r := runInit X w
        let ca := Cache.finish r.1 w.cache w.cache
        (st.exit (exitOf r.1 ca.1), [], { r.2 with cache := ca.2 })
      | _ =>
        match repo with
        | some (R, q) => runStarted st X R q cmd w
        | none =>
          let r := runOut X cmd w
          (st.exit r.1, r.2)

end Snap
