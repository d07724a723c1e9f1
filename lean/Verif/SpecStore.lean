import Verif.Model.Conn
/-!
Specification vocabulary for the data store: an abstract store of finite maps and a log, effects of calls on it, and which calls of a history count.
Only the call vocabulary (`Call`, `ConnOp`) and `Key` of the model are used.
-/
namespace Snap.Spec

/-- Abstract contents of a repository database. `log` is in push order. -/
structure Store where
  obj : Bytes → Option Bytes
  st : Bytes → Option Bytes
  log : List (Bytes × Option Bytes × Key)

def Store.empty : Store := ⟨fun _ => none, fun _ => none, []⟩

/-- First write wins. -/
def setOnce (m : Bytes → Option Bytes) (k v : Bytes) : Bytes → Option Bytes :=
  fun x => if x = k then some ((m k).getD v) else m x

/-- Last write wins. -/
def setLast (m : Bytes → Option Bytes) (k v : Bytes) : Bytes → Option Bytes :=
  fun x => if x = k then some v else m x

/-- Effect of a successful call. Key bytes are `1 :: hash`; HEAD is the state key "HEAD". -/
def Store.apply (H : Bytes → Key) (s : Store) : Call → Store
  | .put d => { s with obj := setOnce s.obj (1 :: (H d).hash) d }
  | .rawPut k v => { s with obj := setOnce s.obj k v }
  | .putState k v => { s with st := setLast s.st k v }
  | .putHead h => { s with st := setLast s.st [72, 69, 65, 68] h }
  | .reflogPush n r k => { s with log := s.log ++ [(n, r, k)] }

/-- Keys pushed for a ref, in push order. -/
def Store.pushed (s : Store) (n : Bytes) (r : Option Bytes) : List Key :=
  (s.log.filter fun e => e.1 = n ∧ e.2.1 = r).map (·.2.2)

/-- The calls of a history that took effect durably: those outside a transaction at once, those of a transaction when it commits.
The input is the history with the outcome of each step; the first argument holds the open transaction's calls. -/
def committed : Option (List Call) → List (ConnOp × Bool) → List Call
  | _, [] => []
  | none, (.call c, true) :: t => c :: committed none t
  | none, (.begin, true) :: t => committed (some []) t
  | none, _ :: t => committed none t
  | some p, (.call c, true) :: t => committed (some (p ++ [c])) t
  | some p, (.commit, true) :: t => p ++ committed none t
  | some _, (.rollback, true) :: t => committed none t
  | some _, (.crash, _) :: t => committed none t
  | some p, _ :: t => committed (some p) t

/-- Values written for a state key, oldest first. -/
def stateWrites (k : Bytes) : List Call → List Bytes
  | [] => []
  | .putState k' v :: t => if k' = k then v :: stateWrites k t else stateWrites k t
  | .putHead v :: t => if [72, 69, 65, 68] = k then v :: stateWrites k t else stateWrites k t
  | _ :: t => stateWrites k t

/-- Keys pushed for a ref, oldest first. -/
def pushes (n : Bytes) (r : Option Bytes) : List Call → List Key
  | [] => []
  | .reflogPush n' r' k :: t => if n' = n ∧ r' = r then k :: pushes n r t else pushes n r t
  | _ :: t => pushes n r t

end Snap.Spec
