import Verif.Model.Ds
import Verif.Model.Sort
/-! Model of src/commit.rs. -/
namespace Snap

/-- `struct Commit`; src/commit.rs:15-20. -/
structure Commit where
  tree : Key
  parents : List Key
  attrs : CommitAttrs

/-- `TryInto<Object> for Commit`; src/commit.rs:64-80. -/
def Commit.toObject (c : Commit) : Res Object :=
  if c.attrs.toCbor.wf then .ok ⟨c.attrs.toCbor.enc, c.tree :: c.parents, .commit⟩ else .err .encode

variable [Serde]

/-- `TryInto<Commit> for Object`; src/commit.rs:82-106. The object type is not looked at; `remove(0)` panics if there are no keys. -/
def Commit.ofObject (o : Object) : Res Commit := do
  let attrs ← Serde.attrs o.data
  match o.keys with
  | [] => .panic
  | t :: ps => .ok ⟨t, ps, attrs⟩

/-- `Commit::from_key`; src/commit.rs:39-45. -/
def Commit.fromKey (db : Db) (k : Key) : Res Commit := do
  let obj ← (getObj db k).unwrap
  (Commit.ofObject obj).unwrap

/-- `commit_tree`; src/commit.rs:118-137. -/
def commitTree (H : Bytes → Key) (tree : Key) (parents : List Key) (attrs : CommitAttrs) : M Key := do
  let obj ← SM.lift (Commit.toObject ⟨tree, sortBy Key.le parents, attrs⟩)
  putObj H obj

end Snap
