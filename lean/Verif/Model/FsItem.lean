import Verif.Model.Ds
import Verif.Model.Path
/-! Model of the stored form of files and directories: `FSItem` and its conversions; src/dir.rs:16-64. -/
namespace Snap

/-- The object type belonging to an item type; src/dir.rs:39-42. -/
def ItemType.objType : ItemType → ObjType
  | .dir => .fsItemDir
  | .file => .fsItemFile

/-- `TryInto<Object> for FSItem`; src/dir.rs:34-49. A path that is not UTF-8 cannot be serialised. -/
def FsItem.toObject (i : FsItem) : Res Object :=
  if i.toCbor.wf then .ok ⟨i.toCbor.enc, i.children, i.itemtype.objType⟩ else .err .encode

variable [Serde]

/-- `TryInto<FSItem> for Object`: the data part, with the object's keys as children; src/dir.rs:55-63. -/
def FsItem.ofObject (o : Object) : Res FsItem := do
  let (size, ty, names) ← Serde.item o.data
  pure ⟨size, ty, names, o.keys⟩

/-- `get_obj` followed by the conversion; src/dir.rs:237-239,288-290,363-365. -/
def getItem (db : Db) (k : Key) : Res FsItem := do
  let obj ← getObj db k
  FsItem.ofObject obj

end Snap
