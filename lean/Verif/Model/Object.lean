import Verif.Model.Cbor
import Verif.Model.Key
/-! Model of src/object.rs and of the (de)serialisation derived there and in src/key.rs. -/
namespace Snap

/-- `enum ObjType`; src/object.rs:11-21. -/
inductive ObjType where
  | fileBlobTree | fileBlob | commit | fsItemDir | fsItemFile | unknown
  deriving DecidableEq, Repr

/-- `struct Object`; src/object.rs:4-9. -/
structure Object where
  data : Bytes
  keys : List Key
  objtype : ObjType
  deriving DecidableEq, Repr

/-- Derived `Serialize` of the unit variants of `ObjType`: their names; src/object.rs:11-21.
"FileBlobTree", "FileBlob", "Commit", "FSItemDir", "FSItemFile", "Unknown". -/
def ObjType.name : ObjType → Bytes
  | .fileBlobTree => [70, 105, 108, 101, 66, 108, 111, 98, 84, 114, 101, 101]
  | .fileBlob => [70, 105, 108, 101, 66, 108, 111, 98]
  | .commit => [67, 111, 109, 109, 105, 116]
  | .fsItemDir => [70, 83, 73, 116, 101, 109, 68, 105, 114]
  | .fsItemFile => [70, 83, 73, 116, 101, 109, 70, 105, 108, 101]
  | .unknown => [85, 110, 107, 110, 111, 119, 110]

/-- Derived `Deserialize` with `#[serde(other)] Unknown`; src/object.rs:11-21. -/
def ObjType.ofName (s : Bytes) : ObjType :=
  if s = ObjType.fileBlobTree.name then .fileBlobTree
  else if s = ObjType.fileBlob.name then .fileBlob
  else if s = ObjType.commit.name then .commit
  else if s = ObjType.fsItemDir.name then .fsItemDir
  else if s = ObjType.fsItemFile.name then .fsItemFile
  else .unknown

/-- Field and variant names: "data", "keys", "objtype", "Blake3B"; src/object.rs:4-21, src/key.rs:6-8. -/
def sData : Bytes := [100, 97, 116, 97]
/-- src/object.rs:7. -/
def sKeys : Bytes := [107, 101, 121, 115]
/-- src/object.rs:8. -/
def sObjtype : Bytes := [111, 98, 106, 116, 121, 112, 101]
/-- src/key.rs:7. -/
def sBlake3B : Bytes := [66, 108, 97, 107, 101, 51, 66]

/-- Derived `Serialize` of `Key`: `{"Blake3B": [b0, …, b31]}`; src/key.rs:3-8. -/
def Key.toCbor (k : Key) : Cbor := .map [.text sBlake3B, .array (k.hash.map fun b => .uint b.toNat)]

/-- A `u8` element; src/key.rs:6-8 (`[u8; 32]`). -/
def cborU8 : Cbor → Res UInt8
  | .uint n => if n < 256 then .ok (UInt8.ofNat n) else .err .decode
  | _ => .err .decode

/-- Sequencing a fallible conversion over a list, left to right; src/object.rs:7. -/
def mapRes {α β} (f : α → Res β) : List α → Res (List β)
  | [] => .ok []
  | a :: l => do
    let b ← f a
    let r ← mapRes f l
    pure (b :: r)

/-- Derived `Deserialize` of `Key`; src/key.rs:3-8. -/
def Key.ofCbor : Cbor → Res Key
  | .map [.text t, .array l] =>
    if t = sBlake3B then do
      let h ← mapRes cborU8 l
      if hl : h.length = 32 then pure ⟨h, hl⟩ else .err .decode
    else .err .decode
  | _ => .err .decode

/-- Derived `Serialize` of `Object`; src/object.rs:4-9 (`data` through `serde_bytes`, so a byte string). -/
def Object.toCbor (o : Object) : Cbor :=
  .map [.text sData, .bytes o.data, .text sKeys, .array (o.keys.map Key.toCbor), .text sObjtype, .text o.objtype.name]

/-- Derived `Deserialize` of `Object`: every field exactly once, unknown fields ignored; src/object.rs:4-9. (A derived struct can also be read from
an array, field names can be given as integers, and a `ByteBuf` from text or an integer array; those foreign encodings are errors in the model.) -/
def Object.ofCbor : Cbor → Res Object
  | .map kvs =>
    match Cbor.field sData kvs, Cbor.field sKeys kvs, Cbor.field sObjtype kvs with
    | [.bytes d], [.array ks], [.text t] => do
      let keys ← mapRes Key.ofCbor ks
      pure ⟨d, keys, ObjType.ofName t⟩
    | _, _, _ => .err .decode
  | _ => .err .decode

/-- `serde_cbor::to_vec(object)`; src/ds/mod.rs:300. -/
def Object.encode (o : Object) : Res Bytes :=
  if o.toCbor.wf then .ok o.toCbor.enc else .err .encode

end Snap
