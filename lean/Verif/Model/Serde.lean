import Verif.Model.Object
import Verif.Model.Path
/-!
What is read with serde_cbor: objects (src/ds/mod.rs:293-297), the data of file and directory items (src/dir.rs:53-64) and those of commits (src/commit.rs:82-106).

The library's decoder accepts more than its encoder produces (indefinite lengths, tags, floats, structs as arrays, …). How much is not fixed here: the three functions are the class `Serde`, and
what is assumed of them is the class `LawfulSerde`, eleven statements. The theorems are about every lawful decoder. `Subset` is a decoder for what the encoder produces and
a little more; it is lawful (Lemmas/Serde.lean) and is what the examples run with.
-/
namespace Snap

/-- `enum FSItemType`; src/dir.rs:25-29. -/
inductive ItemType where
  | dir | file
  deriving DecidableEq, Repr

/-- `struct FSItem`; src/dir.rs:16-23. `size` is a `u64`. -/
structure FsItem where
  size : Nat
  itemtype : ItemType
  names : List Path
  children : List Key
  deriving DecidableEq, Repr

/-- Field and variant names: "size", "itemtype", "children_names", "Dir", "File"; src/dir.rs:16-29. -/
def sSize : Bytes := [115, 105, 122, 101]
/-- src/dir.rs:19. -/
def sItemtype : Bytes := [105, 116, 101, 109, 116, 121, 112, 101]
/-- src/dir.rs:20. -/
def sChildrenNames : Bytes := [99, 104, 105, 108, 100, 114, 101, 110, 95, 110, 97, 109, 101, 115]
/-- src/dir.rs:27. -/
def sDir : Bytes := [68, 105, 114]
/-- src/dir.rs:28. -/
def sFile : Bytes := [70, 105, 108, 101]

/-- Derived `Serialize` of `FSItemType`; src/dir.rs:25-29. -/
def ItemType.name : ItemType → Bytes
  | .dir => sDir
  | .file => sFile

/-- `serde_cbor::value::to_value(&self)`: a map without `children` (`#[serde(skip)]`); src/dir.rs:35. A `Value::Map` is a `BTreeMap` whose keys are ordered by
length first, so the fields come out as size, itemtype, children_names. Paths are serialised as text. -/
def FsItem.toCbor (i : FsItem) : Cbor :=
  .map [.text sSize, .uint i.size, .text sItemtype, .text i.itemtype.name, .text sChildrenNames, .array (i.names.map .text)]

/-- A `PathBuf` element: text, or bytes that are UTF-8 (serde's path visitor); src/dir.rs:20,58. -/
def cborPath : Cbor → Res Path
  | .text b => .ok b
  | .bytes b => if utf8 b then .ok b else .err .decode
  | _ => .err .decode

/-- Derived `Deserialize` of `FSItemType` from its variant name; src/dir.rs:25-29. -/
def ItemType.ofName (s : Bytes) : Res ItemType :=
  if s = sDir then .ok .dir else if s = sFile then .ok .file else .err .decode

/-- `struct CommitAttrs`; src/commit.rs:22-26. `extra` is the `HashMap<String, serde_cbor::Value>` in the order in which it iterates. Values are limited to the `Cbor`
subset (no floats, booleans, null). -/
structure CommitAttrs where
  message : Bytes := []
  extra : List (Bytes × Cbor) := []

/-- Field names "message" and "extra"; src/commit.rs:22-26. -/
def sMessage : Bytes := [109, 101, 115, 115, 97, 103, 101]
/-- src/commit.rs:22-26. -/
def sExtra : Bytes := [101, 120, 116, 114, 97]

/-- Derived `Serialize` of `CommitAttrs`, fields in declaration order; src/commit.rs:22-26. -/
def CommitAttrs.toCbor (a : CommitAttrs) : Cbor :=
  .map [.text sMessage, .text a.message, .text sExtra, .map (a.extra.flatMap fun e => [.text e.1, e.2])]

/-- The entries of a map with text keys, for `HashMap<String, Value>`; src/commit.rs:22-26,86-88. -/
def cborPairs : List Cbor → Res (List (Bytes × Cbor))
  | [] => .ok []
  | .text k :: v :: l => do
    let r ← cborPairs l
    pure ((k, v) :: r)
  | _ => .err .decode

/-- Derived `Deserialize` of `CommitAttrs` from a `serde_cbor::Value` (the last of equal keys wins); src/commit.rs:86-88. Not modelled (decoding errors here): reading the
struct from an array or with integer field names, strings given as byte strings. -/
def CommitAttrs.ofCbor : Cbor → Res CommitAttrs
  | .map kvs =>
    match (Cbor.field sMessage kvs).getLast?, (Cbor.field sExtra kvs).getLast? with
    | some (.text m), some (.map l) => do
      let extra ← cborPairs l
      pure ⟨m, extra⟩
    | _, _ => .err .decode
  | _ => .err .decode

/-- Reading an object, for definite lengths; src/ds/mod.rs:293-297. -/
def Subset.object (b : Bytes) : Res Object := do
  let c ← Cbor.parse b
  Object.ofCbor c

/-- Reading the data of an item, for definite lengths, through `serde_cbor::Value` (where the last of several equal keys wins); src/dir.rs:55-58. Not represented (errors here): reading the struct
from an array or with integer field names, the enum from a one-entry map. -/
def Subset.item (b : Bytes) : Res (Nat × ItemType × List Path) := do
  match ← Cbor.parse b with
  | .map kvs =>
    match (Cbor.field sSize kvs).getLast?, (Cbor.field sItemtype kvs).getLast?, (Cbor.field sChildrenNames kvs).getLast? with
    | some (.uint n), some (.text t), some (.array l) => do
      let ty ← ItemType.ofName t
      let names ← mapRes cborPath l
      pure (n, ty, names)
    | _, _, _ => .err .decode
  | _ => .err .decode

/-- Reading the data of a commit, for definite lengths; src/commit.rs:86-88. -/
def Subset.attrs (b : Bytes) : Res CommitAttrs := do
  let c ← Cbor.parse b
  CommitAttrs.ofCbor c

/-- The keys of a map of which keys and values are listed in turn; src/commit.rs:22-26. -/
def Cbor.mapKeys : List Cbor → List Cbor
  | k :: _ :: l => k :: Cbor.mapKeys l
  | _ => []

mutual
/-- Values as `serde_cbor::Value` holds them: the keys of a map with several entries are distinct and in the order of the `BTreeMap` (shorter ones first); src/commit.rs:22-26. Only text keys are
represented in such maps. -/
def Cbor.Canon : Cbor → Prop
  | .array l => Cbor.CanonList l
  | .map l => Cbor.CanonList l ∧ (Cbor.mapKeys l).Pairwise fun a b => ∃ s t, a = .text s ∧ b = .text t ∧ (s.length < t.length ∨ s.length = t.length ∧ s < t)
  | .uint _ | .nint _ | .bytes _ | .text _ => True
/-- The same for the elements of an array or map; src/commit.rs:22-26. -/
def Cbor.CanonList : List Cbor → Prop
  | [] => True
  | c :: l => c.Canon ∧ Cbor.CanonList l
end

/-- Attributes that exist and are not nested too deeply for the decoder: the keys of the `HashMap` are distinct; src/commit.rs:22-26,86-88. -/
def CommitAttrs.Readable (a : CommitAttrs) : Prop := (a.extra.map Prod.fst).Nodup ∧ ∀ e ∈ a.extra, e.2.Canon ∧ e.2.depth ≤ 126

/-- The three uses of serde_cbor's decoder: `from_slice::<Object>` (src/ds/mod.rs:296), `from_slice::<Value>` with `from_value::<FSItem>` (src/dir.rs:56-58; `children` is skipped) and
`from_slice::<Value>` with `from_value::<CommitAttrs>` (src/commit.rs:86-88). -/
class Serde where
  object : Bytes → Res Object
  item : Bytes → Res (Nat × ItemType × List Path)
  attrs : Bytes → Res CommitAttrs

/-- The decoder for definite lengths, with which examples are computed; src/ds/mod.rs:296, src/dir.rs:56-58, src/commit.rs:86-88. -/
instance Subset.serde : Serde := ⟨Subset.object, Subset.item, Subset.attrs⟩

/-- What is assumed of serde_cbor's decoder: it does not panic, it inverts the encoder (further attributes of a commit come back in any order, and not at all if nested too deeply; the limit is 128), and it does not find fields that are not
there; src/ds/mod.rs:296, src/dir.rs:56-58, src/commit.rs:86-88. -/
class LawfulSerde [Serde] : Prop where
  object_total : ∀ b, (∃ x, Serde.object b = .ok x) ∨ Serde.object b = .err .decode
  item_total : ∀ b, (∃ x, Serde.item b = .ok x) ∨ Serde.item b = .err .decode
  attrs_total : ∀ b, (∃ x, Serde.attrs b = .ok x) ∨ Serde.attrs b = .err .decode
  object_enc : ∀ {o : Object} {b : Bytes}, o.encode = .ok b → Serde.object b = .ok o
  item_enc : ∀ i : FsItem, i.toCbor.wf = true → Serde.item i.toCbor.enc = .ok (i.size, i.itemtype, i.names)
  attrs_enc : ∀ a : CommitAttrs, a.toCbor.wf = true → a.Readable → ∃ x, Serde.attrs a.toCbor.enc = .ok ⟨a.message, x⟩ ∧ x.Perm a.extra
  attrs_deep : ∀ a : CommitAttrs, a.toCbor.wf = true → (¬ ∀ e ∈ a.extra, e.2.depth ≤ 126) → Serde.attrs a.toCbor.enc = .err .decode
  item_attrs : ∀ a : CommitAttrs, a.toCbor.wf = true → a.extra = [] → Serde.item a.toCbor.enc = .err .decode
  attrs_item : ∀ i : FsItem, i.toCbor.wf = true → Serde.attrs i.toCbor.enc = .err .decode
  item_nil : Serde.item [] = .err .decode
  attrs_nil : Serde.attrs [] = .err .decode

variable [Serde]

/-- `serde_cbor::from_slice(bytes)`; src/ds/mod.rs:296. -/
def Object.decode (b : Bytes) : Res Object := Serde.object b

end Snap
