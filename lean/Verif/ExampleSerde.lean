import Verif.Props.Serde
import Verif.ExampleWhole
/-! Concrete cases for C106: two decoders, the world of the examples, and attributes read in another order. -/
namespace Snap.Props
open Snap

/-- They differ. -/
example : Spec.seven.item [7] = .ok (0, .dir, []) ∧ Subset.serde.item [7] = .err .decode := by decide +kernel

/-- In the world of two commits they agree on every object, commit and contents. -/
example : ∀ k, @getObj Subset.serde (exW3.dbs exQ) k = @getObj Spec.seven (exW3.dbs exQ) k := (C106_world Subset.lawful seven_lawful exSound3 exQ).1
example : (exW3.dbs exQ).data.length = 12 := by decide +kernel

/-- A directory stored there, as read by the other decoder. -/
example : ∀ n, @walkItems Subset.serde (exW3.dbs exQ) n exDirKey = @walkItems Spec.seven (exW3.dbs exQ) n exDirKey := by
  obtain ⟨o, h, ht⟩ := exDirLeads
  exact ((C106_world Subset.lawful seven_lawful exSound3 exQ).2.2.2 (noColl_of (by decide +kernel)) exDirKey o h ht).1

/-- The key of contents stored there does not lead to a file or directory: this is what C106_counterexample is about. -/
example : ∃ r ∈ (exW3.dbs exQ).data, (match Object.decode r.2 with | .ok o => o.objtype == .fileBlob && o.data.length == 1 | _ => false) = true := by decide +kernel

/-- A decoder that gives further attributes in the opposite order. -/
def exRevAttrs (b : Bytes) : Res CommitAttrs := match Subset.attrs b with | .ok a => .ok ⟨a.message, a.extra.reverse⟩ | r => r
@[instance_reducible] def exRev : Serde := ⟨Subset.object, Subset.item, exRevAttrs⟩
theorem exRev_ok {b : Bytes} {a : CommitAttrs} (h : Subset.attrs b = .ok a) : exRev.attrs b = .ok ⟨a.message, a.extra.reverse⟩ := by
  show exRevAttrs b = _
  simp only [exRevAttrs, h]
theorem exRev_err {b : Bytes} (h : Subset.attrs b = .err .decode) : exRev.attrs b = .err .decode := by
  show exRevAttrs b = _
  simp only [exRevAttrs, h]
theorem exRev_lawful : @LawfulSerde exRev := by
  have L : @LawfulSerde Subset.serde := Subset.lawful
  refine @LawfulSerde.mk exRev L.object_total L.item_total ?_ L.object_enc L.item_enc ?_ (fun a h hd => exRev_err (L.attrs_deep a h hd)) L.item_attrs
    (fun i h => exRev_err (L.attrs_item i h)) L.item_nil (exRev_err L.attrs_nil)
  · intro b
    rcases L.attrs_total b with ⟨x, hx⟩ | hx
    · exact .inl ⟨_, exRev_ok hx⟩
    · exact .inr (exRev_err hx)
  · intro a h hr
    exact ⟨_, exRev_ok (Subset.attrs_enc a h fun e he => (hr.2 e he).2), List.reverse_perm _⟩
/-- Two attributes come back in the other order, as the iteration over a `HashMap` may give them. -/
example : (match exRev.attrs (CommitAttrs.toCbor { message := [104], extra := [([97], .uint 1), ([98], .uint 2)] }).enc with | .ok a => a.extra.map (·.1) | _ => []) = [[98], [97]] := by decide +kernel

end Snap.Props
