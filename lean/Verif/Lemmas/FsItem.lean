import Verif.Lemmas.FileMore
import Verif.Model.FsItem
import Verif.Lemmas.Serde
/-! Lemmas about the stored form of files and directories. -/
namespace Snap

theorem FsItem.toObject_ok {i : FsItem} {o : Object} (h : i.toObject = .ok o) :
    i.Storable ∧ o = ⟨i.toCbor.enc, i.children, i.itemtype.objType⟩ := by
  unfold FsItem.toObject at h
  split at h
  · rename_i hw
    simp at h
    exact ⟨(FsItem.toCbor_wf i).mp hw, h.symm⟩
  · simp at h

theorem FsItem.toObject_of {i : FsItem} (h : i.Storable) : i.toObject = .ok ⟨i.toCbor.enc, i.children, i.itemtype.objType⟩ := by
  unfold FsItem.toObject
  rw [if_pos ((FsItem.toCbor_wf i).mpr h)]

theorem FsItem.toObject_err {i : FsItem} (h : ¬ i.Storable) : i.toObject = .err .encode := by
  unfold FsItem.toObject
  rw [if_neg (fun e => h ((FsItem.toCbor_wf i).mp e))]

set_option linter.unusedSectionVars false
variable [Serde] [LawfulSerde]

theorem FsItem.ofObject_toObject {i : FsItem} {o : Object} (h : i.toObject = .ok o) : FsItem.ofObject o = .ok i := by
  obtain ⟨hs, rfl⟩ := FsItem.toObject_ok h
  unfold FsItem.ofObject
  rw [LawfulSerde.item_enc i ((FsItem.toCbor_wf i).mpr hs)]
  rfl

/-- The children of an item are the keys of its object. -/
theorem FsItem.ofObject_keys {o : Object} {i : FsItem} (h : FsItem.ofObject o = .ok i) : i.children = o.keys := by
  unfold FsItem.ofObject at h
  obtain ⟨⟨n, t, l⟩, _, h⟩ := Res.bind_eq_ok h
  simp only [pure, Res.ok.injEq] at h
  rw [← h]

/-- Storing an item and reading it back. -/
theorem putItem_getItem {H : Bytes → Key} {i : FsItem} {o : Object} {db db' : Db} {k : Key} (hi : Inv H db) (ho : i.toObject = .ok o)
    (hp : putObj H o db = (.ok k, db')) (hc : NoColl H db') : getItem db' k = .ok i := by
  unfold getItem
  rw [putObj_getObj hi hp hc]
  exact FsItem.ofObject_toObject ho

theorem getItem_mono {a b : Db} (h : a.data <+: b.data) {k : Key} {i : FsItem} (hg : getItem a k = .ok i) : getItem b k = .ok i := by
  unfold getItem at *
  obtain ⟨o, ho, hi⟩ := Res.bind_eq_ok hg
  rw [getObj_mono h ho]
  exact hi

end Snap
