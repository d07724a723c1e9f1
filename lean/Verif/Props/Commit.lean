import Verif.Props.Store
import Verif.Lemmas.Commit
/-! Property C22. -/
namespace Snap.Props
open Snap
set_option linter.unusedSectionVars false
variable [Serde] [LawfulSerde]

/-- **C22**: what `commit_tree` stored is what `Commit::from_key` reads, from then on; the parents come back as the sorted permutation of those given, further
attributes in some order. `hd` contains serde_cbor's recursion limit; attributes made by the program have no `extra`. -/
theorem C22_roundtrip (H : Bytes → Key) (tree : Key) (parents : List Key) (attrs : CommitAttrs) (db db' : Db) (k : Key) (hi : Inv H db)
    (h : commitTree H tree parents attrs db = (.ok k, db')) (hc : NoColl H db') (hd : attrs.Readable) :
    ∃ ps x, ps.Perm parents ∧ (ps.Pairwise fun a b => a.hash ≤ b.hash) ∧ x.Perm attrs.extra ∧
      ∀ later : Db, db'.data <+: later.data → Commit.fromKey later k = .ok ⟨tree, ps, ⟨attrs.message, x⟩⟩ := by
  obtain ⟨x, hx, hp⟩ := commitTree_fromKey hi h hc hd
  refine ⟨sortBy Key.le parents, x, sortBy_perm _ _, ?_, hp, fun later hl => fromKey_mono hl hx⟩
  exact (sortBy_sorted key_total.toTotalPre parents).imp fun h => by simpa [Key.le] using h

/-- **C22**: the order in which parents are given makes no difference at all. -/
theorem C22_order (H : Bytes → Key) (tree : Key) (ps ps' : List Key) (hp : ps.Perm ps') (attrs : CommitAttrs) (db : Db) :
    commitTree H tree ps attrs db = commitTree H tree ps' attrs db := by
  unfold commitTree
  rw [sortBy_congr key_total hp]

/-- **C22**: with a healthy store every commit with a text message can be made (sizes below the 64-bit limits). -/
theorem C22_succeeds (H : Bytes → Key) (tree : Key) (parents : List Key) (attrs : CommitAttrs) (db : Db) (hf : db.faults = []) (ha : attrs.Storable)
    (hl : attrs.toCbor.enc.length < 2 ^ 64) (hp : parents.length + 1 < 2 ^ 64) : ∃ k, (commitTree H tree parents attrs db).1 = .ok k := by
  have ho : Commit.toObject ⟨tree, sortBy Key.le parents, attrs⟩ = .ok ⟨attrs.toCbor.enc, tree :: sortBy Key.le parents, .commit⟩ := by
    unfold Commit.toObject
    rw [if_pos ((CommitAttrs.toCbor_wf _).mpr ha)]
  obtain ⟨b, hb⟩ := (Object.encode_ok_iff ⟨attrs.toCbor.enc, tree :: sortBy Key.le parents, .commit⟩).mpr
    ⟨hl, by simpa [(sortBy_perm Key.le parents).length_eq] using hp⟩
  unfold commitTree
  rw [SM.bind_apply, SM.lift_apply, ho]
  simp only
  rw [putObj_eq_put H hb, put_nofault hf]
  exact ⟨_, rfl⟩

/-- **C22**, the limit is exact: a commit with an attribute nested deeper can be stored, but reading it panics. -/
theorem C22_too_deep (H : Bytes → Key) (tree : Key) (parents : List Key) (attrs : CommitAttrs) (db db' : Db) (k : Key) (hi : Inv H db)
    (h : commitTree H tree parents attrs db = (.ok k, db')) (hc : NoColl H db') (hd : ¬ ∀ e ∈ attrs.extra, e.2.depth ≤ 126) :
    Commit.fromKey db' k = .panic := by
  obtain ⟨o, h1, h2⟩ := commitTree_ok h
  unfold Commit.fromKey
  rw [putObj_getObj hi h2 hc]
  obtain ⟨e, he⟩ := Commit.ofObject_deep h1 hd
  simp [he]

/-- two parents given in the wrong order, message "hi" -/
example : (match commitTree exH (exH [1]) [exH [9], exH [3]] { message := [104, 105] } {} with
    | (.ok k, db) => (match @Commit.fromKey Subset.serde db k with
      | .ok c => c.tree == exH [1] && c.parents == [exH [3], exH [9]] && c.attrs.message == [104, 105]
      | _ => false)
    | _ => false) = true := by decide +kernel
example : CommitAttrs.Storable { message := [104, 105] } := by simp [CommitAttrs.Storable]; decide
/-- two further attributes, one of them a map -/
example : CommitAttrs.Readable { message := [104, 105], extra := [([97], .uint 1), ([98], .map [.text [99], .uint 2, .text [97, 97], .array [.uint 3]])] } := by
  simp [CommitAttrs.Readable, Cbor.Canon, Cbor.CanonList, Cbor.mapKeys, Cbor.depth, Cbor.depthList]

end Snap.Props
