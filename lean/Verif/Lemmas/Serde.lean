import Verif.Lemmas.Object
/-! The decoder `Subset` is lawful. -/
namespace Snap

theorem ItemType.ofName_name (t : ItemType) : ItemType.ofName t.name = .ok t := by cases t <;> decide

/-- An item can be stored iff its numbers fit 64 bits and its names are UTF-8. -/
def FsItem.Storable (i : FsItem) : Prop :=
  i.size < 2 ^ 64 ∧ i.names.length < 2 ^ 64 ∧ ∀ n ∈ i.names, n.length < 2 ^ 64 ∧ utf8 n = true

theorem FsItem.toCbor_wf (i : FsItem) : i.toCbor.wf = true ↔ i.Storable := by
  have h1 : (Cbor.text sSize).wf = true := by decide
  have h2 : (Cbor.text sItemtype).wf = true := by decide
  have h3 : (Cbor.text sChildrenNames).wf = true := by decide
  have h4 : (Cbor.text i.itemtype.name).wf = true := by cases i.itemtype <;> decide
  have h5 : Cbor.wfList (i.names.map .text) = true ↔ ∀ n ∈ i.names, n.length < 2 ^ 64 ∧ utf8 n = true := by
    rw [wfList_iff]
    simp [Cbor.wf]
  unfold FsItem.Storable
  rw [← h5]
  simp only [FsItem.toCbor, Cbor.wf, Cbor.wfList] at *
  rw [h1, h2, h3, h4]
  simp

theorem FsItem.toCbor_depth (i : FsItem) : i.toCbor.depth ≤ 128 := by
  have : Cbor.depthList (i.names.map .text) ≤ 1 := by
    generalize i.names = l
    induction l with
    | nil => simp [Cbor.depthList]
    | cons a l ih => simp only [List.map_cons, Cbor.depthList, Cbor.depth]; omega
  simp only [FsItem.toCbor, Cbor.depth, Cbor.depthList]
  omega

/-- The attributes can be serialised: texts are UTF-8, lengths fit 64 bits. -/
def CommitAttrs.Storable (a : CommitAttrs) : Prop :=
  (a.message.length < 2 ^ 64 ∧ utf8 a.message = true) ∧ a.extra.length < 2 ^ 64 ∧ ∀ e ∈ a.extra, (e.1.length < 2 ^ 64 ∧ utf8 e.1 = true) ∧ e.2.wf = true

theorem flat_length (l : List (Bytes × Cbor)) : (l.flatMap fun e => [Cbor.text e.1, e.2]).length = 2 * l.length := by
  induction l with
  | nil => rfl
  | cons e l ih => simp only [List.flatMap_cons, List.length_append, ih, List.length_cons, List.length_nil]; omega

theorem flat_wf (l : List (Bytes × Cbor)) :
    Cbor.wfList (l.flatMap fun e => [Cbor.text e.1, e.2]) = true ↔ ∀ e ∈ l, (e.1.length < 2 ^ 64 ∧ utf8 e.1 = true) ∧ e.2.wf = true := by
  induction l with
  | nil => simp [Cbor.wfList]
  | cons e l ih =>
    simp only [List.flatMap_cons, List.cons_append, List.nil_append, Cbor.wfList, Bool.and_eq_true, ih, List.mem_cons, forall_eq_or_imp]
    simp only [Cbor.wf, Bool.and_eq_true, decide_eq_true_eq]
    exact ⟨fun h => ⟨⟨h.1, h.2.1⟩, h.2.2⟩, fun h => ⟨h.1.1, h.1.2, h.2⟩⟩

theorem CommitAttrs.toCbor_wf (a : CommitAttrs) : a.toCbor.wf = true ↔ a.Storable := by
  have h1 : (Cbor.text sMessage).wf = true := by decide
  have h3 : (Cbor.text sExtra).wf = true := by decide
  unfold CommitAttrs.Storable
  rw [← flat_wf a.extra]
  simp only [CommitAttrs.toCbor, Cbor.wf, Cbor.wfList, flat_length] at *
  rw [h1, h3]
  simp

theorem flat_depth (l : List (Bytes × Cbor)) (n : Nat) : max 1 (Cbor.depthList (l.flatMap fun e => [Cbor.text e.1, e.2])) ≤ n + 1 ↔ ∀ e ∈ l, e.2.depth ≤ n + 1 := by
  induction l with
  | nil => simp [Cbor.depthList]
  | cons e l ih =>
    simp only [List.flatMap_cons, List.cons_append, List.nil_append, Cbor.depthList, Cbor.depth, List.mem_cons, forall_eq_or_imp]
    rw [← ih]
    omega

/-- Nothing in `extra` is nested too deeply to be read. -/
theorem CommitAttrs.toCbor_depth (a : CommitAttrs) : a.toCbor.depth ≤ 128 ↔ ∀ e ∈ a.extra, e.2.depth ≤ 126 := by
  rw [← flat_depth a.extra 125]
  simp only [CommitAttrs.toCbor, Cbor.depth, Cbor.depthList]
  omega

theorem cborPairs_flat (l : List (Bytes × Cbor)) : cborPairs (l.flatMap fun e => [Cbor.text e.1, e.2]) = .ok l := by
  induction l with
  | nil => rfl
  | cons e l ih => simp [cborPairs, ih]

theorem CommitAttrs.ofCbor_toCbor (a : CommitAttrs) : CommitAttrs.ofCbor a.toCbor = .ok a := by
  have h1 : ∀ x y, Cbor.field sMessage [.text sMessage, x, .text sExtra, y] = [x] := by intros; simp [Cbor.field, sMessage, sExtra]
  have h2 : ∀ x y, Cbor.field sExtra [.text sMessage, x, .text sExtra, y] = [y] := by intros; simp [Cbor.field, sMessage, sExtra]
  simp [CommitAttrs.ofCbor, CommitAttrs.toCbor, h1, h2, cborPairs_flat]

theorem Subset.item_enc (i : FsItem) (h : i.toCbor.wf = true) : Subset.item i.toCbor.enc = .ok (i.size, i.itemtype, i.names) := by
  have hk : mapRes cborPath (i.names.map .text) = .ok i.names := by
    rw [mapRes_map, mapRes_ok (f := fun a => cborPath (.text a)) (g := id) _ (fun k _ => rfl)]; simp
  have h1 : ∀ a b c, Cbor.field sSize [.text sSize, a, .text sItemtype, b, .text sChildrenNames, c] = [a] := by
    intros; simp [Cbor.field, sSize, sItemtype, sChildrenNames]
  have h2 : ∀ a b c, Cbor.field sItemtype [.text sSize, a, .text sItemtype, b, .text sChildrenNames, c] = [b] := by
    intros; simp [Cbor.field, sSize, sItemtype, sChildrenNames]
  have h3 : ∀ a b c, Cbor.field sChildrenNames [.text sSize, a, .text sItemtype, b, .text sChildrenNames, c] = [c] := by
    intros; simp [Cbor.field, sSize, sItemtype, sChildrenNames]
  unfold Subset.item
  rw [parse_enc h i.toCbor_depth]
  simp [FsItem.toCbor, h1, h2, h3, ItemType.ofName_name, hk]

theorem Subset.attrs_enc (a : CommitAttrs) (h : a.toCbor.wf = true) (hd : ∀ e ∈ a.extra, e.2.depth ≤ 126) : Subset.attrs a.toCbor.enc = .ok a := by
  unfold Subset.attrs
  rw [parse_enc h ((CommitAttrs.toCbor_depth _).mpr hd)]
  simp [CommitAttrs.ofCbor_toCbor]

theorem Subset.parse_total (b : Bytes) : Cbor.parse b ≠ .panic ∧ Cbor.parse b ≠ .fuel := by
  unfold Cbor.parse; split <;> simp

theorem cborPairs_total (l : List Cbor) : cborPairs l ≠ .panic ∧ cborPairs l ≠ .fuel := by
  match l with
  | [] => simp [cborPairs]
  | [a] => cases a <;> simp [cborPairs]
  | a :: b :: l =>
    have ih := cborPairs_total l
    cases a with
    | text k =>
      simp only [cborPairs]
      cases h : cborPairs l <;> simp_all
    | _ => simp [cborPairs]

theorem cborPath_total (c : Cbor) : cborPath c ≠ .panic ∧ cborPath c ≠ .fuel := by
  unfold cborPath; split <;> (try split) <;> simp

theorem Subset.item_total (b : Bytes) : Subset.item b ≠ .panic ∧ Subset.item b ≠ .fuel := by
  have hp := Subset.parse_total b
  unfold Subset.item
  cases h : Cbor.parse b with
  | ok c =>
    simp only [Res.ok_bind]
    split
    · split
      · rename_i t l _ _ _
        have ht : ItemType.ofName t ≠ .panic ∧ ItemType.ofName t ≠ .fuel := by unfold ItemType.ofName; split <;> (try split) <;> simp
        have hl := mapRes_cases cborPath_total l
        cases h1 : ItemType.ofName t <;> simp_all
        cases h2 : mapRes cborPath l <;> simp_all
      · simp
    · simp
  | err e => simp
  | panic => exact (hp.1 h).elim
  | fuel => exact (hp.2 h).elim

theorem Subset.attrs_total (b : Bytes) : Subset.attrs b ≠ .panic ∧ Subset.attrs b ≠ .fuel := by
  have hp := Subset.parse_total b
  unfold Subset.attrs
  cases h : Cbor.parse b with
  | ok c =>
    simp only [Res.ok_bind]
    unfold CommitAttrs.ofCbor
    split
    · split
      · rename_i l _ _
        have hl := cborPairs_total l
        cases h1 : cborPairs l <;> simp_all
      · simp
    · simp
  | err e => simp
  | panic => exact (hp.1 h).elim
  | fuel => exact (hp.2 h).elim

theorem Subset.parse_err (b : Bytes) (e : Err) (h : Cbor.parse b = .err e) : e = .decode := by
  unfold Cbor.parse at h
  split at h <;> simp at h
  exact h.symm

theorem Subset.item_err (b : Bytes) (e : Err) (h : Subset.item b = .err e) : e = .decode := by
  unfold Subset.item at h
  cases hp : Cbor.parse b with
  | ok c =>
    rw [hp] at h
    simp only [Res.ok_bind] at h
    split at h
    · split at h
      · rename_i t l _ _ _
        cases h1 : ItemType.ofName t with
        | ok ty =>
          rw [h1] at h
          cases h2 : mapRes cborPath l <;> rw [h2] at h <;> simp at h
          refine mapRes_err (fun c e h => ?_) l e (by rw [h2, h])
          unfold cborPath at h
          split at h
          · simp at h
          · split at h <;> simp at h
            exact h.symm
          · simp at h; exact h.symm
        | err e' =>
          rw [h1] at h
          simp at h
          unfold ItemType.ofName at h1
          split at h1
          · simp at h1
          · split at h1 <;> simp at h1
            rw [← h, ← h1]
        | panic => rw [h1] at h; simp at h
        | fuel => rw [h1] at h; simp at h
      · simp at h; exact h.symm
    · simp at h; exact h.symm
  | err e' => rw [hp] at h; simp at h; rw [← h]; exact Subset.parse_err b e' hp
  | panic => rw [hp] at h; simp at h
  | fuel => rw [hp] at h; simp at h

theorem cborPairs_err (l : List Cbor) : ∀ e, cborPairs l = .err e → e = .decode := by
  intro e h
  match l with
  | [] => simp [cborPairs] at h
  | [a] => cases a <;> simp [cborPairs] at h <;> exact h.symm
  | a :: b :: l =>
    have ih := cborPairs_err l
    cases a with
    | text k =>
      simp only [cborPairs] at h
      cases h1 : cborPairs l <;> rw [h1] at h <;> simp at h
      exact ih e (by rw [h1, h])
    | _ => simp [cborPairs] at h; exact h.symm

theorem Subset.attrs_err (b : Bytes) (e : Err) (h : Subset.attrs b = .err e) : e = .decode := by
  unfold Subset.attrs at h
  cases hp : Cbor.parse b with
  | ok c =>
    rw [hp] at h
    simp only [Res.ok_bind] at h
    unfold CommitAttrs.ofCbor at h
    split at h
    · split at h
      · rename_i l _ _
        cases h1 : cborPairs l <;> rw [h1] at h <;> simp at h
        exact cborPairs_err l e (by rw [h1, h])
      · simp at h; exact h.symm
    · simp at h; exact h.symm
  | err e' => rw [hp] at h; simp at h; rw [← h]; exact Subset.parse_err b e' hp
  | panic => rw [hp] at h; simp at h
  | fuel => rw [hp] at h; simp at h

theorem Subset.outcome {α : Type} {r : Res α} (h : r ≠ .panic ∧ r ≠ .fuel) (he : ∀ e, r = .err e → e = .decode) : (∃ x, r = .ok x) ∨ r = .err .decode := by
  cases r with
  | ok x => exact .inl ⟨x, rfl⟩
  | err e => rw [he e rfl]; exact .inr rfl
  | panic => exact (h.1 rfl).elim
  | fuel => exact (h.2 rfl).elim

theorem Subset.parse_nil : Cbor.parse [] = .err .decode := by
  have hp : ∀ n, parseItem n [] = none := by
    intro n
    cases n <;> simp [parseItem, parseHdr]
  unfold Cbor.parse
  rw [hp]

instance Subset.lawful : LawfulSerde where
  object_total b := Subset.outcome (Subset.object_total b) (Subset.object_err b)
  item_total b := Subset.outcome (Subset.item_total b) (Subset.item_err b)
  attrs_total b := Subset.outcome (Subset.attrs_total b) (Subset.attrs_err b)
  object_enc := Subset.object_enc
  item_enc := Subset.item_enc
  attrs_enc a h hr := ⟨a.extra, Subset.attrs_enc a h fun e he => (hr.2 e he).2, List.Perm.refl _⟩
  attrs_deep a h hd := by
    show Subset.attrs _ = _
    unfold Subset.attrs
    rw [parse_deep h
      (by have := CommitAttrs.toCbor_depth a; by_cases h1 : a.toCbor.depth ≤ 128
          · exact absurd (this.mp h1) hd
          · omega)]
    rfl
  item_attrs a ha he := by
    have h1 : ∀ a b, Cbor.field sSize [.text sMessage, a, .text sExtra, b] = [] := by intros; simp [Cbor.field, sSize, sMessage, sExtra]
    show Subset.item _ = _
    unfold Subset.item
    rw [parse_enc ha ((CommitAttrs.toCbor_depth _).mpr (by simp [he]))]
    simp [CommitAttrs.toCbor, h1]
  attrs_item i hi := by
    show Subset.attrs _ = _
    unfold Subset.attrs
    rw [parse_enc hi (FsItem.toCbor_depth i)]
    simp [FsItem.toCbor, CommitAttrs.ofCbor, Cbor.field, sMessage, sSize, sItemtype, sChildrenNames]
  item_nil := by show Subset.item [] = _; unfold Subset.item; rw [Subset.parse_nil]; rfl
  attrs_nil := by show Subset.attrs [] = _; unfold Subset.attrs; rw [Subset.parse_nil]; rfl

end Snap
