import Verif.Lemmas.Cbor
import Verif.Model.Serde
/-! Objects: decoding inverts encoding. -/
namespace Snap

theorem mapRes_ok {α β} {f : α → Res β} {g : α → β} (l : List α) (h : ∀ a ∈ l, f a = .ok (g a)) :
    mapRes f l = .ok (l.map g) := by
  induction l with
  | nil => rfl
  | cons a l ih =>
    simp [mapRes, h a (by simp), ih (fun a ha => h a (by simp [ha]))]

theorem mapRes_map {α β γ} {f : β → Res γ} {g : α → β} (l : List α) :
    mapRes f (l.map g) = mapRes (fun a => f (g a)) l := by
  induction l with
  | nil => rfl
  | cons a l ih => simp [mapRes, ih]

theorem cborU8_uint (b : UInt8) : cborU8 (.uint b.toNat) = .ok b := by
  simp [cborU8, b.toNat_lt]

theorem Key.ofCbor_toCbor (k : Key) : Key.ofCbor k.toCbor = .ok k := by
  have : mapRes cborU8 (k.hash.map fun b => Cbor.uint b.toNat) = .ok k.hash := by
    rw [mapRes_map, mapRes_ok (g := id) _ (fun b _ => cborU8_uint b)]; simp
  cases k with
  | mk h hl => simp only at this; simp [Key.ofCbor, Key.toCbor, this, hl]

theorem ObjType.ofName_name (t : ObjType) : ObjType.ofName t.name = t := by
  cases t <;> decide

theorem Object.ofCbor_toCbor (o : Object) : Object.ofCbor o.toCbor = .ok o := by
  have hk : mapRes Key.ofCbor (o.keys.map Key.toCbor) = .ok o.keys := by
    rw [mapRes_map, mapRes_ok (g := id) _ (fun k _ => Key.ofCbor_toCbor k)]; simp
  have h1 : ∀ a b c, Cbor.field sData [.text sData, a, .text sKeys, b, .text sObjtype, c] = [a] := by
    intros; simp [Cbor.field, sData, sKeys, sObjtype]
  have h2 : ∀ a b c, Cbor.field sKeys [.text sData, a, .text sKeys, b, .text sObjtype, c] = [b] := by
    intros; simp [Cbor.field, sData, sKeys, sObjtype]
  have h3 : ∀ a b c, Cbor.field sObjtype [.text sData, a, .text sKeys, b, .text sObjtype, c] = [c] := by
    intros; simp [Cbor.field, sData, sKeys, sObjtype]
  simp [Object.ofCbor, Object.toCbor, h1, h2, h3, hk, ObjType.ofName_name]

theorem Key.toCbor_wf (k : Key) : k.toCbor.wf = true := by
  have hl : Cbor.wfList (k.hash.map fun b => Cbor.uint b.toNat) = true := by
    rw [wfList_iff]
    intro c hc
    obtain ⟨b, _, rfl⟩ := List.mem_map.mp hc
    have := b.toNat_lt
    simp [Cbor.wf]; omega
  have hs : utf8 sBlake3B = true := by decide
  have hsl : sBlake3B.length = 7 := rfl
  simp only [Key.toCbor, Cbor.wf, Cbor.wfList, hs, hsl, hl, k.len32, List.length_map, List.length_cons, List.length_nil]
  simp

theorem Key.toCbor_depth (k : Key) : k.toCbor.depth ≤ 3 := by
  have hl : Cbor.depthList (k.hash.map fun b => Cbor.uint b.toNat) ≤ 1 := by
    generalize k.hash = l
    induction l with
    | nil => simp [Cbor.depthList]
    | cons a l ih => simp only [List.map_cons, Cbor.depthList, Cbor.depth]; omega
  simp only [Key.toCbor, Cbor.depth, Cbor.depthList]
  omega

theorem ObjType.name_utf8 (t : ObjType) : utf8 t.name = true := by cases t <;> decide
theorem ObjType.name_length (t : ObjType) : t.name.length ≤ 12 := by cases t <;> decide

/-- An object can be encoded iff its data and key list fit 64-bit lengths. -/
theorem Object.toCbor_wf (o : Object) : o.toCbor.wf = true ↔ o.data.length < 2 ^ 64 ∧ o.keys.length < 2 ^ 64 := by
  have hk : Cbor.wfList (o.keys.map Key.toCbor) = true := by
    rw [wfList_iff]; intro c hc
    obtain ⟨k, _, rfl⟩ := List.mem_map.mp hc
    exact k.toCbor_wf
  have h1 : utf8 sData = true := by decide
  have h2 : utf8 sKeys = true := by decide
  have h3 : utf8 sObjtype = true := by decide
  have hn := o.objtype.name_length
  have hd : (Cbor.text sData).wf = true := by decide
  have hks : (Cbor.text sKeys).wf = true := by decide
  have ho : (Cbor.text sObjtype).wf = true := by decide
  have ht : (Cbor.text o.objtype.name).wf = true := by cases o.objtype <;> decide
  simp only [Object.toCbor, Cbor.wf, Cbor.wfList] at *
  rw [hd, hks, ho, ht, hk]
  simp

theorem Object.toCbor_depth (o : Object) : o.toCbor.depth ≤ 128 := by
  have hk : Cbor.depthList (o.keys.map Key.toCbor) ≤ 3 := by
    generalize o.keys = l
    induction l with
    | nil => simp [Cbor.depthList]
    | cons a l ih =>
      have := a.toCbor_depth
      simp only [List.map_cons, Cbor.depthList]; omega
  simp only [Object.toCbor, Cbor.depth, Cbor.depthList]
  omega

theorem Object.encode_ok_iff (o : Object) :
    (∃ b, o.encode = .ok b) ↔ o.data.length < 2 ^ 64 ∧ o.keys.length < 2 ^ 64 := by
  rw [← o.toCbor_wf]
  unfold Object.encode
  by_cases h : o.toCbor.wf = true <;> simp [h]

theorem Subset.object_enc {o : Object} {b : Bytes} (h : o.encode = .ok b) : Subset.object b = .ok o := by
  unfold Object.encode at h
  by_cases hw : o.toCbor.wf = true
  · simp [hw] at h
    subst h
    simp [Subset.object, parse_enc hw o.toCbor_depth, Object.ofCbor_toCbor]
  · simp [hw] at h

theorem Object.encode_head {o : Object} {b : Bytes} (h : o.encode = .ok b) : ∃ t, b = 0xa3 :: t := by
  unfold Object.encode at h
  by_cases hw : o.toCbor.wf = true
  · simp [hw] at h
    subst h
    simp [Object.toCbor, Cbor.enc, cborHdr]
  · simp [hw] at h

theorem Object.encode_inj {o o' : Object} {b : Bytes} (h : o.encode = .ok b) (h' : o'.encode = .ok b) : o = o' := by
  have := (Subset.object_enc h).symm.trans (Subset.object_enc h')
  simpa using this

theorem Object.encode_not_panic (o : Object) : o.encode ≠ .panic ∧ o.encode ≠ .fuel := by
  unfold Object.encode; split <;> simp

theorem mapRes_cases {α β} {f : α → Res β} (hf : ∀ a, f a ≠ .panic ∧ f a ≠ .fuel) (l : List α) :
    mapRes f l ≠ .panic ∧ mapRes f l ≠ .fuel := by
  induction l with
  | nil => simp [mapRes]
  | cons a l ih =>
    simp only [mapRes]
    have := hf a
    cases h : f a <;> simp_all
    cases h2 : mapRes f l <;> simp_all

theorem cborU8_total (c : Cbor) : cborU8 c ≠ .panic ∧ cborU8 c ≠ .fuel := by
  unfold cborU8; split <;> (try split) <;> simp

theorem Key.ofCbor_total (c : Cbor) : Key.ofCbor c ≠ .panic ∧ Key.ofCbor c ≠ .fuel := by
  unfold Key.ofCbor
  split
  · split
    · rename_i l _
      have := mapRes_cases cborU8_total l
      cases h : mapRes cborU8 l <;> simp_all
      split <;> simp
    · simp
  · simp

/-- Decoding never panics, whatever the bytes. -/
theorem Subset.object_total (b : Bytes) : Subset.object b ≠ .panic ∧ Subset.object b ≠ .fuel := by
  unfold Subset.object Cbor.parse
  split
  · rename_i c _
    simp only [Res.ok_bind]
    unfold Object.ofCbor
    split
    · split
      · rename_i ks _ _ _ _
        have := mapRes_cases Key.ofCbor_total ks
        cases h : mapRes Key.ofCbor ks <;> simp_all
      · simp
    · simp
  · simp

theorem mapRes_err {α β} {f : α → Res β} (hf : ∀ a e, f a = .err e → e = .decode) (l : List α) : ∀ e, mapRes f l = .err e → e = .decode := by
  induction l with
  | nil => simp [mapRes]
  | cons a l ih =>
    intro e h
    simp only [mapRes] at h
    cases h1 : f a with
    | ok b =>
      rw [h1] at h
      cases h2 : mapRes f l <;> rw [h2] at h <;> simp at h
      exact ih e (by rw [h2, h])
    | err e' => rw [h1] at h; simp at h; rw [← h]; exact hf a e' h1
    | panic => rw [h1] at h; simp at h
    | fuel => rw [h1] at h; simp at h

theorem Key.ofCbor_err (c : Cbor) (e : Err) (h : Key.ofCbor c = .err e) : e = .decode := by
  have h8 : ∀ c e, cborU8 c = .err e → e = .decode := by
    intro c e h
    unfold cborU8 at h
    split at h
    · split at h <;> simp at h; exact h.symm
    · simp at h; exact h.symm
  unfold Key.ofCbor at h
  split at h
  · split at h
    · rename_i l _
      cases h1 : mapRes cborU8 l <;> rw [h1] at h <;> simp at h
      · split at h <;> simp at h
        exact h.symm
      · exact mapRes_err h8 l e (by rw [h1, h])
    · simp at h; exact h.symm
  · simp at h; exact h.symm

theorem Subset.object_err (b : Bytes) (e : Err) (h : Subset.object b = .err e) : e = .decode := by
  unfold Subset.object Cbor.parse at h
  split at h
  · simp only [Res.ok_bind] at h
    unfold Object.ofCbor at h
    split at h
    · split at h
      · rename_i ks _ _ _ _
        cases h1 : mapRes Key.ofCbor ks <;> rw [h1] at h <;> simp at h
        exact mapRes_err Key.ofCbor_err ks e (by rw [h1, h])
      · simp at h; exact h.symm
    · simp at h; exact h.symm
  · simp at h; exact h.symm

set_option linter.unusedSectionVars false
variable [Serde] [LawfulSerde]

theorem Object.decode_encode {o : Object} {b : Bytes} (h : o.encode = .ok b) : Object.decode b = .ok o := LawfulSerde.object_enc h

theorem Serde.item_calm (b : Bytes) : Serde.item b ≠ .panic ∧ Serde.item b ≠ .fuel := by
  rcases LawfulSerde.item_total b with ⟨x, h⟩ | h <;> simp [h]

theorem Serde.attrs_calm (b : Bytes) : Serde.attrs b ≠ .panic ∧ Serde.attrs b ≠ .fuel := by
  rcases LawfulSerde.attrs_total b with ⟨x, h⟩ | h <;> simp [h]

theorem Object.decode_total (b : Bytes) : Object.decode b ≠ .panic ∧ Object.decode b ≠ .fuel := by
  rcases LawfulSerde.object_total b with ⟨x, h⟩ | h <;> simp [Object.decode, h]

end Snap
