import Verif.Model.Conn
import Verif.Lemmas.Object
import Verif.Lemmas.Keyish
/-! Lemmas about the data store model. -/
namespace Snap

/-! ### Association lists -/

theorem assoc_nil (k : Bytes) : assoc [] k = none := rfl

theorem assoc_append (l m : List (Bytes × Bytes)) (k : Bytes) :
    assoc (l ++ m) k = (assoc l k).or (assoc m k) := by
  simp only [assoc, List.find?_append]
  cases List.find? (·.1 == k) l <;> simp

theorem assoc_single (a v k : Bytes) : assoc [(a, v)] k = if a = k then some v else none := by
  by_cases h : a = k
  · simp [assoc, List.find?, h]
  · have hb : (a == k) = false := by simpa using h
    simp [assoc, List.find?, h, hb]

theorem assoc_some_mem {l : List (Bytes × Bytes)} {k v : Bytes} (h : assoc l k = some v) : (k, v) ∈ l := by
  simp only [assoc, Option.map_eq_some_iff] at h
  obtain ⟨⟨a, b⟩, hf, rfl⟩ := h
  have h1 := List.find?_some hf
  have h2 := List.mem_of_find?_eq_some hf
  simp at h1; subst h1; exact h2

theorem assoc_none_iff {l : List (Bytes × Bytes)} {k : Bytes} : assoc l k = none ↔ ∀ r ∈ l, r.1 ≠ k := by
  simp only [assoc, Option.map_eq_none_iff, List.find?_eq_none]
  simp

theorem assoc_isSome_iff {l : List (Bytes × Bytes)} {k : Bytes} : (∃ v, assoc l k = some v) ↔ ∃ r ∈ l, r.1 = k := by
  constructor
  · rintro ⟨v, h⟩; exact ⟨(k, v), assoc_some_mem h, rfl⟩
  · rintro ⟨r, hr, rfl⟩
    cases h : assoc l r.1 with
    | some v => exact ⟨v, rfl⟩
    | none => exact absurd rfl (assoc_none_iff.mp h r hr)

theorem assoc_of_mem_nodup {l : List (Bytes × Bytes)} (hn : (l.map (·.1)).Nodup) {k v : Bytes} (h : (k, v) ∈ l) :
    assoc l k = some v := by
  induction l with
  | nil => simp at h
  | cons r l ih =>
    simp only [List.map_cons, List.nodup_cons] at hn
    rcases List.mem_cons.mp h with rfl | h
    · simp [assoc, List.find?]
    · have hne : r.1 ≠ k := by
        rintro rfl; exact hn.1 (List.mem_map.mpr ⟨_, h, rfl⟩)
      have := ih hn.2 h
      simp only [assoc, List.find?] at this ⊢
      have hb : (r.1 == k) = false := by simpa using hne
      rw [hb]; exact this

theorem insertIgnore_cases (l : List (Bytes × Bytes)) (k v : Bytes) :
    ((∃ r ∈ l, r.1 = k) ∧ insertIgnore l k v = l) ∨ ((∀ r ∈ l, r.1 ≠ k) ∧ insertIgnore l k v = l ++ [(k, v)]) := by
  unfold insertIgnore
  by_cases h : l.any (·.1 == k) = true
  · left; rw [if_pos h]
    obtain ⟨r, hr, he⟩ := List.any_eq_true.mp h
    exact ⟨⟨r, hr, by simpa using he⟩, rfl⟩
  · right; rw [if_neg h]
    refine ⟨fun r hr he => h (List.any_eq_true.mpr ⟨r, hr, by simpa using he⟩), rfl⟩

theorem insertIgnore_assoc (l : List (Bytes × Bytes)) (k v x : Bytes) :
    assoc (insertIgnore l k v) x = (assoc l x).or (if k = x then some v else none) := by
  rcases insertIgnore_cases l k v with ⟨⟨r, hr, he⟩, h⟩ | ⟨hn, h⟩
  · rw [h]
    by_cases hx : k = x
    · subst hx
      obtain ⟨w, hw⟩ := assoc_isSome_iff.mpr ⟨r, hr, he⟩
      simp [hw]
    · simp [hx]
  · rw [h, assoc_append, assoc_single]

theorem insertIgnore_nodup {l : List (Bytes × Bytes)} (h : (l.map (·.1)).Nodup) (k v : Bytes) :
    ((insertIgnore l k v).map (·.1)).Nodup := by
  rcases insertIgnore_cases l k v with ⟨_, e⟩ | ⟨hn, e⟩
  · rw [e]; exact h
  · rw [e, List.map_append, List.nodup_append]
    refine ⟨h, by simp, ?_⟩
    intro a ha b hb
    obtain ⟨r, hr, rfl⟩ := List.mem_map.mp ha
    simp at hb; subst hb
    exact hn r hr

theorem insertIgnore_prefix (l : List (Bytes × Bytes)) (k v : Bytes) : l <+: insertIgnore l k v := by
  rcases insertIgnore_cases l k v with ⟨_, e⟩ | ⟨_, e⟩ <;> rw [e]
  · exact List.prefix_refl _
  · exact List.prefix_append _ _

theorem insertIgnore_twice (l : List (Bytes × Bytes)) (k v w : Bytes) :
    insertIgnore (insertIgnore l k v) k w = insertIgnore l k v := by
  rcases insertIgnore_cases (insertIgnore l k v) k w with ⟨_, e⟩ | ⟨hn, e⟩
  · exact e
  · exfalso
    rcases insertIgnore_cases l k v with ⟨⟨r, hr, he⟩, e'⟩ | ⟨_, e'⟩
    · rw [e'] at hn; exact hn r hr he
    · rw [e'] at hn; exact hn (k, v) (by simp) rfl

theorem insertReplace_assoc (l : List (Bytes × Bytes)) (k v x : Bytes) :
    assoc (insertReplace l k v) x = if k = x then some v else assoc l x := by
  unfold insertReplace
  rw [assoc_append, assoc_single]
  by_cases h : k = x
  · subst h
    have : assoc (l.filter (·.1 != k)) k = none := by
      rw [assoc_none_iff]; intro r hr; simpa using (List.mem_filter.mp hr).2
    simp [this]
  · have : assoc (l.filter (·.1 != k)) x = assoc l x := by
      simp only [assoc, List.find?_filter]
      congr 2
      funext r
      by_cases hr : r.1 = x
      · have : ¬ x = k := fun e => h e.symm
        simp [hr, this]
      · simp [hr]
    simp [this, h]

/-! ### Writes -/

theorem write_cases (f : Db → Db) (db : Db) :
    (∃ fs, db.faults = true :: fs ∧ write f db = (.err .sqlite, { db with faults := fs }))
    ∨ write f db = (.ok (), f { db with faults := db.faults.tail }) := by
  unfold write
  split
  · rename_i fs h; exact .inl ⟨fs, h, rfl⟩
  · exact .inr rfl

/-- Case analysis of a write: failed without effect, or done. -/
theorem write_total (f : Db → Db) (db : Db) :
    ((write f db).1 = .err .sqlite ∧ (write f db).2 = { db with faults := db.faults.tail })
    ∨ ((write f db).1 = .ok () ∧ (write f db).2 = f { db with faults := db.faults.tail }) := by
  rcases write_cases f db with ⟨fs, h, e⟩ | e
  · left; rw [e]; simp [h]
  · right; rw [e]; simp

theorem put_cases (H : Bytes → Key) (d : Bytes) (db : Db) :
    put H d db = (.err .sqlite, { db with hashed := d :: db.hashed, faults := db.faults.tail })
    ∨ put H d db = (.ok (H d),
        { db with hashed := d :: db.hashed, faults := db.faults.tail, data := insertIgnore db.data (H d).asDbKey d }) := by
  unfold put rawPut
  simp only [SM.bind_apply, SM.modify_apply]
  rcases write_cases (fun db => { db with data := insertIgnore db.data (H d).asDbKey d }) { db with hashed := d :: db.hashed } with ⟨fs, h, e⟩ | e
  · left; rw [e]; simp at h; simp [h]
  · right; rw [e]; rfl

theorem putObj_cases (H : Bytes → Key) (o : Object) (db : Db) :
    (o.encode = .err .encode ∧ putObj H o db = (.err .encode, db))
    ∨ ∃ b, o.encode = .ok b ∧
      (putObj H o db = (.err .sqlite, { db with hashed := b :: db.hashed, faults := db.faults.tail })
      ∨ putObj H o db = (.ok (H b),
        { db with hashed := b :: db.hashed, faults := db.faults.tail, data := insertIgnore db.data (H b).asDbKey b })) := by
  unfold putObj
  simp only [SM.bind_apply, SM.lift_apply]
  unfold Object.encode
  split
  · right; exact ⟨_, rfl, put_cases H _ db⟩
  · left; simp

/-! ### Invariants -/

/-- No two different byte strings given to `put` so far have the same hash. -/
def NoColl (H : Bytes → Key) (db : Db) : Prop :=
  ∀ x ∈ db.hashed, ∀ y ∈ db.hashed, H x = H y → x = y

/-- Every row of `data` was written by `put`, and keys are unique. -/
structure Inv (H : Bytes → Key) (db : Db) : Prop where
  nodup : (db.data.map (·.1)).Nodup
  rows : ∀ r ∈ db.data, r.1 = (H r.2).asDbKey ∧ r.2 ∈ db.hashed

theorem inv_empty (H : Bytes → Key) (fs : List Bool) : Inv H { faults := fs } :=
  ⟨by simp, by simp⟩

theorem inv_put {H : Bytes → Key} {db : Db} (h : Inv H db) (d : Bytes) : Inv H (put H d db).2 := by
  rcases put_cases H d db with e | e <;> rw [e]
  · exact ⟨h.nodup, fun r hr => ⟨(h.rows r hr).1, List.mem_cons_of_mem _ (h.rows r hr).2⟩⟩
  · refine ⟨insertIgnore_nodup h.nodup _ _, ?_⟩
    intro r hr
    simp only at hr ⊢
    rcases insertIgnore_cases db.data (H d).asDbKey d with ⟨_, e⟩ | ⟨_, e⟩
    · rw [e] at hr; exact ⟨(h.rows r hr).1, List.mem_cons_of_mem _ (h.rows r hr).2⟩
    · rw [e] at hr
      rcases List.mem_append.mp hr with hr | hr
      · exact ⟨(h.rows r hr).1, List.mem_cons_of_mem _ (h.rows r hr).2⟩
      · simp at hr; subst hr; exact ⟨rfl, by simp⟩

theorem putObj_eq_put {o : Object} {b : Bytes} (H : Bytes → Key) (hb : o.encode = .ok b) (db : Db) :
    putObj H o db = put H b db := by
  simp only [putObj, SM.bind_apply, SM.lift_apply, hb]

theorem putObj_inv {H : Bytes → Key} {db : Db} (h : Inv H db) (o : Object) : Inv H (putObj H o db).2 := by
  rcases putObj_cases H o db with ⟨_, e⟩ | ⟨b, hb, _⟩
  · rw [e]; exact h
  · rw [putObj_eq_put H hb]; exact inv_put h b

theorem get_eq_ok {db : Db} {k : Key} {v : Bytes} : get db k = .ok v ↔ assoc db.data k.asDbKey = some v := by
  unfold get rawGet
  split
  · rename_i w h; rw [h]; simp
  · rename_i h; rw [h]; simp

/-- In a collision-free store, what a key returns is the byte string with that hash. -/
theorem get_hash {H : Bytes → Key} {db : Db} (h : Inv H db) {k : Key} {v : Bytes} (hg : get db k = .ok v) :
    H v = k ∧ v ∈ db.hashed := by
  have hm := assoc_some_mem (get_eq_ok.mp hg)
  have := h.rows _ hm
  exact ⟨(asDbKey_inj this.1).symm, this.2⟩

theorem get_of_noColl {H : Bytes → Key} {db : Db} (hi : Inv H db) (hc : NoColl H db) {d v : Bytes}
    (hd : d ∈ db.hashed) (hg : get db (H d) = .ok v) : v = d := by
  obtain ⟨h1, h2⟩ := get_hash hi hg
  exact hc v h2 d hd h1

/-! ### Single calls -/

theorem Call.run_data_prefix (H : Bytes → Key) (c : Call) (db : Db) : db.data <+: (c.run H db).2.data := by
  cases c with
  | put d =>
    simp only [Call.run, SM.bind_apply]
    rcases put_cases H d db with e | e <;> rw [e] <;> simp [insertIgnore_prefix]
  | rawPut k v =>
    simp only [Call.run, Snap.rawPut]
    rcases write_total (fun db => { db with data := insertIgnore db.data k v }) db with ⟨_, e⟩ | ⟨_, e⟩ <;> rw [e] <;> simp [insertIgnore_prefix]
  | putState k v =>
    simp only [Call.run, Snap.rawPutState]
    rcases write_total (fun db => { db with state := insertReplace db.state k v }) db with ⟨_, e⟩ | ⟨_, e⟩ <;> rw [e] <;> simp
  | putHead v =>
    simp only [Call.run, Snap.putHead, rawPutState]
    rcases write_total (fun db => { db with state := insertReplace db.state sHEAD v }) db with ⟨_, e⟩ | ⟨_, e⟩ <;> rw [e] <;> simp
  | reflogPush n r k =>
    simp only [Call.run, Snap.reflogPush]
    rcases write_total (fun db => { db with reflog := db.reflog ++ [⟨n, r, k.asDbKey⟩] }) db with ⟨_, e⟩ | ⟨_, e⟩ <;> rw [e] <;> simp

theorem rawGet_mono {a b : Db} (h : a.data <+: b.data) {k v : Bytes} (hg : rawGet a k = .ok v) : rawGet b k = .ok v := by
  obtain ⟨m, hm⟩ := h
  have : assoc a.data k = some v := by
    unfold rawGet at hg; split at hg
    · rename_i w hw; simp at hg; rw [hw, hg]
    · simp at hg
  unfold rawGet
  rw [← hm, assoc_append, this]; rfl

theorem rawGet_ok {db : Db} {k v : Bytes} : rawGet db k = .ok v ↔ assoc db.data k = some v := by
  unfold rawGet
  split
  · rename_i w h; rw [h]; simp
  · rename_i h; rw [h]; simp

theorem runCalls_data_prefix (H : Bytes → Key) (cs : List Call) (db : Db) : db.data <+: (runCalls H cs db).data := by
  induction cs generalizing db with
  | nil => exact List.prefix_refl _
  | cons c cs ih => exact (c.run_data_prefix H db).trans (ih _)

theorem Call.run_nodup (H : Bytes → Key) (c : Call) {db : Db} (h : (db.data.map (·.1)).Nodup) :
    ((c.run H db).2.data.map (·.1)).Nodup := by
  cases c with
  | put d =>
    simp only [Call.run, SM.bind_apply]
    rcases put_cases H d db with e | e <;> rw [e]
    · exact h
    · exact insertIgnore_nodup h _ _
  | rawPut k v =>
    simp only [Call.run, Snap.rawPut]
    rcases write_total (fun db => { db with data := insertIgnore db.data k v }) db with ⟨_, e⟩ | ⟨_, e⟩ <;> rw [e]
    · exact h
    · exact insertIgnore_nodup h _ _
  | putState k v =>
    simp only [Call.run, Snap.rawPutState]
    rcases write_total (fun db => { db with state := insertReplace db.state k v }) db with ⟨_, e⟩ | ⟨_, e⟩ <;> rw [e] <;> exact h
  | putHead v =>
    simp only [Call.run, Snap.putHead, rawPutState]
    rcases write_total (fun db => { db with state := insertReplace db.state sHEAD v }) db with ⟨_, e⟩ | ⟨_, e⟩ <;> rw [e] <;> exact h
  | reflogPush n r k =>
    simp only [Call.run, Snap.reflogPush]
    rcases write_total (fun db => { db with reflog := db.reflog ++ [⟨n, r, k.asDbKey⟩] }) db with ⟨_, e⟩ | ⟨_, e⟩ <;> rw [e] <;> exact h

theorem runCalls_nodup (H : Bytes → Key) (cs : List Call) {db : Db} (h : (db.data.map (·.1)).Nodup) :
    ((runCalls H cs db).data.map (·.1)).Nodup := by
  induction cs generalizing db with
  | nil => exact h
  | cons c cs ih => exact ih (c.run_nodup H h)

end Snap
