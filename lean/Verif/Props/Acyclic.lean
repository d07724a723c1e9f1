import Verif.Props.Closed
/-! Stored objects refer only to older ones, so following keys ends: C60. -/
namespace Snap.Props
open Snap
set_option linter.unusedSectionVars false
variable [Serde] [LawfulSerde]

/-- The position of the first row of a key. -/
def rank (db : Db) (k : Key) : Nat := db.data.findIdx fun r => r.1 == k.asDbKey

theorem findIdx_split {l : List (Bytes × Bytes)} {k v : Bytes} (h : assoc l k = some v) :
    ∃ pre post, l = pre ++ (k, v) :: post ∧ pre.length = l.findIdx (fun r => r.1 == k) := by
  induction l with
  | nil => simp [assoc] at h
  | cons r l ih =>
    by_cases hr : r.1 = k
    · have : v = r.2 := by
        simp [assoc, List.find?, hr] at h
        exact h.symm
      subst this
      exact ⟨[], l, by simp [← hr], by simp [List.findIdx_cons, hr]⟩
    · have h' : assoc l k = some v := by
        simp only [assoc] at h ⊢
        rw [List.find?_cons_of_neg (by simpa using hr)] at h
        exact h
      obtain ⟨pre, post, e, hl⟩ := ih h'
      refine ⟨r :: pre, post, by rw [e]; rfl, ?_⟩
      have : (r.1 == k) = false := by simpa using hr
      simp [List.findIdx_cons, this, hl]

theorem rank_lt {db : Db} (h : Closed db) {k : Key} {o : Object} (ho : getObj db k = .ok o) : rank db k < db.data.length ∧ ∀ k' ∈ o.keys, rank db k' < rank db k := by
  simp only [Snap.getObj] at ho
  obtain ⟨v, hv, hd⟩ := Res.bind_eq_ok ho
  obtain ⟨pre, post, e, hl⟩ := findIdx_split (get_eq_ok.mp hv)
  have hr : rank db k = pre.length := hl.symm
  obtain ⟨o', ho', _, hs⟩ := h.order pre _ post e
  rw [Object.decode_encode ho'] at hd
  have := Res.ok.inj hd
  subst this
  constructor
  · rw [hr, e]; simp
  · intro k' hk
    obtain ⟨r', hm, hk'⟩ := hs k' hk
    rw [hr]
    have hlt : pre.findIdx (fun r => r.1 == k'.asDbKey) < pre.length := List.findIdx_lt_length.mpr ⟨r', hm, by simpa using hk'⟩
    unfold rank
    rw [e, List.findIdx_append, if_pos hlt]
    exact hlt

/-- **C60**: in every reachable world the objects of a database can be numbered, below the number of rows, such that every object contains only keys of objects with lower
numbers: following keys from object to object never returns to where it was and ends. -/
theorem C60_acyclic {H : Bytes → Key} {w : World} (h : w.Reachable H) (q : List Bytes) :
    ∃ num : Key → Nat, ∀ k o, getObj (w.dbs q) k = .ok o → num k < (w.dbs q).data.length ∧ ∀ k' ∈ o.keys, num k' < num k :=
  ⟨rank (w.dbs q), fun _ _ ho => rank_lt (World.Reachable.closed h q) ho⟩

/-- `k'` is a key in the object of `k`. -/
def Spec.Refers (db : Db) (k k' : Key) : Prop := ∃ o, getObj db k = .ok o ∧ k' ∈ o.keys

/-- Following keys. -/
inductive Spec.Leads (db : Db) : Key → Key → Prop where
  | one {a b} (h : Spec.Refers db a b) : Spec.Leads db a b
  | cons {a b c} (h : Spec.Refers db a b) (t : Spec.Leads db b c) : Spec.Leads db a c

/-- No object leads back to itself. -/
theorem C60_no_cycle {H : Bytes → Key} {w : World} (h : w.Reachable H) (q : List Bytes) (k : Key) : ¬ Spec.Leads (w.dbs q) k k := by
  have hc := World.Reachable.closed h q
  have : ∀ a b, Spec.Leads (w.dbs q) a b → rank (w.dbs q) b < rank (w.dbs q) a := by
    intro a b hl
    induction hl with
    | one h => obtain ⟨o, h1, h2⟩ := h; exact (rank_lt hc h1).2 _ h2
    | cons h _ ih => obtain ⟨o, h1, h2⟩ := h; exact Nat.lt_trans ih ((rank_lt hc h1).2 _ h2)
  intro hl
  exact Nat.lt_irrefl _ (this k k hl)

/-! ### Traversals end -/

/-- Never runs out of the model's recursion bound. -/
def Halts {σ α} (x : SM σ α) : Prop := ∀ s, (x s).1 ≠ .fuel

section
variable {σ τ α β : Type}

theorem halts_pure (a : α) : Halts (pure a : SM σ α) := fun _ => nofun
theorem halts_panic : Halts (SM.panic : SM σ α) := fun _ => nofun
theorem halts_throw (e : Err) : Halts (SM.throw e : SM σ α) := fun _ => nofun
theorem halts_lift {r : Res α} (h : r ≠ .fuel) : Halts (SM.lift r : SM σ α) := fun _ => h
theorem halts_read {f : σ → Res α} (h : ∀ s, f s ≠ .fuel) : Halts (SM.read f) := h
theorem halts_modify (f : σ → σ) : Halts (SM.modify f) := fun _ => nofun
theorem halts_bind {x : SM σ α} {f : α → SM σ β} (hx : Halts x) (hf : ∀ a s s', x s = (.ok a, s') → Halts (f a)) : Halts (x >>= f) := by
  intro s
  rw [SM.bind_apply]
  cases h : x s with
  | mk r s' =>
    cases r with
    | ok a => exact hf a s s' h s'
    | err e => exact nofun
    | panic => exact nofun
    | fuel => exact (hx s (by rw [h])).elim
theorem halts_each {f : α → SM σ Unit} {l : List α} (h : ∀ a ∈ l, Halts (f a)) : Halts (SM.each f l) := by
  induction l with
  | nil => exact halts_pure _
  | cons a l ih => exact halts_bind (h a (by simp)) fun _ _ _ _ => ih fun b hb => h b (by simp [hb])

theorem res_bind_fuel {x : Res α} {f : α → Res β} (hx : x ≠ .fuel) (hf : ∀ a, x = .ok a → f a ≠ .fuel) : (x >>= f) ≠ .fuel := by
  cases x with
  | ok a => exact hf a rfl
  | err e => exact nofun
  | panic => exact nofun
  | fuel => exact (hx rfl).elim
theorem unwrap_fuel {x : Res α} (h : x ≠ .fuel) : x.unwrap ≠ .fuel := by
  cases x <;> simp [Res.unwrap] at h ⊢
theorem mapRes_fuel {f : α → Res β} {l : List α} (h : ∀ a ∈ l, f a ≠ .fuel) : mapRes f l ≠ .fuel := by
  induction l with
  | nil => exact nofun
  | cons a l ih =>
    simp only [mapRes]
    exact res_bind_fuel (h a (by simp)) fun b _ => res_bind_fuel (ih fun x hx => h x (by simp [hx])) fun _ _ => nofun
end

theorem get_fuel (db : Db) (k : Key) : get db k ≠ .fuel := by
  unfold get rawGet
  split <;> exact nofun
theorem decode_fuel (b : Bytes) : Object.decode b ≠ .fuel := (Object.decode_total b).2
theorem getObj_fuel (db : Db) (k : Key) : getObj db k ≠ .fuel := res_bind_fuel (get_fuel db k) fun b _ => decode_fuel b
theorem commitOf_fuel (o : Object) : Commit.ofObject o ≠ .fuel := by
  refine res_bind_fuel (Serde.attrs_calm _).2 fun a _ => ?_
  split <;> exact nofun
theorem fromKey_fuel (db : Db) (k : Key) : Commit.fromKey db k ≠ .fuel :=
  res_bind_fuel (unwrap_fuel (getObj_fuel db k)) fun o _ => unwrap_fuel (commitOf_fuel o)
theorem itemOf_fuel (o : Object) : FsItem.ofObject o ≠ .fuel :=
  res_bind_fuel (Serde.item_calm _).2 fun _ _ => nofun
theorem getItem_fuel (db : Db) (k : Key) : getItem db k ≠ .fuel := res_bind_fuel (getObj_fuel db k) fun o _ => itemOf_fuel o

/-- The children of an item are the keys of its object. -/
theorem getItem_keys {db : Db} {k : Key} {i : FsItem} (h : getItem db k = .ok i) : ∃ o, getObj db k = .ok o ∧ i.children = o.keys := by
  obtain ⟨o, h1, h2⟩ := Res.bind_eq_ok h
  exact ⟨o, h1, FsItem.ofObject_keys h2⟩

theorem rank_le (db : Db) (k : Key) : rank db k ≤ db.data.length := List.findIdx_le_length

theorem halts_readDataTo {σ : Type} {db : Db} (hc : Closed db) {sink : Bytes → SM σ Unit} (hs : ∀ d, Halts (sink d)) (n : Nat) (k : Key) (hn : rank db k < n) : Halts (readDataTo db sink n k) := by
  induction n generalizing k with
  | zero => omega
  | succ n ih =>
    unfold readDataTo
    refine halts_bind (halts_lift (getObj_fuel db k)) fun o s s' ho => ?_
    have ho : getObj db k = .ok o := by simpa using congrArg Prod.fst ho
    have hr := (rank_lt hc ho).2
    split
    · exact halts_each fun k' hk => ih k' (by have := hr k' hk; omega)
    · exact hs _
    · split
      · rename_i k' e
        exact ih k' (by have := hr k' (by rw [e]; simp); omega)
      · exact halts_panic
    · exact halts_panic

theorem readAll_fuel {db : Db} (hc : Closed db) (n : Nat) (k : Key) (hn : rank db k < n) : readAll db n k ≠ .fuel := by
  have := halts_readDataTo hc (sink := fun d => SM.modify (· ++ d)) (fun d => halts_modify _) n k hn []
  unfold readAll
  change (readData db n k []).1 ≠ .fuel at this
  cases h : readData db n k [] with
  | mk r s =>
    rw [h] at this
    cases r with
    | fuel => exact (this rfl).elim
    | ok a => exact nofun
    | err e => exact nofun
    | panic => exact nofun

theorem extendAll_fuel {α β} {f : β → Res (PMap α)} {l : List β} (h : ∀ b ∈ l, f b ≠ .fuel) (m : PMap α) : extendAll f m l ≠ .fuel := by
  induction l generalizing m with
  | nil => exact nofun
  | cons b l ih => exact res_bind_fuel (h b (by simp)) fun r _ => ih (fun b hb => h b (by simp [hb])) _

theorem walkItemsFrom_fuel {db : Db} (hc : Closed db) (n : Nat) (k : Key) (p : Path) (hn : rank db k < n) : walkItemsFrom db n k p ≠ .fuel := by
  induction n generalizing k p with
  | zero => omega
  | succ n ih =>
    unfold walkItemsFrom
    refine res_bind_fuel (getItem_fuel db k) fun i hi => ?_
    obtain ⟨o, ho, e⟩ := getItem_keys hi
    have hr := (rank_lt hc ho).2
    split
    · refine extendAll_fuel (fun b hb => ih _ _ ?_) _
      have := hr b.1 (by rw [← e]; exact (List.of_mem_zip hb).1)
      omega
    · exact nofun

theorem walkItems_fuel {db : Db} (hc : Closed db) (n : Nat) (hn : db.data.length < n) (k : Key) : walkItems db n k ≠ .fuel :=
  walkItemsFrom_fuel hc n k [] (Nat.lt_of_le_of_lt (rank_le db k) hn)

theorem halts_mapSM {σ α β} {f : α → SM σ β} {l : List α} (h : ∀ a ∈ l, Halts (f a)) : Halts (mapSM f l) := by
  induction l with
  | nil => exact halts_pure _
  | cons a l ih => exact halts_bind (h a (by simp)) fun _ _ _ _ => halts_bind (ih fun b hb => h b (by simp [hb])) fun _ _ _ _ => halts_pure _

theorem compareDb_fuel (E : Env) (fs : Fs) (iter : Nat → List Path → List Path) (n : Nat) (k : Key) (t : Option Key) (s : Db × Cache) (hc : Closed s.1) (hn : s.1.data.length < n) :
    (compare E fs iter n (.database k) t s).1 ≠ .fuel := by
  unfold compare
  have hd : ∀ (m : FromMap) x, m.isDir x ≠ .fuel := by
    intro m x
    cases m <;> · simp only [FromMap.isDir]; split <;> exact nofun
  simp only [SM.bind_apply, SM.read]
  have h1 := walkItems_fuel hc n hn k
  cases hA : walkItems s.1 n k with
  | fuel => exact (h1 hA).elim
  | err e => exact nofun
  | panic => exact nofun
  | ok A =>
    simp only [SM.pure_apply]
    have hrest : ∀ B, Halts (do
      let added ← mapSM (addedOf E fs (.right A)) (iter 0 ((FromMap.right A).keys.filter fun x => !(B.map (·.1)).contains x))
      let deleted ← mapSM (fun x => SM.lift (deletedOf (.right A) B x)) (iter 1 ((B.map (·.1)).filter fun x => !(FromMap.right A).keys.contains x))
      let modified ← mapSM (modifiedOf E fs (.right A) [] B) (iter 2 ((FromMap.right A).keys.filter fun x => (B.map (·.1)).contains x))
      pure ⟨sortBy Deleted.le deleted, sortBy Added.le added, sortBy Modified.le (modified.filterMap id)⟩ : SM (Db × Cache) DiffResult) := by
      intro B
      refine halts_bind (halts_mapSM fun x _ => ?_) fun _ _ _ _ => halts_bind (halts_mapSM fun x _ => ?_) fun _ _ _ _ => halts_bind (halts_mapSM fun x _ => ?_) fun _ _ _ _ => halts_pure _
      · unfold addedOf
        refine halts_bind ?_ fun _ _ _ _ => halts_bind (halts_lift (hd _ _)) fun _ _ _ _ => halts_pure _
        simp only
        split
        · exact halts_pure _
        · exact halts_panic
      · refine halts_lift ?_
        unfold deletedOf
        refine res_bind_fuel ?_ fun _ _ => res_bind_fuel (hd _ _) fun _ _ => nofun
        split <;> exact nofun
      · unfold modifiedOf
        refine halts_bind ?_ fun f _ _ _ => ?_
        · simp only
          split
          · exact halts_pure _
          · exact halts_panic
        · split
          · exact halts_pure _
          · split
            · exact halts_pure _
            · exact halts_panic
    cases t with
    | none => exact hrest [] s
    | some t =>
      have h2 := walkItems_fuel hc n hn t
      cases hB : walkItems s.1 n t with
      | fuel => exact (h2 hB).elim
      | err e => simp [SM.read, hB]
      | panic => simp [SM.read, hB]
      | ok B =>
        simp only [SM.read, hB]
        exact hrest B s

section
variable {db : Db} (hc : Closed db) {n : Nat} (hn : db.data.length < n)
include hc hn

theorem readAll_fuel' (k : Key) : readAll db n k ≠ .fuel := readAll_fuel hc n k (Nat.lt_of_le_of_lt (rank_le db k) hn)

theorem printedStat_fuel (lib : DiffLib) (r : DiffResult) : printedStat lib db n r ≠ .fuel := by
  have hct : ∀ {α} (isDir : α → Bool) (key : α → Option Key) (mk : α → Nat → FileStat) (l : List α), countStat db n isDir key mk l ≠ .fuel := by
    intro α isDir key mk l
    unfold countStat
    refine res_bind_fuel (mapRes_fuel fun a _ => ?_) fun _ _ => nofun
    split
    · unfold lineCt
      exact res_bind_fuel (res_bind_fuel (unwrap_fuel (readAll_fuel' hc hn _)) fun _ _ => nofun) fun _ _ => nofun
    · exact nofun
  unfold printedStat lineStat
  refine res_bind_fuel (res_bind_fuel (hct _ _ _ _) fun _ _ => res_bind_fuel (hct _ _ _ _) fun _ _ => res_bind_fuel (mapRes_fuel fun a _ => ?_) fun _ _ => nofun) fun _ _ => nofun
  unfold modifiedStat
  exact res_bind_fuel (unwrap_fuel (readAll_fuel' hc hn _)) fun _ _ => res_bind_fuel (unwrap_fuel (readAll_fuel' hc hn _)) fun _ _ => nofun

theorem createPatch_fuel (lib : DiffLib) (r : DiffResult) : createPatch lib db n r ≠ .fuel := by
  have hfp : ∀ {α} (isDir : α → Bool) (key : α → Option Key) (mk : α → Key → Res Patch) (l : List α), (∀ a k, mk a k ≠ .fuel) → filePatches isDir key mk l ≠ .fuel := by
    intro α isDir key mk l h
    unfold filePatches
    refine res_bind_fuel (mapRes_fuel fun a _ => ?_) fun _ _ => nofun
    split
    · exact res_bind_fuel (h _ _) fun _ _ => nofun
    · exact nofun
  have hsub : ∀ a b, subRes a b ≠ .fuel := by intro a b; unfold subRes; split <;> exact nofun
  have hhunk : ∀ cs, hunksOf cs ≠ .fuel := by
    intro cs
    unfold hunksOf
    refine res_bind_fuel (mapRes_fuel fun i _ => ?_) fun _ _ => mapRes_fuel fun g _ => ?_
    · unfold keyLine near sliceIncl
      refine res_bind_fuel (res_bind_fuel ?_ fun _ _ => nofun) fun _ _ => ?_
      · split <;> exact nofun
      · split <;> exact nofun
    · unfold mkHunk
      split
      · exact res_bind_fuel (hsub _ _) fun _ _ => res_bind_fuel (hsub _ _) fun _ _ => nofun
      · exact nofun
  unfold createPatch
  refine res_bind_fuel (hfp _ _ _ _ fun a k => ?_) fun _ _ => res_bind_fuel (hfp _ _ _ _ fun a k => ?_) fun _ _ => res_bind_fuel (mapRes_fuel fun a _ => ?_) fun _ _ => nofun
  · unfold addedPatch
    refine res_bind_fuel (unwrap_fuel (readAll_fuel' hc hn _)) fun _ _ => ?_
    split <;> exact nofun
  · unfold removedPatch
    refine res_bind_fuel (unwrap_fuel (readAll_fuel' hc hn _)) fun _ _ => ?_
    split <;> exact nofun
  · unfold modifiedPatch patchFrom
    exact res_bind_fuel (unwrap_fuel (readAll_fuel' hc hn _)) fun _ _ => res_bind_fuel (unwrap_fuel (readAll_fuel' hc hn _)) fun _ _ => res_bind_fuel (hhunk _) fun _ _ => nofun
end

/-- On this database: ends and leaves it alone. -/
def HaltsAt {α} (db : Db) (x : P α) : Prop := ∀ out, (x (db, out)).1 ≠ .fuel ∧ (x (db, out)).2.1 = db

section
variable {α β : Type} {db : Db}
theorem haltsAt_pure (a : α) : HaltsAt db (pure a) := fun _ => ⟨nofun, rfl⟩
theorem haltsAt_panic : HaltsAt db (SM.panic : P α) := fun _ => ⟨nofun, rfl⟩
theorem haltsAt_read {f : Db × List Out → Res α} (h : ∀ out, f (db, out) ≠ .fuel) : HaltsAt db (SM.read f) := fun out => ⟨h out, rfl⟩
theorem haltsAt_lift {r : Res α} (h : r ≠ .fuel) : HaltsAt db (SM.lift r : P α) := fun _ => ⟨h, rfl⟩
theorem haltsAt_say (o : Out) : HaltsAt db (say o) := fun _ => ⟨nofun, rfl⟩
theorem haltsAt_bind {x : P α} {f : α → P β} (hx : HaltsAt db x) (hf : ∀ a out out', x (db, out) = (.ok a, (db, out')) → HaltsAt db (f a)) : HaltsAt db (x >>= f) := by
  intro out
  obtain ⟨h1, h2⟩ := hx out
  rw [SM.bind_apply]
  cases h : x (db, out) with
  | mk r s' =>
    rw [h] at h1 h2
    obtain ⟨d, o⟩ := s'
    have h2 : d = db := h2
    subst h2
    cases r with
    | ok a => exact hf a out o h o
    | err e => exact ⟨nofun, rfl⟩
    | panic => exact ⟨nofun, rfl⟩
    | fuel => exact (h1 rfl).elim
theorem haltsAt_unwrap {x : P α} (h : HaltsAt db x) : HaltsAt db (SM.unwrap x) := fun out => ⟨unwrap_fuel (h out).1, (h out).2⟩
end

section
variable {db : Db} (hc : Closed db) {n : Nat} (hn : db.data.length < n) (E : Env) (lib : DiffLib) (fs : Fs) (iter : Nat → List Path → List Path) (kind : Kind)
include hc hn

theorem haltsAt_displayChanges (c : Commit) : HaltsAt db (displayChanges E lib fs iter n kind c) := by
  unfold displayChanges
  refine haltsAt_bind ?_ fun t _ _ _ => haltsAt_bind (haltsAt_unwrap fun out => ?_) fun r _ _ _ => ?_
  · split
    · exact haltsAt_bind (haltsAt_read fun _ => fromKey_fuel _ _) fun _ _ _ _ => haltsAt_pure _
    · exact haltsAt_pure _
  · exact ⟨compareDb_fuel E fs iter n _ _ _ hc hn, congrArg Prod.fst (compare_database_state E fs iter n _ _ _)⟩
  · split
    · exact haltsAt_bind (haltsAt_read fun _ => printedStat_fuel hc hn _ _) fun _ _ _ _ => haltsAt_say _
    · exact haltsAt_bind (haltsAt_read fun _ => createPatch_fuel hc hn _ _) fun _ _ _ _ => haltsAt_say _

theorem haltsAt_displayObj (f : Nat) (k : Key) (hf : rank db k < f) : HaltsAt db (displayObj E lib fs iter n kind f k) := by
  induction f generalizing k with
  | zero => omega
  | succ f ih =>
    unfold displayObj
    refine haltsAt_bind (haltsAt_read fun _ => unwrap_fuel (getObj_fuel _ _)) fun o out out' ho => ?_
    have ho : getObj db k = .ok o := by
      have := congrArg Prod.fst ho
      simp only [SM.read] at this
      cases hg : getObj db k <;> rw [hg] at this <;> simp [Res.unwrap] at this
      rw [this]
    have hr := (rank_lt hc ho).2
    have hk : rank db k < n := Nat.lt_of_le_of_lt (rank_le db k) hn
    split
    · exact fun out => ⟨halts_readDataTo hc (fun d => halts_modify _) n k hk out, rfl⟩
    · exact fun out => ⟨halts_readDataTo hc (fun d => halts_modify _) n k hk out, rfl⟩
    · split
      · rename_i k' e
        exact ih k' (by have := hr k' (by rw [e]; simp); omega)
      · exact haltsAt_panic
    · exact haltsAt_bind (haltsAt_lift (unwrap_fuel (commitOf_fuel _))) fun c _ _ _ => haltsAt_bind (haltsAt_say _) fun _ _ _ _ => haltsAt_displayChanges hc hn E lib fs iter kind c
    · exact haltsAt_say _
    · exact haltsAt_panic

omit hn in
theorem rank_parent {k : Key} {c : Commit} (h : Commit.fromKey db k = .ok c) : rank db k < db.data.length ∧ ∀ p ∈ c.parents, rank db p < rank db k := by
  obtain ⟨o, h1, h2⟩ := fromKey_eq_ok.mp h
  obtain ⟨h3, h4⟩ := rank_lt hc h1
  refine ⟨h3, fun p hp => h4 p ?_⟩
  rw [Commit.ofObject_keys h2]
  exact List.mem_cons_of_mem _ hp

theorem haltsAt_logLoop (f : Nat) (c : Commit) (hf : ∀ p ∈ c.parents, rank db p + 1 < f) (h0 : 0 < f) : HaltsAt db (logLoop E lib fs iter n kind f c) := by
  induction f generalizing c with
  | zero => omega
  | succ f ih =>
    unfold logLoop
    split
    · exact haltsAt_pure _
    · rename_i p ps e
      refine haltsAt_bind (haltsAt_displayObj hc hn E lib fs iter kind n p (Nat.lt_of_le_of_lt (rank_le db p) hn)) fun _ _ _ _ =>
        haltsAt_bind (haltsAt_read fun _ => fromKey_fuel _ _) fun c' _ _ hc' => ih c' ?_ ?_
      · have hc' : Commit.fromKey db p = .ok c' := by simpa [SM.read] using congrArg Prod.fst hc'
        intro p' hp
        have := (rank_parent hc hc').2 p' hp
        have := hf p (by rw [e]; simp)
        omega
      · have := hf p (by rw [e]; simp)
        omega

theorem haltsAt_logObj (k : Key) : HaltsAt db (logObj E lib fs iter n kind k) := by
  unfold logObj
  refine haltsAt_bind (haltsAt_read fun _ => unwrap_fuel (getObj_fuel _ _)) fun o _ _ _ => ?_
  split
  · refine haltsAt_bind (haltsAt_displayObj hc hn E lib fs iter kind n k (Nat.lt_of_le_of_lt (rank_le db k) hn)) fun _ _ _ _ =>
      haltsAt_bind (haltsAt_read fun _ => fromKey_fuel _ _) fun c _ _ hc' => haltsAt_logLoop hc hn E lib fs iter kind n c ?_ (by omega)
    have hc' : Commit.fromKey db k = .ok c := by simpa [SM.read] using congrArg Prod.fst hc'
    intro p hp
    obtain ⟨h1, h2⟩ := rank_parent hc hc'
    have := h2 p hp
    omega
  · exact haltsAt_panic
end

/-- **C60**: in a reachable world, with a recursion bound above the number of rows, the traversals never run into it: reading contents, walking a stored tree, `show` and `log`
all end. -/
theorem C60_traversals_end {H : Bytes → Key} {w : World} (h : w.Reachable H) (q : List Bytes) (n : Nat) (hn : (w.dbs q).data.length < n) (E : Env) (lib : DiffLib) (fs : Fs)
    (iter : Nat → List Path → List Path) (kind : Kind) (k : Key) (out : List Out) :
    (∀ b, (readData (w.dbs q) n k b).1 ≠ .fuel) ∧ walkItems (w.dbs q) n k ≠ .fuel ∧
      (displayObj E lib fs iter n kind n k (w.dbs q, out)).1 ≠ .fuel ∧ (logObj E lib fs iter n kind k (w.dbs q, out)).1 ≠ .fuel := by
  have hc := World.Reachable.closed h q
  have hk : rank (w.dbs q) k < n := Nat.lt_of_le_of_lt (rank_le _ k) hn
  exact ⟨halts_readDataTo hc (fun d => halts_modify _) n k hk, walkItems_fuel hc n hn k, (haltsAt_displayObj hc hn E lib fs iter kind n k hk out).1,
    (haltsAt_logObj hc hn E lib fs iter kind k out).1⟩

end Snap.Props
