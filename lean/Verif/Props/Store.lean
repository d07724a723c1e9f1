import Verif.Lemmas.Calls
import Verif.Props.Keys
/-! Properties C08, C09, C11–C18 (data store) and C19, C20, C23 (objects in it). -/
namespace Snap.Props
open Snap
set_option linter.unusedSectionVars false
variable [Serde] [LawfulSerde]

/-- A database reached from a fresh one by any calls, each of which may fail. -/
def Reach (H : Bytes → Key) (db : Db) : Prop := ∃ cs fs, db = runCalls H cs { faults := fs }

/-- As `Reach`, but without raw writes to the object table: every object was written by `put`. -/
def ReachPut (H : Bytes → Key) (db : Db) : Prop :=
  ∃ cs fs, (∀ c ∈ cs, ∀ k v, c ≠ .rawPut k v) ∧ db = runCalls H cs { faults := fs }

/-- A hash function for examples: the first 32 bytes, zero padded. -/
def exH (x : Bytes) : Key := ⟨(x ++ List.replicate 32 0).take 32, by simp⟩

theorem reach_nodup {H : Bytes → Key} {db : Db} (h : Reach H db) : (db.data.map (·.1)).Nodup := by
  obtain ⟨cs, fs, rfl⟩ := h
  exact runCalls_nodup H cs (by simp)

theorem reachPut_reach {H : Bytes → Key} {db : Db} (h : ReachPut H db) : Reach H db := by
  obtain ⟨cs, fs, _, rfl⟩ := h; exact ⟨cs, fs, rfl⟩

theorem inv_call {H : Bytes → Key} {db : Db} (h : Inv H db) {c : Call} (hc : ∀ k v, c ≠ .rawPut k v) : Inv H (c.run H db).2 := by
  cases c with
  | put d =>
    have := inv_put h d
    simp only [Call.run, SM.bind_apply]
    rcases put_cases H d db with e | e <;> rw [e] at this ⊢ <;> exact this
  | rawPut k v => exact absurd rfl (hc k v)
  | putState k v =>
    simp only [Call.run, Snap.rawPutState]
    rcases write_total (fun db => { db with state := insertReplace db.state k v }) db with ⟨_, e⟩ | ⟨_, e⟩ <;> rw [e] <;> exact ⟨h.nodup, h.rows⟩
  | putHead v =>
    simp only [Call.run, Snap.putHead, Snap.rawPutState]
    rcases write_total (fun db => { db with state := insertReplace db.state sHEAD v }) db with ⟨_, e⟩ | ⟨_, e⟩ <;> rw [e] <;> exact ⟨h.nodup, h.rows⟩
  | reflogPush n r k =>
    simp only [Call.run, Snap.reflogPush]
    rcases write_total (fun db => { db with reflog := db.reflog ++ [⟨n, r, k.asDbKey⟩] }) db with ⟨_, e⟩ | ⟨_, e⟩ <;> rw [e] <;> exact ⟨h.nodup, h.rows⟩

theorem inv_runCalls {H : Bytes → Key} {db : Db} (h : Inv H db) {cs : List Call} (hc : ∀ c ∈ cs, ∀ k v, c ≠ .rawPut k v) :
    Inv H (runCalls H cs db) := by
  induction cs generalizing db with
  | nil => exact h
  | cons c cs ih => exact ih (inv_call h (hc c (by simp))) (fun c hm => hc c (by simp [hm]))

theorem reachPut_inv {H : Bytes → Key} {db : Db} (h : ReachPut H db) : Inv H db := by
  obtain ⟨cs, fs, hc, rfl⟩ := h
  exact inv_runCalls (inv_empty H fs) hc

/-- A key is stored. -/
def Stored (db : Db) (k : Key) : Prop := ∃ v, get db k = .ok v

theorem stored_iff {db : Db} {k : Key} : Stored db k ↔ ∃ r ∈ db.data, r.1 = k.asDbKey := by
  rw [← assoc_isSome_iff]
  simp only [Stored, get_eq_ok]

/-! ### C14 range queries -/

theorem between_nodup {db : Db} (hn : (db.data.map (·.1)).Nodup) (start : Bytes) (stop : Option Bytes) :
    ∃ l, rawBetween db start stop = .ok l ∧ l.Nodup ∧
      ∀ k, k ∈ l ↔ (∃ v, rawGet db k = .ok v) ∧ Spec.InRange start stop k := by
  have hget : ∀ k, (∃ v, rawGet db k = .ok v) ↔ ∃ r ∈ db.data, r.1 = k := by
    intro k; rw [← assoc_isSome_iff]; simp only [rawGet_ok]
  cases stop with
  | none =>
    refine ⟨_, rfl, (List.filter_sublist.map _).nodup hn, ?_⟩
    intro k
    simp only [List.mem_map, List.mem_filter, hget, Spec.InRange]
    constructor
    · rintro ⟨r, ⟨hr, hs⟩, rfl⟩; exact ⟨⟨r, hr, rfl⟩, by simpa using hs, by simp⟩
    · rintro ⟨⟨r, hr, rfl⟩, hs, _⟩; exact ⟨r, ⟨hr, by simpa using hs⟩, rfl⟩
  | some e =>
    refine ⟨_, rfl, (List.filter_sublist.map _).nodup hn, ?_⟩
    intro k
    simp only [List.mem_map, List.mem_filter, hget, Spec.InRange]
    constructor
    · rintro ⟨r, ⟨hr, hs⟩, rfl⟩
      simp only [Bool.and_eq_true, decide_eq_true_eq] at hs
      exact ⟨⟨r, hr, rfl⟩, hs.1, by rintro _ ⟨⟩; exact hs.2⟩
    · rintro ⟨⟨r, hr, rfl⟩, hs, he⟩
      exact ⟨r, ⟨hr, by simp only [Bool.and_eq_true, decide_eq_true_eq]; exact ⟨hs, he e rfl⟩⟩, rfl⟩

theorem C14_between (H : Bytes → Key) (db : Db) (h : Reach H db) (start : Bytes) (stop : Option Bytes) :
    ∃ l, rawBetween db start stop = .ok l ∧ l.Nodup ∧
      ∀ k, k ∈ l ↔ (∃ v, rawGet db k = .ok v) ∧ Spec.InRange start stop k :=
  between_nodup (reach_nodup h) start stop

/-- a reachable store with two keys, one of them in the range -/
example : rawBetween (runCalls exH [.rawPut [1] [5], .rawPut [2, 0] [6]] {}) [2] (some [3]) = .ok [[2, 0]] := by decide

/-! ### C08 canonicalize resolves an abbreviation iff it is unambiguous -/

theorem keys_of_dbkeys {H : Bytes → Key} {db : Db} (hi : Inv H db) (l : List Bytes)
    (hl : ∀ b ∈ l, ∃ v, rawGet db b = .ok v) : ∃ ks : List Key, l = ks.map (·.asDbKey) := by
  induction l with
  | nil => exact ⟨[], rfl⟩
  | cons b l ih =>
    obtain ⟨ks, hks⟩ := ih (fun b hb => hl b (by simp [hb]))
    obtain ⟨v, hv⟩ := hl b (by simp)
    have := hi.rows _ (assoc_some_mem (rawGet_ok.mp hv))
    exact ⟨H v :: ks, by simp [hks]; exact this.1⟩

theorem abbreviation_inv (H : Bytes → Key) (db : Db) (h : Inv H db)
    (t : Bytes) (ht : ∀ c ∈ t, Spec.IsBase32Ci c) (hl : t.length < 52) :
    ∃ kish, Keyish.fromStr (98 :: t) = .ok kish ∧
      let Matches := fun k : Key => Stored db k ∧ (98 :: t.map Spec.lower) <+: k.asUserKey
      (∀ k, canonicalize db kish = .ok k ↔ Matches k ∧ ∀ k', Matches k' → k' = k)
      ∧ (canonicalize db kish = .err (.canonNotFound (98 :: t)) ↔ ∀ k, ¬ Matches k)
      ∧ ((∃ k k', k ≠ k' ∧ Matches k ∧ Matches k') ↔
          ∃ ks : List Key, canonicalize db kish = .err (.ambiguous (98 :: t) (ks.map (·.hash))) ∧ ks.Nodup
            ∧ (2 ≤ ks.length) ∧ ∀ k, k ∈ ks ↔ Matches k) := by
  obtain ⟨start, stop, hp, hrange⟩ := C07_abbreviation t ht hl
  refine ⟨_, hp, ?_⟩
  intro Matches
  obtain ⟨l, hb, hnd, hmem⟩ := between_nodup h.nodup start stop
  obtain ⟨ks, rfl⟩ := keys_of_dbkeys h l (fun b hb' => ((hmem b).mp hb').1)
  have hks : ks.Nodup := by
    rw [List.nodup_iff_pairwise_ne, List.pairwise_map] at hnd
    exact hnd.imp (fun h e => h (by rw [e]))
  have hm : ∀ k, k ∈ ks ↔ Matches k := by
    intro k
    have := hmem k.asDbKey
    rw [hrange k] at this
    show _ ↔ (∃ v, rawGet db k.asDbKey = .ok v) ∧ _
    rw [← this, List.mem_map]
    constructor
    · intro hk; exact ⟨k, hk, rfl⟩
    · rintro ⟨k', hk', e⟩; rw [← asDbKey_inj e]; exact hk'
  have hmr : mapRes fromDbKey (ks.map (·.asDbKey)) = .ok ks := by
    rw [mapRes_map, mapRes_ok (g := id) _ (fun k _ => fromDbKey_asDbKey k)]; simp
  simp only [canonicalize, hb, Res.unwrap_ok, Res.ok_bind]
  match ks, hks, hm, hmr with
  | [], _, hm, _ =>
    simp only [List.map_nil]
    refine ⟨?_, ?_, ?_⟩
    · intro k; constructor
      · intro h; simp at h
      · intro h; exact absurd ((hm k).mpr h.1) (by simp)
    · constructor
      · intro _ k hk; exact absurd ((hm k).mpr hk) (by simp)
      · intro _; trivial
    · constructor
      · rintro ⟨k, _, _, hk, _⟩; exact absurd ((hm k).mpr hk) (by simp)
      · rintro ⟨ks, h, _⟩; simp at h
  | [k0], _, hm, _ =>
    simp only [List.map_cons, List.map_nil, fromDbKey_asDbKey]
    refine ⟨?_, ?_, ?_⟩
    · intro k; constructor
      · intro h
        have h : k0 = k := by simpa using h
        subst h
        exact ⟨(hm _).mp (by simp), fun k' hk' => by simpa using (hm k').mpr hk'⟩
      · rintro ⟨h1, h2⟩
        have := h2 k0 ((hm k0).mp (by simp))
        rw [this]
    · constructor
      · intro h; simp at h
      · intro h; exact absurd ((hm k0).mp (by simp)) (h k0)
    · constructor
      · rintro ⟨k, k', hne, hk, hk'⟩
        have h1 : k = k0 := by simpa using (hm k).mpr hk
        have h2 : k' = k0 := by simpa using (hm k').mpr hk'
        exact absurd (h1.trans h2.symm) hne
      · rintro ⟨ks, h, _⟩; simp at h
  | k0 :: k1 :: ks, hks, hm, hmr =>
    simp only [List.map_cons] at hmr ⊢
    simp only [hmr, Res.ok_bind]
    have hne : k0 ≠ k1 := by
      simp only [List.nodup_cons, List.mem_cons, not_or] at hks; exact hks.1.1
    have m0 := (hm k0).mp (by simp)
    have m1 := (hm k1).mp (by simp)
    refine ⟨?_, ?_, ?_⟩
    · intro k; constructor
      · intro h; simp at h
      · rintro ⟨_, h2⟩
        exact absurd ((h2 k0 m0).trans (h2 k1 m1).symm) hne
    · constructor
      · intro h; simp at h
      · intro h; exact absurd m0 (h k0)
    · constructor
      · intro _; exact ⟨k0 :: k1 :: ks, rfl, hks, by simp, hm⟩
      · intro _; exact ⟨k0, k1, hne, m0, m1⟩

theorem C08_abbreviation (H : Bytes → Key) (db : Db) (h : ReachPut H db)
    (t : Bytes) (ht : ∀ c ∈ t, Spec.IsBase32Ci c) (hl : t.length < 52) :
    ∃ kish, Keyish.fromStr (98 :: t) = .ok kish ∧
      let Matches := fun k : Key => Stored db k ∧ (98 :: t.map Spec.lower) <+: k.asUserKey
      (∀ k, canonicalize db kish = .ok k ↔ Matches k ∧ ∀ k', Matches k' → k' = k)
      ∧ (canonicalize db kish = .err (.canonNotFound (98 :: t)) ↔ ∀ k, ¬ Matches k)
      ∧ ((∃ k k', k ≠ k' ∧ Matches k ∧ Matches k') ↔
          ∃ ks : List Key, canonicalize db kish = .err (.ambiguous (98 :: t) (ks.map (·.hash))) ∧ ks.Nodup
            ∧ (2 ≤ ks.length) ∧ ∀ k, k ∈ ks ↔ Matches k) :=
  abbreviation_inv H db (reachPut_inv h) t ht hl

/-- Refs resolve to the newest pushed key, or NotFound. -/
theorem C08_ref (H : Bytes → Key) (cs : List Call) (fs : List Bool) (s : Bytes) (l r : Bytes)
    (hs : s = l ++ 47 :: r) (hl : 47 ∉ l) :
    ∃ kish, Keyish.fromStr s = .ok kish ∧
      canonicalize (runCalls H cs { faults := fs }) kish =
        match (Spec.pushes r (if l = [] then none else some l) (succeeded H cs { faults := fs })).getLast? with
        | some k => .ok k
        | none => .err (.canonNotFound s) := by
  obtain ⟨l', r', hs', hl', hp⟩ := C06_ref s (by rw [hs]; simp)
  have heq : l' = l ∧ r' = r := by
    rw [hs] at hs'
    clear hp
    induction l generalizing l' s with
    | nil =>
      cases l' with
      | nil => simp at hs'; exact ⟨rfl, hs'.symm⟩
      | cons a l' => simp at hs'; exact absurd hs'.1 (by rintro rfl; simp at hl')
    | cons a l ih =>
      cases l' with
      | nil => simp at hs'; exact absurd hs'.1.symm (by rintro rfl; simp at hl)
      | cons b l' =>
        simp at hs' hl hl'
        have := ih (l ++ 47 :: r) rfl hl.2 l' hs'.2 hl'.2
        exact ⟨by rw [hs'.1, this.1], this.2⟩
  obtain ⟨rfl, rfl⟩ := heq
  refine ⟨_, hp, ?_⟩
  have hrep := rep_run (H := H) (rep_empty fs) cs
  simp only [canonicalize, hrep.reflogGet, fold_pushed]
  simp only [Spec.Store.pushed, Spec.Store.empty, List.filter_nil, List.map_nil, List.nil_append]
  cases (Spec.pushes r' (if l' = [] then none else some l') (succeeded H cs { faults := fs })).getLast? <;> simp

/-- non-vacuity: a one-object store, the abbreviation "ba" resolves -/
example : ∃ k, canonicalize (runCalls exH [.put [7]] {}) (.range [98, 97] [1, 0] (some [1, 8])) = .ok k := by
  refine ⟨exH [7], by decide⟩

/-! ### C09 full keys do not resolve -/

/-- What the lookup of a full key really does: it decodes the *stored bytes* as a database key; an absent key panics. -/
theorem C09_full_key_behaviour (db : Db) (k : Key) :
    ∃ kish, Keyish.fromStr k.asUserKey = .ok kish ∧
      canonicalize db kish = match get db k with | .ok v => fromDbKey v | _ => .panic := by
  refine ⟨_, C05_parses_back k, ?_⟩
  simp only [canonicalize, get]
  unfold rawGet
  split
  · simp
  · simp

/-- **Counterexample (the property is false of the code)**: no object stored by `put_obj` can be found by its full key. -/
theorem C09_full_key_counterexample (db : Db) (k : Key) (o : Object) (b : Bytes)
    (hb : o.encode = .ok b) (hg : get db k = .ok b) :
    ∃ kish, Keyish.fromStr k.asUserKey = .ok kish ∧ canonicalize db kish = .err (.unknownHashId 0xa3) := by
  obtain ⟨kish, h1, h2⟩ := C09_full_key_behaviour db k
  refine ⟨kish, h1, ?_⟩
  obtain ⟨t, rfl⟩ := Object.encode_head hb
  rw [h2, hg]; rfl

theorem C09_absent_key_panics (db : Db) (k : Key) (h : ¬ Stored db k) :
    ∃ kish, Keyish.fromStr k.asUserKey = .ok kish ∧ canonicalize db kish = .panic := by
  obtain ⟨kish, h1, h2⟩ := C09_full_key_behaviour db k
  refine ⟨kish, h1, ?_⟩
  rw [h2]
  cases hg : get db k with
  | ok v => exact absurd ⟨v, hg⟩ h
  | _ => rfl

/-- non-vacuity of the counterexample: a stored object -/
example : ∃ b, (⟨[1], [], .fileBlob⟩ : Object).encode = .ok b ∧
    get (putObj exH ⟨[1], [], .fileBlob⟩ {}).2 (exH b) = .ok b :=
  ⟨_, by rfl, by decide⟩

/-! ### C11 stored data is immutable -/

theorem C11_immutable (H : Bytes → Key) (db : Db) (k v : Bytes) (h : rawGet db k = .ok v) (cs : List Call) :
    rawGet (runCalls H cs db) k = .ok v :=
  rawGet_mono (runCalls_data_prefix H cs db) h

theorem C11_second_put_ignored (H : Bytes → Key) (db : Db) (k v : Bytes) (w : Bytes) (h : rawGet db k = .ok v) :
    rawGet (rawPut k w db).2 k = .ok v ∧ SameTables (rawPut k w db).2 db := by
  refine ⟨?_, ?_⟩
  · exact rawGet_mono (Call.run_data_prefix H (.rawPut k w) db) h
  · unfold rawPut
    rcases write_total (fun db => { db with data := insertIgnore db.data k w }) db with ⟨_, e⟩ | ⟨_, e⟩ <;> rw [e]
    · exact ⟨rfl, rfl, rfl⟩
    · rcases insertIgnore_cases db.data k w with ⟨_, e⟩ | ⟨hn, _⟩
      · exact ⟨e, rfl, rfl⟩
      · obtain ⟨r, hr, he⟩ := assoc_isSome_iff.mp ⟨v, rawGet_ok.mp h⟩
        exact absurd he (hn r hr)

/-- Also within and across transactions: a value seen at the start of a history in the durable state stays. -/
theorem C11_history (H : Bytes → Key) (c : Conn) (hw : c.work = none) (k v : Bytes) (h : rawGet c.durable k = .ok v) (ops : List ConnOp) :
    rawGet (c.run H ops).durable k = .ok v ∧ rawGet (c.run H ops).view k = .ok v := by
  suffices ∀ (c : Conn), rawGet c.durable k = .ok v → rawGet c.view k = .ok v →
      rawGet (c.run H ops).durable k = .ok v ∧ rawGet (c.run H ops).view k = .ok v by
    exact this c h (by simp [Conn.view, hw, h])
  clear h hw c
  induction ops with
  | nil => intro c h1 h2; exact ⟨h1, h2⟩
  | cons o os ih =>
    intro c h1 h2
    obtain ⟨d, w⟩ := c
    simp only [Conn.run]
    have e : ∀ a b : Db, rawGet (a.restore b) k = rawGet a k := fun a b => rfl
    cases w with
    | none =>
      cases o with
      | begin => exact ih _ h1 h1
      | commit => exact ih _ h1 h1
      | rollback => exact ih _ h1 h1
      | crash => exact ih _ h1 h1
      | call c =>
        have := rawGet_mono (c.run_data_prefix H d) h1
        exact ih _ this this
    | some w =>
      have h2' : rawGet w k = .ok v := h2
      cases o with
      | begin => exact ih _ h1 h2
      | commit =>
        simp only [Conn.step, Conn.commit]
        split
        · exact ih _ h1 h2'
        · exact ih _ h2' h2'
      | rollback => exact ih _ h1 h1
      | crash => exact ih _ h1 h1
      | call c => exact ih _ h1 (rawGet_mono (c.run_data_prefix H w) h2')

example : rawGet (runCalls exH [.rawPut [1] [5]] {}) [1] = .ok [5] := by decide

/-! ### C12 content addressing -/

theorem C12_put_get (H : Bytes → Key) (db : Db) (hr : ReachPut H db) (d : Bytes) (k : Key) (db' : Db)
    (hp : put H d db = (.ok k, db')) (hc : ∀ x ∈ db.hashed, H x = H d → x = d) :
    k = H d ∧ get db' k = .ok d := by
  have hi := reachPut_inv hr
  rcases put_cases H d db with e | e
  · rw [e] at hp; simp at hp
  · rw [e] at hp
    simp only [Prod.mk.injEq, Res.ok.injEq] at hp
    obtain ⟨rfl, rfl⟩ := hp
    refine ⟨rfl, ?_⟩
    rw [get_eq_ok]
    simp only [insertIgnore_assoc, if_true]
    cases ha : assoc db.data (H d).asDbKey with
    | none => rfl
    | some v =>
      obtain ⟨h1, h2⟩ := get_hash hi (get_eq_ok.mpr ha)
      rw [hc v h2 h1]; rfl

/-- `put` fails only by a failing write; it never panics. -/
theorem C12_put_result (H : Bytes → Key) (db : Db) (d : Bytes) :
    (put H d db).1 = .ok (H d) ∨ ((put H d db).1 = .err .sqlite ∧ SameTables (put H d db).2 db) := by
  rcases put_cases H d db with e | e <;> rw [e]
  · right; exact ⟨rfl, rfl, rfl, rfl⟩
  · left; rfl

/-- Putting the same bytes again changes no table. -/
theorem C12_idempotent (H : Bytes → Key) (db : Db) (d : Bytes) (k : Key) (db' : Db) (hp : put H d db = (.ok k, db')) :
    SameTables (put H d db').2 db' := by
  have hex : ∃ r ∈ db'.data, r.1 = (H d).asDbKey := by
    rcases put_cases H d db with e | e
    · rw [e] at hp; simp at hp
    · rw [e] at hp
      simp only [Prod.mk.injEq] at hp
      rw [← hp.2, ← assoc_isSome_iff]
      simp only [insertIgnore_assoc, if_true]
      cases assoc db.data (H d).asDbKey <;> simp
  rcases put_cases H d db' with e | e <;> rw [e]
  · exact ⟨rfl, rfl, rfl⟩
  · rcases insertIgnore_cases db'.data (H d).asDbKey d with ⟨_, e⟩ | ⟨hn, _⟩
    · exact ⟨e, rfl, rfl⟩
    · obtain ⟨r, hr, he⟩ := hex; exact absurd he (hn r hr)

example : ReachPut exH {} ∧ put exH [7] {} = (.ok (exH [7]), { data := [((exH [7]).asDbKey, [7])], hashed := [[7]] }) :=
  ⟨⟨[], [], by simp, rfl⟩, rfl⟩

/-! ### C13 raw_exists -/

theorem nodup_count {l : List Bytes} (h : l.Nodup) (k : Bytes) : l.count k ≤ 1 := by
  induction l with
  | nil => simp
  | cons a l ih =>
    simp only [List.nodup_cons] at h
    rw [List.count_cons]
    by_cases e : a = k
    · subst e
      have : l.count a = 0 := List.count_eq_zero.mpr h.1
      simp [this]
    · have := ih h.2
      simp [e, this]

theorem C13_exists (H : Bytes → Key) (db : Db) (h : Reach H db) (k : Bytes) :
    (rawExists db k = .ok true ↔ ∃ v, rawGet db k = .ok v) ∧ (rawExists db k = .ok false ↔ ¬ ∃ v, rawGet db k = .ok v) := by
  have hn := reach_nodup h
  have hget : (∃ v, rawGet db k = .ok v) ↔ ∃ r ∈ db.data, r.1 = k := by
    rw [← assoc_isSome_iff]; simp only [rawGet_ok]
  have hcount : (db.data.filter (·.1 == k)).length = (db.data.map (·.1)).count k := by
    rw [List.count, List.countP_map, List.countP_eq_length_filter]; rfl
  have hle : (db.data.map (·.1)).count k ≤ 1 := nodup_count hn k
  have hpos : 0 < (db.data.map (·.1)).count k ↔ ∃ r ∈ db.data, r.1 = k := by
    rw [List.count_pos_iff, List.mem_map]
  rw [hget, ← hpos]
  unfold rawExists
  simp only [hcount]
  rw [if_pos (by omega)]
  generalize (db.data.map (·.1)).count k = n at *
  by_cases h : n = 1
  · subst h; simp
  · have : n = 0 := by omega
    subst this; simp

/-! ### C15 state keys -/

theorem C15_state (H : Bytes → Key) (cs : List Call) (fs : List Bool) (k : Bytes) :
    rawGetState (runCalls H cs { faults := fs }) k
      = .ok (Spec.stateWrites k (succeeded H cs { faults := fs })).getLast? := by
  have hrep := rep_run (H := H) (rep_empty fs) cs
  rw [hrep.rawGetState, fold_st]
  simp [Spec.Store.empty]

theorem C15_head (db : Db) (h : Bytes) (hu : utf8 h = true) (db' : Db) (hp : putHead h db = (.ok (), db')) :
    getHead db' = .ok (some h) ∧ ∀ k, k ≠ [72, 69, 65, 68] → rawGetState db' k = rawGetState db k := by
  unfold putHead rawPutState at hp
  rcases write_cases (fun db => { db with state := insertReplace db.state sHEAD h }) db with ⟨fs, _, e⟩ | e
  · rw [e] at hp; simp at hp
  · rw [e] at hp
    simp only [Prod.mk.injEq, true_and] at hp
    subst hp
    refine ⟨?_, ?_⟩
    · simp [getHead, rawGetState, insertReplace_assoc, hu]
    · intro k hk
      have : ¬ sHEAD = k := fun e => hk e.symm
      simp [rawGetState, insertReplace_assoc, this]

/-- Object and reflog calls leave every state key alone. -/
theorem C15_others (H : Bytes → Key) (db : Db) (c : Call) (hc : ∀ k, Spec.stateWrites k [c] = []) (k : Bytes) :
    rawGetState (c.run H db).2 k = rawGetState db k := by
  rcases c.run_cases H db with ⟨_, hs⟩ | ⟨_, hs⟩
  · simp only [rawGetState, hs.2.1]
  · simp only [rawGetState, hs.2.1]
    cases c with
    | putState a v => have := hc a; simp [Spec.stateWrites] at this
    | putHead v => have := hc [72, 69, 65, 68]; simp [Spec.stateWrites] at this
    | put d => rfl
    | rawPut a v => rfl
    | reflogPush a b d => rfl

example : rawGetState (runCalls exH [.putHead [97], .putState [1] [2], .putHead [98]] {}) sHEAD = .ok (some [98]) := by decide

/-! ### C16 the reflog -/

theorem C16_walk (H : Bytes → Key) (cs : List Call) (fs : List Bool) (n : Bytes) (r : Option Bytes) :
    reflogWalk (runCalls H cs { faults := fs }) n r
      = .ok (Spec.pushes n r (succeeded H cs { faults := fs })).reverse := by
  have hrep := rep_run (H := H) (rep_empty fs) cs
  rw [hrep.reflogWalk, fold_pushed]
  simp [Spec.Store.empty, Spec.Store.pushed]

theorem C16_get (H : Bytes → Key) (cs : List Call) (fs : List Bool) (n : Bytes) (r : Option Bytes) :
    reflogGet (runCalls H cs { faults := fs }) n r
      = match (Spec.pushes n r (succeeded H cs { faults := fs })).reverse with
        | k :: _ => .ok k
        | [] => .err .notFound := by
  have hrep := rep_run (H := H) (rep_empty fs) cs
  rw [hrep.reflogGet, fold_pushed]
  simp only [Spec.Store.empty, Spec.Store.pushed, List.filter_nil, List.map_nil, List.nil_append]
  rw [List.getLast?_eq_head?_reverse]
  cases (Spec.pushes n r (succeeded H cs { faults := fs })).reverse <;> rfl

/-- two refs of the same name, one local and one remote -/
example (a b : Key) : reflogWalk (runCalls exH [.reflogPush [97] none a, .reflogPush [97] (some [98]) b, .reflogPush [97] none b] {}) [97] none
    = .ok [b, a] := by
  rw [C16_walk]; rfl

/-! ### C17 transactions -/

/-- After any history from a fresh repository, what the next connection sees is the fold of the committed calls, in order. -/
theorem C17_history (H : Bytes → Key) (fs : List Bool) (ops : List ConnOp) :
    let c : Conn := { durable := { faults := fs } }
    let s := (Spec.committed none (c.outcomes H ops)).foldl (Spec.Store.apply H) Spec.Store.empty
    let db := (c.run H ops).durable
    (∀ k, (rawGet db k).toOption = s.obj k) ∧ (∀ k, rawGetState db k = .ok (s.st k))
    ∧ (∀ n r, reflogWalk db n r = .ok (s.pushed n r).reverse) := by
  intro c s db
  have h := rep_history (H := H) ops c Spec.Store.empty none (rep_empty fs) trivial
  refine ⟨?_, h.rawGetState, h.reflogWalk⟩
  intro k
  rw [h.rawGet]
  show _ = s.obj k
  cases s.obj k <;> rfl

/-- Rolling back and crashing restore the tables of the last commit exactly. -/
theorem C17_rollback (H : Bytes → Key) (c : Conn) (hw : c.work = none) (calls : List Call) :
    SameTables (c.run H (.begin :: calls.map .call ++ [.rollback])).view c.view
    ∧ SameTables (c.run H (.begin :: calls.map .call ++ [.crash])).view c.view := by
  have hcalls : ∀ (calls : List Call) (w : Db) (rest : List ConnOp), ∃ w',
      (Conn.mk c.durable (some w)).run H (calls.map .call ++ rest) = (Conn.mk c.durable (some w')).run H rest := by
    intro calls
    induction calls with
    | nil => intro w rest; exact ⟨w, rfl⟩
    | cons k ks ih =>
      intro w rest
      obtain ⟨w', h⟩ := ih (k.run H w).2 rest
      exact ⟨w', h⟩
  obtain ⟨d, w⟩ := c
  simp only at hw; subst hw
  obtain ⟨w1, h1⟩ := hcalls calls d [.rollback]
  obtain ⟨w2, h2⟩ := hcalls calls d [.crash]
  simp only [List.cons_append, Conn.run, Conn.step, Conn.begin, h1, h2]
  exact ⟨⟨rfl, rfl, rfl⟩, ⟨rfl, rfl, rfl⟩⟩

example : (rawGet ((Conn.mk {} none).run exH [.begin, .call (.rawPut [1] [2]), .crash, .begin, .call (.rawPut [1] [3]), .commit]).durable [1])
    = .ok [3] := by decide

/-! ### C18 order of puts -/

theorem get_after_puts (H : Bytes → Key) (ds : List Bytes) (db : Db) (hf : db.faults = []) (hi : Inv H db)
    (hc : ∀ x y, (x ∈ db.hashed ∨ x ∈ ds) → (y ∈ db.hashed ∨ y ∈ ds) → H x = H y → x = y) (k : Key) (v : Bytes) :
    get (runCalls H (ds.map .put) db) k = .ok v ↔ get db k = .ok v ∨ (v ∈ ds ∧ H v = k) := by
  induction ds generalizing db with
  | nil => simp [runCalls]
  | cons d ds ih =>
    simp only [List.map_cons, runCalls]
    have hrun : ((Call.put d).run H db).2 = { db with hashed := d :: db.hashed, data := insertIgnore db.data (H d).asDbKey d } := by
      simp only [Call.run, SM.bind_apply, put, SM.modify_apply, Snap.rawPut, write]
      rw [hf]; rfl
    have hi' := inv_call hi (c := .put d) (by intro k v h; cases h)
    rw [hrun] at hi' ⊢
    rw [ih { db with hashed := d :: db.hashed, data := insertIgnore db.data (H d).asDbKey d } hf hi' (by
      intro x y hx hy
      apply hc
      · rcases hx with hx | hx
        · rcases List.mem_cons.mp hx with rfl | hx
          · right; simp
          · left; exact hx
        · right; simp [hx]
      · rcases hy with hy | hy
        · rcases List.mem_cons.mp hy with rfl | hy
          · right; simp
          · left; exact hy
        · right; simp [hy])]
    have : get { db with hashed := d :: db.hashed, data := insertIgnore db.data (H d).asDbKey d } k = .ok v
        ↔ get db k = .ok v ∨ (v = d ∧ H v = k) := by
      rw [get_eq_ok, get_eq_ok, insertIgnore_assoc]
      cases ha : assoc db.data k.asDbKey with
      | none =>
        by_cases hk : H d = k
        · subst hk
          simp only [if_true, Option.or, Option.some.injEq, reduceCtorEq, false_or]
          constructor
          · rintro rfl; exact ⟨rfl, rfl⟩
          · rintro ⟨rfl, _⟩; rfl
        · have hne : ¬ (H d).asDbKey = k.asDbKey := fun e => hk (asDbKey_inj e)
          simp only [if_neg hne, Option.or, reduceCtorEq, false_or, false_iff]
          rintro ⟨rfl, h⟩; exact hk h
      | some w =>
        simp only [Option.or, Option.some.injEq]
        constructor
        · intro h; left; exact h
        · rintro (h | ⟨rfl, h⟩)
          · exact h
          · obtain ⟨h1, h2⟩ := get_hash hi (get_eq_ok.mpr ha)
            exact hc w v (.inl h2) (.inr (by simp)) (h1.trans h.symm)
    rw [this, List.mem_cons, or_assoc]
    apply or_congr Iff.rfl
    constructor
    · rintro (⟨rfl, h⟩ | ⟨h1, h2⟩)
      · exact ⟨.inl rfl, h⟩
      · exact ⟨.inr h1, h2⟩
    · rintro ⟨rfl | h1, h2⟩
      · left; exact ⟨rfl, h2⟩
      · right; exact ⟨h1, h2⟩

theorem C18_put_order (H : Bytes → Key) (ds ds' : List Bytes) (hperm : ds.Perm ds')
    (hc : ∀ x ∈ ds, ∀ y ∈ ds, H x = H y → x = y) :
    let a := runCalls H (ds.map .put) {}
    let b := runCalls H (ds'.map .put) {}
    (∀ k : Key, get a k = get b k) ∧ (∀ k, rawExists a k = rawExists b k)
    ∧ (∀ start stop, ∃ l l', rawBetween a start stop = .ok l ∧ rawBetween b start stop = .ok l' ∧ l.Perm l') := by
  intro a b
  have hra : Reach H a := ⟨_, [], rfl⟩
  have hrb : Reach H b := ⟨_, [], rfl⟩
  have hia : Inv H a := inv_runCalls (inv_empty H []) (by
    intro c hc k v; obtain ⟨d, _, rfl⟩ := List.mem_map.mp hc; simp)
  have hib : Inv H b := inv_runCalls (inv_empty H []) (by
    intro c hc k v; obtain ⟨d, _, rfl⟩ := List.mem_map.mp hc; simp)
  have hgk : ∀ (k : Key) v, get a k = .ok v ↔ get b k = .ok v := by
    intro k v
    have h1 := get_after_puts H ds {} rfl (inv_empty H []) (by
      intro x y hx hy; rcases hx with hx | hx
      · simp at hx
      · rcases hy with hy | hy
        · simp at hy
        · exact hc x hx y hy) k v
    have h2 := get_after_puts H ds' {} rfl (inv_empty H []) (by
      intro x y hx hy; rcases hx with hx | hx
      · simp at hx
      · rcases hy with hy | hy
        · simp at hy
        · exact hc x (hperm.mem_iff.mpr hx) y (hperm.mem_iff.mpr hy)) k v
    show get (runCalls H (ds.map .put) {}) k = .ok v ↔ get (runCalls H (ds'.map .put) {}) k = .ok v
    rw [h1, h2, hperm.mem_iff]
  have hraw : ∀ k v, rawGet a k = .ok v ↔ rawGet b k = .ok v := by
    intro k v
    constructor
    · intro h
      have := (hia.rows _ (assoc_some_mem (rawGet_ok.mp h))).1
      simp only at this; subst this
      exact (hgk _ _).mp h
    · intro h
      have := (hib.rows _ (assoc_some_mem (rawGet_ok.mp h))).1
      simp only at this; subst this
      exact (hgk _ _).mpr h
  have hex : ∀ k, (∃ v, rawGet a k = .ok v) ↔ ∃ v, rawGet b k = .ok v := by
    intro k; simp only [hraw]
  have hshape : ∀ (db : Db) (k : Bytes), (∃ v, rawGet db k = .ok v) ∨ rawGet db k = .err .sqlite := by
    intro db k; unfold rawGet; split
    · left; exact ⟨_, rfl⟩
    · right; rfl
  refine ⟨?_, ?_, ?_⟩
  · intro k
    rcases hshape a k.asDbKey with ⟨v, hv⟩ | hv
    · show rawGet a _ = rawGet b _
      rw [hv, (hraw _ _).mp hv]
    · rcases hshape b k.asDbKey with ⟨w, hw⟩ | hw
      · exact absurd ((hraw _ _).mpr hw) (by rw [hv]; simp)
      · show rawGet a _ = rawGet b _
        rw [hv, hw]
  · intro k
    have h1 := C13_exists H a hra k
    have h2 := C13_exists H b hrb k
    by_cases h : ∃ v, rawGet a k = .ok v
    · rw [h1.1.mpr h, h2.1.mpr ((hex k).mp h)]
    · rw [h1.2.mpr h, h2.2.mpr (fun h' => h ((hex k).mpr h'))]
  · intro start stop
    obtain ⟨l, e1, n1, m1⟩ := C14_between H a hra start stop
    obtain ⟨l', e2, n2, m2⟩ := C14_between H b hrb start stop
    refine ⟨l, l', e1, e2, ?_⟩
    rw [List.perm_ext_iff_of_nodup n1 n2]
    intro k; rw [m1, m2, hex]

example : ([[1], [2], [1]] : List Bytes).Perm [[2], [1], [1]] ∧ ∀ x ∈ ([[1], [2], [1]] : List Bytes), ∀ y ∈ ([[1], [2], [1]] : List Bytes), exH x = exH y → x = y := by
  decide

/-! ### C19 object serialisation -/

theorem C19_roundtrip (o : Object) (b : Bytes) (h : o.encode = .ok b) : Object.decode b = .ok o := Object.decode_encode h

theorem C19_injective (o o' : Object) (b : Bytes) (h : o.encode = .ok b) (h' : o'.encode = .ok b) : o = o' :=
  Object.encode_inj h h'

theorem C19_first_byte (o : Object) (b : Bytes) (h : o.encode = .ok b) : b.head? = some 0xa3 := by
  obtain ⟨t, rfl⟩ := Object.encode_head h; rfl

/-- Encoding succeeds for every object that fits the address space. -/
theorem C19_encode_succeeds (o : Object) (h1 : o.data.length < 2 ^ 64) (h2 : o.keys.length < 2 ^ 64) : ∃ b, o.encode = .ok b :=
  o.encode_ok_iff.mpr ⟨h1, h2⟩

omit [Serde] [LawfulSerde] in
/-- An encoding that was cut short or to which something was appended is rejected. -/
theorem C19_damaged (o : Object) (b b' t : Bytes) (h : o.encode = .ok b) (ht : t ≠ []) (hb : b' = b ++ t ∨ b = b' ++ t) : ∃ e, Subset.object b' = .err e := by
  have hd := Subset.object_enc h
  have hp : ∀ {x : Bytes} {o' : Object}, Subset.object x = .ok o' → ∃ c, Cbor.parse x = .ok c := by
    intro x o' hx
    obtain ⟨c, hc, _⟩ := Res.bind_eq_ok (show (Cbor.parse x >>= Object.ofCbor) = .ok o' from hx)
    exact ⟨c, hc⟩
  obtain ⟨c, hc⟩ := hp hd
  have ht' := Subset.object_total b'
  cases h' : Subset.object b' with
  | err e => exact ⟨e, rfl⟩
  | panic => exact absurd h' ht'.1
  | fuel => exact absurd h' ht'.2
  | ok o' =>
    obtain ⟨c', hc'⟩ := hp h'
    rcases hb with rfl | rfl
    · exact absurd (parse_prefix hc hc') ht
    · exact absurd (parse_prefix hc' hc) ht

/-- Decoding arbitrary bytes returns a value or an error; it never panics. -/
theorem C19_decode_total (b : Bytes) : (∃ o, Object.decode b = .ok o) ∨ ∃ e, Object.decode b = .err e := by
  have := Object.decode_total b
  cases h : Object.decode b with
  | ok o => exact .inl ⟨o, rfl⟩
  | err e => exact .inr ⟨e, rfl⟩
  | panic => exact absurd h this.1
  | fuel => exact absurd h this.2

example (k : Key) : ∃ b, (⟨[1, 2], [k], .commit⟩ : Object).encode = .ok b := C19_encode_succeeds _ (by simp) (by simp)
omit [Serde] [LawfulSerde] in
example (k : Key) : ∃ b, (⟨[1, 2], [k], .commit⟩ : Object).encode = .ok b ∧ ∃ e, Subset.object (b ++ [0]) = .err e := by
  obtain ⟨b, hb⟩ := C19_encode_succeeds ⟨[1, 2], [k], .commit⟩ (by simp) (by simp)
  exact ⟨b, hb, C19_damaged _ b _ [0] hb (by simp) (.inl rfl)⟩

/-! ### C20 get_obj after put_obj -/

theorem C20_get_obj (H : Bytes → Key) (db : Db) (hr : Inv H db) (o : Object) (k : Key) (db' : Db)
    (hp : putObj H o db = (.ok k, db')) (hc : NoColl H db') (cs : List Call) :
    getObj (runCalls H cs db') k = .ok o := by
  have hi' : Inv H db' := by have := putObj_inv hr o; rw [hp] at this; exact this
  rcases putObj_cases H o db with ⟨_, e⟩ | ⟨b, hb, e | e⟩
  · rw [e] at hp; simp at hp
  · rw [e] at hp; simp at hp
  · rw [e] at hp
    simp only [Prod.mk.injEq, Res.ok.injEq] at hp
    obtain ⟨rfl, hdb⟩ := hp
    have hst : ∃ v, get db' (H b) = .ok v := by
      rw [← hdb]
      simp only [get_eq_ok, insertIgnore_assoc, if_true]
      cases assoc db.data (H b).asDbKey <;> simp
    obtain ⟨v, hv⟩ := hst
    have hbh : b ∈ db'.hashed := by rw [← hdb]; simp
    have : v = b := get_of_noColl hi' hc hbh hv
    subst this
    have hg : get (runCalls H cs db') (H v) = .ok v := rawGet_mono (runCalls_data_prefix H cs db') hv
    simp [getObj, hg, Object.decode_encode hb]

/-- the hypotheses are met by a fresh store with one object put -/
example : ∃ k db', putObj exH ⟨[1, 2], [], .fileBlob⟩ {} = (.ok k, db') ∧ NoColl exH db' :=
  ⟨_, _, by rfl, by intro x hx y hy _; simp at hx hy; rw [hx, hy]⟩

/-! ### C23 unknown object types (decoding part; reading such an object as file data: `C23_read_panics`) -/

omit [Serde] [LawfulSerde] in
theorem C23_unknown_type (name : Bytes) (hu : utf8 name = true) (hl : name.length < 2 ^ 64)
    (hn : ∀ t : ObjType, t ≠ .unknown → name ≠ t.name) (d : Bytes) (ks : List Key)
    (hd : d.length < 2 ^ 64) (hk : ks.length < 2 ^ 64) :
    Subset.object (Cbor.map [.text sData, .bytes d, .text sKeys, .array (ks.map Key.toCbor), .text sObjtype, .text name]).enc
      = .ok ⟨d, ks, .unknown⟩ := by
  have hks : mapRes Key.ofCbor (ks.map Key.toCbor) = .ok ks := by
    rw [mapRes_map, mapRes_ok (g := id) _ (fun k _ => Key.ofCbor_toCbor k)]; simp
  have h1 : ∀ a b c, Cbor.field sData [.text sData, a, .text sKeys, b, .text sObjtype, c] = [a] := by
    intros; simp [Cbor.field, sData, sKeys, sObjtype]
  have h2 : ∀ a b c, Cbor.field sKeys [.text sData, a, .text sKeys, b, .text sObjtype, c] = [b] := by
    intros; simp [Cbor.field, sData, sKeys, sObjtype]
  have h3 : ∀ a b c, Cbor.field sObjtype [.text sData, a, .text sKeys, b, .text sObjtype, c] = [c] := by
    intros; simp [Cbor.field, sData, sKeys, sObjtype]
  have ho : (Object.mk d ks .unknown).toCbor.wf = true := (Object.toCbor_wf _).mpr ⟨hd, hk⟩
  have hdep := (Object.mk d ks .unknown).toCbor_depth
  have hw : (Cbor.map [.text sData, .bytes d, .text sKeys, .array (ks.map Key.toCbor), .text sObjtype, .text name]).wf = true := by
    simp only [Object.toCbor, Cbor.wf, Cbor.wfList] at ho ⊢
    simp only [hu, hl, decide_true, Bool.and_true]
    simp only [Bool.and_eq_true] at ho ⊢
    obtain ⟨_, ho⟩ := ho
    refine ⟨⟨by simp, by simp⟩, ho.1, ho.2.1, ho.2.2.1, ho.2.2.2.1, ho.2.2.2.2.1.1, ho.2.2.2.2.1.2⟩
  have hdep' : (Cbor.map [.text sData, .bytes d, .text sKeys, .array (ks.map Key.toCbor), .text sObjtype, .text name]).depth ≤ 128 := by
    simpa only [Object.toCbor, Cbor.depth, Cbor.depthList] using hdep
  have hname : ObjType.ofName name = .unknown := by
    unfold ObjType.ofName
    rw [if_neg (hn .fileBlobTree (by simp)), if_neg (hn .fileBlob (by simp)), if_neg (hn .commit (by simp)),
      if_neg (hn .fsItemDir (by simp)), if_neg (hn .fsItemFile (by simp))]
  show Subset.object _ = _
  simp [Subset.object, parse_enc hw hdep', Object.ofCbor, h1, h2, h3, hks, hname]

/-- "Tag" is such a name -/
example : utf8 [84, 97, 103] = true ∧ ∀ t : ObjType, t ≠ .unknown → ([84, 97, 103] : Bytes) ≠ t.name := by
  refine ⟨by decide, ?_⟩
  intro t; cases t <;> decide

end Snap.Props
