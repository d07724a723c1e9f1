import Verif.Model.LinkCompare
import Verif.Props.Links
import Verif.Props.LiveHash
/-! Property C97: `compare`, `status` and `checkout-head` on directories with symbolic links. -/
namespace Snap.Props
open Snap
open Spec (Seen look)
set_option linter.unusedSectionVars false
variable [Serde] [LawfulSerde]

namespace Spec

/-- Files with the same inode, time and size have the same contents, and are read alike. -/
def Honest (E : Env) (fs : LinkFs) : Prop :=
  ∀ p p' c md c' md', fs.metadata p = .ok (.file c md) → fs.metadata p' = .ok (.file c' md') → tripleOf c md = tripleOf c' md' →
    c = c' ∧ Snap.Spec.smallReads (E.rd p c) ∧ Snap.Spec.smallReads (E.rd p' c) ∧ Snap.Spec.delivered (E.rd p c) = Snap.Spec.delivered (E.rd p' c) ∧
      Snap.Spec.readFails (E.rd p c) = Snap.Spec.readFails (E.rd p' c)

/-- The cache has nothing for a file, or the key of what it contains. -/
def Vouched (E : Env) (fs : LinkFs) (ca : Cache) : Prop :=
  ∀ p c md, fs.metadata p = .ok (.file c md) → ca.get (tripleOf c md) = .ok none ∨ ∃ k, ca.get (tripleOf c md) = .ok (some k) ∧ fileKey E p c = .ok k

end Spec

/-! ### Storing a directory and listing it -/

/-- Without the keys. -/
def forget (B : PMap (Key × Bool)) : PMap Bool := B.map fun e => (e.1, e.2.2)

theorem forget_insert (B : PMap (Key × Bool)) (p : Path) (v : Key × Bool) : forget (PMap.insert B p v) = PMap.insert (forget B) p v.2 := by
  have h : (forget B).any (·.1 == p.norm) = B.any (·.1 == p.norm) := by
    unfold forget
    rw [List.any_map]
    rfl
  unfold PMap.insert
  rw [h]
  split
  · unfold forget
    rw [List.map_map, List.map_map]
    refine List.map_congr_left fun e _ => ?_
    simp only [Function.comp_apply]
    split <;> rfl
  · simp [forget]

theorem forget_extend (B B' : PMap (Key × Bool)) : forget (PMap.extend B B') = PMap.extend (forget B) (forget B') := by
  unfold PMap.extend
  induction B' generalizing B with
  | nil => rfl
  | cons e B' ih =>
    rw [List.foldl_cons, ih, forget_insert]
    rfl

theorem insert_mem {α} {B : PMap α} {p : Path} {v : α} {e : Path × α} (h : e ∈ PMap.insert B p v) : e ∈ B ∨ e = (p.norm, v) := by
  unfold PMap.insert at h
  split at h
  · obtain ⟨x, hx, rfl⟩ := List.mem_map.mp h
    split
    · exact Or.inr rfl
    · exact Or.inl hx
  · rcases List.mem_append.mp h with h | h
    · exact Or.inl h
    · exact Or.inr (by simpa using h)

theorem extend_mem {α} {B B' : PMap α} {e : Path × α} (h : e ∈ PMap.extend B B') : e ∈ B ∨ ∃ x ∈ B', e = (x.1.norm, x.2) := by
  unfold PMap.extend at h
  induction B' generalizing B with
  | nil => exact Or.inl h
  | cons x B' ih =>
    rw [List.foldl_cons] at h
    rcases ih h with h | ⟨y, hy, rfl⟩
    · rcases insert_mem h with h | rfl
      · exact Or.inl h
      · exact Or.inr ⟨x, by simp, rfl⟩
    · exact Or.inr ⟨y, by simp [hy], rfl⟩

section
variable {E : Env} {A : Sights} {base : Path}

/-- The path is that of names below `base`; if it is a file, its key is that of what is read there. -/
def Keyed (E : Env) (A : Sights) (base : Path) (e : Path × Key × Bool) : Prop :=
  ∃ rel, e.1 = relPath rel ∧ rel ≠ [] ∧ (∀ m ∈ rel, okName m) ∧
    (e.2.2 = false → ∃ len evs d d', A.stat 0 (joins base rel) = .ok (.file len) ∧ A.read 0 (joins base rel) = .ok evs ∧ putRead E evs len d = (.ok e.2.1, d'))

theorem Keyed.norm {e : Path × Key × Bool} (h : Keyed E A base e) : Keyed E A base (e.1.norm, e.2) := by
  obtain ⟨rel, h1, h2, h3, h4⟩ := h
  exact ⟨rel, by simp only; rw [h1, norm_relPath fun m hm => (h3 m hm).comp], h2, h3, h4⟩

/-- The walk over a stored directory gives the keys, that over the directory the same without. -/
def Walks (E : Env) (A : Sights) (base : Path) (n : Nat) (pre : List Bytes) (k : Key) (db : Db) : Prop :=
  ∃ B : PMap (Key × Bool), (∀ later : Db, db.data <+: later.data → walkItemsFrom later n k (relPath pre) = .ok B) ∧
    (∀ (σ : Type) (s : σ) t, ∃ t', walkLive A base n (relPath pre) (s, t) = (.ok (forget B), (s, t'))) ∧ ∀ e ∈ B, Keyed E A base e

theorem walks_entries (hA : Timeless A.toAnswers) {n : Nat} {pre : List Bytes} (hp : ∀ m ∈ pre, okName m)
    (ih : ∀ {m : Bytes} {db db' : Db} {t t' : Nat} {k : Key}, okName m → Inv E.H db → putLive E A.toAnswers n (joins base (pre ++ [m])) (db, t) = (.ok k, (db', t')) → NoColl E.H db' →
      Walks E A base n (pre ++ [m]) k db')
    (hcur : ∀ m, okName m → Path.join (Path.join base (relPath pre)) m = joins base (pre ++ [m]))
    {l : List (Option Bytes)} (hl : ∀ m, some m ∈ l → okName m) {db db' : Db} {t t' : Nat} {r : List (Bytes × Key)} (hi : Inv E.H db)
    (h : putEntriesLive A.toAnswers (putLive E A.toAnswers n) (joins base pre) l (db, t) = (.ok r, (db', t'))) (hc : NoColl E.H db') (B0 : PMap (Key × Bool)) :
    ∃ B : PMap (Key × Bool), (∀ later : Db, db'.data <+: later.data →
        extendAll (fun (c : Key × Path) => walkItemsFrom later n c.1 (Path.join (relPath pre) c.2)) B0 (r.map fun x => (x.2, x.1)) = .ok B) ∧
      (∀ (σ : Type) (s : σ) t, ∃ t', walkLiveEntries A (walkLive A base n) (Path.join base (relPath pre)) (relPath pre) (forget B0) l (s, t) = (.ok (forget B), (s, t'))) ∧
      ∀ e ∈ B, e ∈ B0 ∨ Keyed E A base e := by
  induction l generalizing db t r B0 with
  | nil =>
    simp [putEntriesLive] at h
    obtain ⟨rfl, rfl, rfl⟩ := h
    exact ⟨B0, fun _ _ => rfl, fun σ s t => ⟨t, rfl⟩, fun e he => Or.inl he⟩
  | cons x l ihl =>
    cases x with
    | none => simp [putEntriesLive, SM.throw] at h
    | some m =>
      have hm := hl m (by simp)
      unfold putEntriesLive at h
      obtain ⟨b, s1, h1, h2⟩ := bind_ok h
      obtain ⟨h1', rfl⟩ := ask_ok h1
      rw [hA.take] at h1'
      have hj : Path.join (joins base pre) m = joins base (pre ++ [m]) := by simp [joins, List.foldl_append]
      rw [hj] at h1' h2
      cases b with
      | true =>
        simp only [if_true] at h2
        obtain ⟨k, ⟨db2, t2⟩, h3, h4⟩ := bind_ok h2
        obtain ⟨r', ⟨db3, t3⟩, h5, h6⟩ := bind_ok h4
        simp at h6
        obtain ⟨rfl, rfl, rfl⟩ := h6
        have g1 := growing_live E A.toAnswers n (joins base (pre ++ [m])) (db, t + 1)
        rw [h3] at g1
        have g2 := growing_entries A.toAnswers (growing_live E A.toAnswers n) (joins base pre) l (db2, t2)
        rw [h5] at g2
        obtain ⟨B1, a1, a2, a3⟩ := ih hm hi h3 (hc.mono g2.hashed)
        obtain ⟨B, b1, b2, b3⟩ := ihl (fun m hm => hl m (by simp [hm])) (g1.inv hi) h5 (PMap.extend B0 B1)
        refine ⟨B, fun later hlat => ?_, fun σ s t => ?_, fun e he => ?_⟩
        · simp only [List.map_cons, extendAll]
          rw [← relPath_snoc, a1 later (g2.data.trans hlat), Res.ok_bind]
          exact b1 later hlat
        · obtain ⟨t4, e4⟩ := a2 σ s (t + 1)
          obtain ⟨t5, e5⟩ := b2 σ s t4
          refine ⟨t5, ?_⟩
          simp only [walkLiveEntries, SM.bind_apply, inquire, hcur m hm, hA.take, h1', if_true]
          rw [← relPath_snoc, e4]
          simp only
          rw [← forget_extend]
          exact e5
        · rcases b3 e he with h | h
          · rcases extend_mem h with h | ⟨y, hy, rfl⟩
            · exact Or.inl h
            · exact Or.inr (a3 y hy).norm
          · exact Or.inr h
      | false =>
        simp only [Bool.false_eq_true, if_false] at h2
        obtain ⟨B, b1, b2, b3⟩ := ihl (fun m hm => hl m (by simp [hm])) hi h2 B0
        refine ⟨B, b1, fun σ s t => ?_, b3⟩
        obtain ⟨t5, e5⟩ := b2 σ s (t + 1)
        refine ⟨t5, ?_⟩
        simp only [walkLiveEntries, SM.bind_apply, inquire, hcur m hm, hA.take, h1', Bool.false_eq_true, if_false]
        exact e5

theorem walks_of_put (hA : Timeless A.toAnswers) (hP : Spec.Proper A.toAnswers) (hb : base ≠ [])
    (hslash : A.stat 0 base = .ok .dir → A.stat 0 (Path.join base []) = .ok .dir ∧ A.list 0 (Path.join base []) = A.list 0 base) {n : Nat} {pre : List Bytes} (hp : ∀ m ∈ pre, okName m)
    (hroot : pre = [] → A.stat 0 base = .ok .dir) {db db' : Db} {t t' : Nat} {k : Key} (hi : Inv E.H db)
    (h : putLive E A.toAnswers n (joins base pre) (db, t) = (.ok k, (db', t'))) (hc : NoColl E.H db') : Walks E A base n pre k db' := by
  induction n generalizing pre db db' t t' k with
  | zero => simp [putLive] at h
  | succ n ih =>
    have hpc : ∀ m ∈ pre, okComp m := fun m hm => (hp m hm).comp
    have hstat : A.stat 0 (joins base pre) = .ok .dir → A.stat 0 (Path.join base (relPath pre)) = .ok .dir ∧ A.list 0 (Path.join base (relPath pre)) = A.list 0 (joins base pre) := by
      intro hd
      by_cases h0 : pre = []
      · subst h0
        exact hslash hd
      · rw [join_relPath hpc h0]
        exact ⟨hd, rfl⟩
    have hcur : ∀ m, okName m → Path.join (Path.join base (relPath pre)) m = joins base (pre ++ [m]) := by
      intro m hm
      by_cases h0 : pre = []
      · subst h0
        exact join_join_empty hb hm.comp.notAbs
      · rw [join_relPath hpc h0]
        simp [joins, List.foldl_append]
    unfold putLive at h
    obtain ⟨e, s1, h1, h2⟩ := bind_ok h
    obtain ⟨h1', rfl⟩ := ask_ok h1
    rw [hA.stat] at h1'
    cases e with
    | dir =>
      obtain ⟨all, s2, h3, h4⟩ := bind_ok h2
      obtain ⟨h3', rfl⟩ := ask_ok h3
      rw [hA.list] at h3'
      obtain ⟨r, ⟨db3, t3⟩, h5, h6⟩ := bind_ok h4
      obtain ⟨h6', e6⟩ := fst_ok h6
      simp only at h6' e6
      subst e6
      obtain ⟨o, db4, h7, h8⟩ := bind_ok h6'
      simp only [SM.lift_apply, Prod.mk.injEq] at h7
      obtain ⟨h7, rfl⟩ := h7
      have g1 := growing_entries A.toAnswers (growing_live E A.toAnswers n) (joins base pre) all (db, t + 1 + 1)
      rw [h5] at g1
      have g2 := (isPuts_putObj E.H o).grow db3
      rw [h8] at g2
      have hget := putItem_getItem (g1.inv hi) h7 h8 hc
      obtain ⟨hs1, hs2⟩ := hstat h1'
      obtain ⟨B, b1, b2, b3⟩ := walks_entries (E := E) (n := n) hA hp (fun {m _ _ _ _ _} hm hi h hc => ih (pre := pre ++ [m]) (by
          intro x hx
          rcases List.mem_append.mp hx with hx | hx
          · exact hp x hx
          · simp at hx; subst hx; exact hm) (by simp) hi h hc) hcur (hP 0 _ _ h3').1 hi h5 (hc.mono g2.hashed)
        (if relPath pre = [] then [] else PMap.insert [] (relPath pre) (k, true))
      have hforget : forget (if relPath pre = [] then [] else PMap.insert [] (relPath pre) (k, true)) = if relPath pre = [] then [] else PMap.insert [] (relPath pre) true := by
        split
        · rfl
        · rw [forget_insert]; rfl
      rw [hforget] at b2
      refine ⟨B, fun later hlat => ?_, fun σ s t => ?_, fun e he => ?_⟩
      · unfold walkItemsFrom
        rw [getItem_mono hlat hget, Res.ok_bind]
        simp only
        rw [zip_map]
        exact b1 later (g2.data.trans hlat)
      · obtain ⟨t4, e4⟩ := b2 σ s (t + 1 + 1)
        refine ⟨t4, ?_⟩
        simp only [walkLive, SM.bind_apply, inquire, hA.stat, hA.list, hs1, hs2, h3']
        exact e4
      · rcases b3 e he with he | he
        · by_cases h0 : relPath pre = []
          · rw [if_pos h0] at he
            simp at he
          · rw [if_neg h0] at he
            rcases insert_mem he with he | rfl
            · simp at he
            · exact ⟨pre, norm_relPath hpc, fun h => h0 ((relPath_eq_nil hpc).mpr h), hp, by simp⟩
        · exact he
    | file len =>
      obtain ⟨evs, s2, h3, h4⟩ := bind_ok h2
      obtain ⟨h3', rfl⟩ := ask_ok h3
      rw [hA.read] at h3'
      obtain ⟨h4', e4⟩ := fst_ok h4
      simp only at h4' e4
      subst e4
      have h0 : pre ≠ [] := by
        rintro rfl
        have := hroot rfl
        have h1' : A.stat 0 base = .ok (.file len) := h1'
        rw [this] at h1'
        simp at h1'
      obtain ⟨ck, m, c', a1, _, _, _⟩ := putRead_ok hi h4' hc
      refine ⟨PMap.insert [] (relPath pre) (k, false), fun later hlat => ?_, fun σ s t => ⟨t + 1, ?_⟩, fun e he => ?_⟩
      · unfold walkItemsFrom
        rw [getItem_mono hlat a1, Res.ok_bind]
        rfl
      · rw [forget_insert]
        simp only [walkLive, SM.bind_apply, inquire, hA.stat, join_relPath hpc h0, h1']
        rfl
      · rcases insert_mem he with he | rfl
        · simp at he
        · exact ⟨pre, norm_relPath hpc, h0, hp, fun _ => ⟨len, evs, _, _, h1', h3', h4'⟩⟩
    | other => simp at h2

end

/-! ### Comparing -/

theorem extend_keys {α} (B B' : PMap α) (hn : ∀ e ∈ B', Path.norm e.1 = e.1) (p : Path) : p ∈ (PMap.extend B B').map (·.1) ↔ p ∈ B.map (·.1) ∨ p ∈ B'.map (·.1) := by
  unfold PMap.extend
  induction B' generalizing B with
  | nil => simp
  | cons e B' ih =>
    rw [List.foldl_cons, ih _ fun e he => hn e (by simp [he]), PMap.insert_keys, hn e (by simp)]
    split
    · rename_i h
      constructor
      · rintro (h | h)
        · exact Or.inl h
        · exact Or.inr (by simp only [List.map_cons, List.mem_cons]; exact Or.inr h)
      · rintro (h' | h')
        · exact Or.inl h'
        · rcases List.mem_cons.mp h' with rfl | h'
          · exact Or.inl h
          · exact Or.inr h'
    · simp only [List.mem_append, List.map_cons, List.mem_cons, List.mem_singleton, List.not_mem_nil, or_false]
      constructor
      · rintro ((h | h) | h)
        · exact Or.inl h
        · exact Or.inr (Or.inl h)
        · exact Or.inr (Or.inr h)
      · rintro (h | h | h)
        · exact Or.inl (Or.inl h)
        · exact Or.inl (Or.inr h)
        · exact Or.inr h

/-- What is there when files are opened does not depend on when, and is what `stat` and `read` say. -/
structure Fixed (A : Sights) : Prop where
  time : Timeless A.toAnswers
  opened : ∀ t p, A.opened t p = A.opened 0 p
  file : ∀ p len, A.stat 0 p = .ok (.file len) → ∃ ck evs, A.opened 0 p = .ok (ck, evs) ∧ A.read 0 p = .ok evs

/-- Files with the same inode, time and size have the same key. -/
def Unmixed (E : Env) (A : Sights) : Prop :=
  ∀ p p' len len' ck evs evs', A.stat 0 p = .ok (.file len) → A.stat 0 p' = .ok (.file len') → A.opened 0 p = .ok (ck, evs) → A.opened 0 p' = .ok (ck, evs') →
    Spec.keyOf E evs len = Spec.keyOf E evs' len'

/-- The cache has no other key for a file than the one that it has. -/
def Trusted (E : Env) (A : Sights) (ca : Cache) : Prop :=
  ∀ p len ck evs, A.stat 0 p = .ok (.file len) → A.opened 0 p = .ok (ck, evs) → ca.get ck = .ok none ∨ ∃ k, ca.get ck = .ok (some k) ∧ Spec.keyOf E evs len = .ok k

theorem putRead_healthy (E : Env) (evs : List ReadEv) (len : Nat) (db : Db) (h : db.faults = []) : (putRead E evs len db).1 = Spec.keyOf E evs len ∧ (putRead E evs len db).2.faults = [] := by
  obtain ⟨ws, r, hx⟩ := isPuts_putRead E evs len
  unfold Spec.keyOf
  rw [hx db, hx {}, (execPuts_nofault E.H ws r {} rfl).1]
  exact execPuts_nofault E.H ws r db h

/-- What hashing keeps. -/
def Steady (E : Env) (A : Sights) (calm : Prop) (s : (Db × Cache) × Nat) : Prop := s.1.1.faults = [] ∧ Trusted E A s.1.2 ∧ (calm → s.1.2.faults = [])

theorem cache_faults (ck : CacheKey) (k : Key) (ca : Cache) (h : ca.faults = []) : (Cache.put ck k ca).2.faults = [] := by
  unfold Cache.put
  rw [h]
  rfl

theorem hash_fixed {E : Env} {A : Sights} (hA : Fixed A) (hU : Unmixed E A) {calm : Prop} {p : Path} {len : Nat} {ck : CacheKey} {evs : List ReadEv} {k : Key}
    (h1 : A.stat 0 p = .ok (.file len)) (h2 : A.opened 0 p = .ok (ck, evs)) (hk : Spec.keyOf E evs len = .ok k) {s : (Db × Cache) × Nat} (hs : Steady E A calm s) :
    ∃ s', hashLive E A p s = (.ok k, s') ∧ Steady E A calm s' := by
  obtain ⟨⟨db, ca⟩, t⟩ := s
  obtain ⟨s1, s2, s3⟩ := hs
  simp only at s1 s2 s3
  simp only [hashLive, SM.bind_apply, inquire, hA.time.stat, h1, hA.opened, h2, SM.read_apply]
  rcases s2 p len ck evs h1 h2 with e | ⟨k', e, e'⟩
  · rw [e]
    obtain ⟨p1, p2⟩ := putRead_healthy E evs len db s1
    simp only [SM.bind_apply, SM.fst]
    generalize putRead E evs len db = x at p1 p2
    obtain ⟨x, db'⟩ := x
    simp only at p1 p2
    subst p1
    rw [hk]
    refine ⟨_, rfl, p2, ?_, fun hc => cache_faults _ _ _ (s3 hc)⟩
    intro p' len' ck' evs' g1 g2
    have hq := C56_put ca (Cache.put ck k ca).2 ck k (Cache.put ck k ca).1 rfl ck'
    show (Cache.put ck k ca).2.get ck' = .ok none ∨ ∃ k', (Cache.put ck k ca).2.get ck' = .ok (some k') ∧ Spec.keyOf E evs' len' = .ok k'
    rw [hq]
    split
    · rename_i hc
      obtain ⟨_, rfl, _⟩ := hc
      exact Or.inr ⟨k, rfl, (hU p' p len' len ck' evs' evs g1 h1 g2 h2).trans hk⟩
    · exact s2 p' len' ck' evs' g1 g2
  · rw [e]
    rw [hk] at e'
    simp only [Res.ok.injEq] at e'
    subst e'
    exact ⟨_, rfl, s1, s2, s3⟩

theorem mapSM_none {σ α β} {f : α → SM σ (Option β)} {I : σ → Prop} {l : List α} (hf : ∀ x ∈ l, ∀ s, I s → ∃ s', f x s = (.ok none, s') ∧ I s') {s : σ} (hs : I s) :
    ∃ r s', mapSM f l s = (.ok r, s') ∧ r.filterMap id = [] ∧ I s' := by
  induction l generalizing s with
  | nil => exact ⟨[], s, rfl, rfl, hs⟩
  | cons a l ih =>
    obtain ⟨s1, h1, i1⟩ := hf a (by simp) s hs
    obtain ⟨r, s2, h2, h3, i2⟩ := ih (fun x hx => hf x (by simp [hx])) i1
    refine ⟨none :: r, s2, ?_, by simpa using h3, i2⟩
    simp only [mapSM, SM.bind_apply, h1, h2, SM.pure_apply]

/-- Comparing what was stored with the directory it was stored from. -/
theorem compare_stored {E : Env} {A : Sights} (hA : Fixed A) (hU : Unmixed E A) {base : Path} {n : Nat} {k : Key} {db0 db : Db} (hw : Walks E A base n [] k db0) (hd : db0.data <+: db.data)
    (hdb : db.faults = []) {ca : Cache} (hca : Trusted E A ca) {iter : Nat → List Path → List Path} (hi : IterOk iter) :
    ∃ s' t', compareLive E A iter n base (some k) ((db, ca), 0) = (.ok ⟨[], [], []⟩, (s', t')) ∧ s'.1.faults = [] ∧ (ca.faults = [] → s'.2.faults = []) := by
  obtain ⟨B, b1, b2, b3⟩ := hw
  have hB := b1 db hd
  have okB := walkItemsFrom_okMap hB
  obtain ⟨t1, hm⟩ := b2 _ (db, ca) 0
  have hr : relPath [] = [] := rfl
  rw [hr] at hm hB
  have hkeys : (forget B).map (·.1) = B.map (·.1) := by
    unfold forget
    rw [List.map_map]
    rfl
  have okF : PMap.Ok (forget B) := by
    refine ⟨by rw [hkeys]; exact okB.nodup, fun e he => ?_⟩
    obtain ⟨x, hx, rfl⟩ := List.mem_map.mp he
    exact okB.norm x hx
  have hnil : ∀ (i : Nat) (l : List Path), (l.filter fun x => !l.contains x) = [] ∧ iter i [] = [] := by
    intro i l
    refine ⟨?_, (hi i []).eq_nil⟩
    rw [List.filter_eq_nil_iff]
    intro x hx
    simpa using hx
  have hmod : ∀ x ∈ iter 2 ((B.map (·.1)).filter fun x => (B.map (·.1)).contains x), ∀ s, Steady E A (ca.faults = []) s →
      ∃ s', modifiedLive E A (forget B) base B x s = (.ok none, s') ∧ Steady E A (ca.faults = []) s' := by
    intro x hx s hs
    have hx := (List.mem_filter.mp ((hi 2 _).subset hx)).1
    obtain ⟨⟨kf, d⟩, he⟩ := mem_keys.mp hx
    have hnx := okB.norm _ he
    simp only at hnx
    have gB := (PMap.get_iff okB hnx).mpr he
    have gF : (forget B).get x = some d := (PMap.get_iff okF hnx).mpr (List.mem_map.mpr ⟨_, he, rfl⟩)
    have hdir : (FromMap.left (forget B)).isDir x = .ok d := by
      simp only [FromMap.isDir, gF]
    cases d with
    | true => exact ⟨s, by simp only [modifiedLive, SM.bind_apply, SM.lift_apply, hdir, if_true, SM.pure_apply], hs⟩
    | false =>
      obtain ⟨rel, r1, r2, r3, r4⟩ := b3 _ he
      simp only at r1
      obtain ⟨len, evs, d, d', j1, j2, j3⟩ := r4 rfl
      obtain ⟨ck, evs', o1, o2⟩ := hA.file _ _ j1
      rw [j2] at o2
      simp only [Res.ok.injEq] at o2
      subst o2
      obtain ⟨s', q1, q2⟩ := hash_fixed hA hU j1 o1 (keyOf_of_put j3) hs
      refine ⟨s', ?_, q2⟩
      rw [← join_relPath (fun m hm => (r3 m hm).comp) r2, ← r1] at q1
      simp only [modifiedLive, SM.bind_apply, SM.lift_apply, hdir, Bool.false_eq_true, if_false, q1, gB, SM.pure_apply, if_true]
  obtain ⟨r, ⟨s', t'⟩, m1, m2, m3⟩ := mapSM_none hmod (s := ((db, ca), t1)) ⟨hdb, hca, id⟩
  refine ⟨s', t', ?_, m3.1, m3.2.2⟩
  simp only [compareLive, SM.bind_apply, hm, SM.read_apply, walkItems, hB, hkeys, (hnil 0 _).1, (hnil 0 []).2, (hnil 1 []).2]
  simp only [mapSM, SM.pure_apply, m1, m2]
  rfl

/-! ### What the walk over a directory finds -/

/-- The listing of what a visit sees. -/
def Lists (m : PMap Bool) (pre : List Bytes) (L : List Seen) : Prop :=
  (∀ e ∈ m, ∃ x ∈ L, pre ++ x.rel ≠ [] ∧ e.1 = relPath (pre ++ x.rel) ∧ e.2 = x.what.isNone) ∧ ∀ x ∈ L, pre ++ x.rel ≠ [] → relPath (pre ++ x.rel) ∈ m.map (·.1)

section
variable {A : Sights} {base : Path}

theorem walk_entries_look {σ} (hA : Timeless A.toAnswers) {n : Nat} {pre : List Bytes}
    (ih : ∀ {m : Bytes} {s s' : σ} {t t' : Nat} {B : PMap Bool}, okName m → walkLive A base n (relPath (pre ++ [m])) (s, t) = (.ok B, (s', t')) →
      s' = s ∧ B.Ok ∧ ∃ L, (∀ t, ∃ t', look A.toAnswers n (joins base (pre ++ [m])) t = (.ok L, t')) ∧ Lists B (pre ++ [m]) L)
    (hcur : ∀ m, okName m → Path.join (Path.join base (relPath pre)) m = joins base (pre ++ [m]))
    {l : List (Option Bytes)} (hl : ∀ m, some m ∈ l → okName m) {s s' : σ} {t t' : Nat} {B0 B : PMap Bool} (h0 : B0.Ok) {L0 : List Seen} (hL : Lists B0 pre L0)
    (h : walkLiveEntries A (walkLive A base n) (Path.join base (relPath pre)) (relPath pre) B0 l (s, t) = (.ok B, (s', t'))) :
    s' = s ∧ B.Ok ∧ ∃ L, (∀ t, ∃ t', Spec.lookEntries A.toAnswers (look A.toAnswers n) (joins base pre) l t = (.ok L, t')) ∧ Lists B pre (L0 ++ L) := by
  induction l generalizing s t B0 L0 with
  | nil =>
    simp [walkLiveEntries] at h
    obtain ⟨rfl, rfl, rfl⟩ := h
    exact ⟨rfl, h0, [], fun t => ⟨t, rfl⟩, by simpa using hL⟩
  | cons x l ihl =>
    cases x with
    | none => simp [walkLiveEntries, SM.throw] at h
    | some m =>
      have hm := hl m (by simp)
      unfold walkLiveEntries at h
      obtain ⟨b, ⟨s1, t1⟩, h1, h2⟩ := bind_ok h
      simp only [inquire, Prod.mk.injEq] at h1
      obtain ⟨h1', rfl, rfl⟩ := h1
      rw [hA.take, hcur m hm] at h1'
      have hj : Path.join (joins base pre) m = joins base (pre ++ [m]) := by simp [joins, List.foldl_append]
      cases b with
      | true =>
        simp only [if_true] at h2
        obtain ⟨B1, ⟨s2, t2⟩, h3, h4⟩ := bind_ok h2
        rw [← relPath_snoc] at h3
        obtain ⟨rfl, o1, L1, a1, a2, a3⟩ := ih hm h3
        have hnew : Lists (PMap.extend B0 B1) pre (L0 ++ L1.map (Seen.under m)) := by
          refine ⟨fun e he => ?_, fun x hx hne => ?_⟩
          · rcases extend_mem he with he | ⟨y, hy, rfl⟩
            · obtain ⟨x, hx, g⟩ := hL.1 e he
              exact ⟨x, by simp [hx], g⟩
            · obtain ⟨x, hx, g1, g2, g3⟩ := a2 y hy
              refine ⟨x.under m, List.mem_append_right _ (List.mem_map_of_mem hx), by simp [Seen.under], ?_, g3⟩
              show y.1.norm = _
              rw [o1.norm y hy, g2]
              simp [Seen.under]
          · rw [extend_keys _ _ o1.norm]
            rcases List.mem_append.mp hx with hx | hx
            · exact Or.inl (hL.2 x hx hne)
            · obtain ⟨y, hy, rfl⟩ := List.mem_map.mp hx
              refine Or.inr ?_
              have := a3 y hy (by simp)
              simpa [Seen.under] using this
        obtain ⟨rfl, o2, L, b1, b2⟩ := ihl (fun m hm => hl m (by simp [hm])) (PMap.extend_ok h0 B1) hnew h4
        refine ⟨rfl, o2, L1.map (Seen.under m) ++ L, fun t => ?_, by rw [← List.append_assoc]; exact b2⟩
        obtain ⟨t4, e4⟩ := a1 (t + 1)
        obtain ⟨t5, e5⟩ := b1 t4
        refine ⟨t5, ?_⟩
        simp only [Spec.lookEntries, SM.bind_apply, tick_apply, hj, hA.take, h1', if_true, e4, e5, SM.pure_apply]
      | false =>
        simp only [Bool.false_eq_true, if_false] at h2
        obtain ⟨e, o2, L, b1, b2⟩ := ihl (fun m hm => hl m (by simp [hm])) h0 hL h2
        refine ⟨e, o2, L, fun t => ?_, b2⟩
        obtain ⟨t5, e5⟩ := b1 (t + 1)
        refine ⟨t5, ?_⟩
        simp only [Spec.lookEntries, SM.bind_apply, tick_apply, hj, hA.take, h1', Bool.false_eq_true, if_false, e5]

theorem walk_look {σ} (hA : Fixed A) (hP : Spec.Proper A.toAnswers) (hb : base ≠ [])
    (hslash : ∀ w, A.stat 0 (Path.join base []) = .ok w → w = .dir ∧ A.stat 0 base = .ok w ∧ A.list 0 (Path.join base []) = A.list 0 base) {n : Nat} {pre : List Bytes} (hp : ∀ m ∈ pre, okName m)
    {s s' : σ} {t t' : Nat} {B : PMap Bool} (h : walkLive A base n (relPath pre) (s, t) = (.ok B, (s', t'))) :
    s' = s ∧ B.Ok ∧ ∃ L, (∀ t, ∃ t', look A.toAnswers n (joins base pre) t = (.ok L, t')) ∧ Lists B pre L := by
  induction n generalizing pre s s' t t' B with
  | zero => simp [walkLive] at h
  | succ n ih =>
    have hpc : ∀ m ∈ pre, okComp m := fun m hm => (hp m hm).comp
    have hstat : ∀ w, A.stat 0 (Path.join base (relPath pre)) = .ok w → A.stat 0 (joins base pre) = .ok w ∧ A.list 0 (Path.join base (relPath pre)) = A.list 0 (joins base pre) := by
      intro w hd
      by_cases h0 : pre = []
      · subst h0
        exact (hslash w hd).2
      · rw [join_relPath hpc h0] at hd ⊢
        exact ⟨hd, rfl⟩
    have hcur : ∀ m, okName m → Path.join (Path.join base (relPath pre)) m = joins base (pre ++ [m]) := by
      intro m hm
      by_cases h0 : pre = []
      · subst h0
        exact join_join_empty hb hm.comp.notAbs
      · rw [join_relPath hpc h0]
        simp [joins, List.foldl_append]
    unfold walkLive at h
    obtain ⟨e, ⟨s1, t1⟩, h1, h2⟩ := bind_ok h
    simp only [inquire, Prod.mk.injEq] at h1
    obtain ⟨h1', rfl, rfl⟩ := h1
    rw [hA.time.stat] at h1'
    obtain ⟨g1, g2⟩ := hstat e h1'
    cases e with
    | dir =>
      obtain ⟨all, ⟨s2, t2⟩, h3, h4⟩ := bind_ok h2
      simp only [inquire, Prod.mk.injEq] at h3
      obtain ⟨h3', rfl, rfl⟩ := h3
      rw [hA.time.list, g2] at h3'
      have hstart : Lists (if relPath pre = [] then [] else PMap.insert [] (relPath pre) true) pre [⟨[], none⟩] := by
        by_cases h0 : pre = []
        · subst h0
          exact ⟨fun e he => by simp [relPath] at he, fun x hx hne => by simp at hx; subst hx; simp at hne⟩
        · rw [if_neg fun e => h0 ((relPath_eq_nil hpc).mp e)]
          refine ⟨fun e he => ?_, fun x hx hne => ?_⟩
          · rcases insert_mem he with he | rfl
            · simp at he
            · exact ⟨_, List.mem_singleton.mpr rfl, by simpa using h0, by simp [norm_relPath hpc], rfl⟩
          · simp at hx
            subst hx
            rw [PMap.insert_keys, norm_relPath hpc]
            simp
      have hok : PMap.Ok (if relPath pre = [] then ([] : PMap Bool) else PMap.insert [] (relPath pre) true) := by
        split
        · exact PMap.ok_nil
        · exact PMap.insert_ok PMap.ok_nil _ _
      obtain ⟨e1, e2, L, l1, l2⟩ := walk_entries_look (n := n) hA.time (fun {m _ _ _ _ _} hm h => ih (pre := pre ++ [m]) (by
          intro x hx
          rcases List.mem_append.mp hx with hx | hx
          · exact hp x hx
          · simp at hx; subst hx; exact hm) h) hcur (hP 0 _ _ h3').1 hok hstart h4
      refine ⟨e1, e2, ⟨[], none⟩ :: L, fun t => ?_, l2⟩
      obtain ⟨t5, e5⟩ := l1 (t + 1 + 1)
      refine ⟨t5, ?_⟩
      simp only [look, SM.bind_apply, tick_apply, hA.time.stat, g1, hA.time.list, h3', e5, SM.pure_apply]
    | file len =>
      simp only [SM.pure_apply, Prod.mk.injEq, Res.ok.injEq] at h2
      obtain ⟨rfl, rfl, rfl⟩ := h2
      obtain ⟨ck, evs, _, hr⟩ := hA.file _ _ g1
      have h0 : pre ≠ [] := by
        rintro rfl
        exact What.noConfusion (hslash _ h1').1
      refine ⟨rfl, PMap.insert_ok PMap.ok_nil _ _, [⟨[], some (len, evs)⟩], fun t => ⟨t + 1 + 1, ?_⟩, fun e he => ?_, fun x hx hne => ?_⟩
      · simp only [look, SM.bind_apply, tick_apply, hA.time.stat, g1, hA.time.read, hr, SM.pure_apply]
      · rcases insert_mem he with he | rfl
        · simp at he
        · exact ⟨_, List.mem_singleton.mpr rfl, by simpa using h0, by simp [norm_relPath hpc], rfl⟩
      · simp at hx
        subst hx
        rw [PMap.insert_keys, norm_relPath hpc]
        simp
    | other => simp [SM.throw] at h2

end

/-! ### Links -/

section
variable {fs : LinkFs} {E : Env} {glob : Path → Bool} {dbPath : Path}

theorem lwalk_empty {k k' : Nat} {q q' : List Bytes} : fs.walk k q [[]] = .ok (k', q') ↔ k = k' ∧ q = q' ∧ fs.at q = some .dir := by
  cases k <;> simp only [LinkFs.walk, LinkFs.steps] <;> cases h : fs.at q with
  | none => simp
  | some e => cases e <;> simp

theorem lslash {p : Path} (hp : p ≠ []) {k : Nat} {q : List Bytes} : fs.locate (Path.join p []) = .ok (k, q) ↔ fs.locate p = .ok (k, q) ∧ fs.at q = some .dir := by
  have ha : Path.isAbs (Path.join p []) = Path.isAbs p := isAbs_join rfl hp
  have hne : Path.join p [] ≠ [] := by
    rw [join_empty]
    simp [hp]
  have h0 : 0 ∈ Path.join p [] ↔ 0 ∈ p := by
    rw [mem_join rfl (by decide)]
    simp
  obtain ⟨l, hl, e⟩ := splitSlash_join (p := p) (n := []) (by simp) hp
  unfold LinkFs.locate
  rw [if_neg hne, if_neg hp, ha, e]
  by_cases hz : 0 ∈ p
  · rw [if_pos (h0.mpr hz), if_pos hz]
    simp
  · rw [if_neg (fun h => hz (h0.mp h)), if_neg hz]
    generalize (if Path.isAbs p = true then [] else fs.cwd) = cur
    rcases hl with hl | hl
    · rw [hl, lwalk_append]
      constructor
      · intro h
        obtain ⟨⟨k1, q1⟩, h1, h2⟩ := Res.bind_eq_ok h
        obtain ⟨rfl, rfl, h3⟩ := lwalk_empty.mp h2
        exact ⟨h1, h3⟩
      · rintro ⟨h1, h2⟩
        rw [h1, Res.ok_bind]
        exact lwalk_empty.mpr ⟨rfl, rfl, h2⟩
    · rw [hl]
      constructor
      · intro h
        refine ⟨h, ?_⟩
        rw [lwalk_append] at h
        obtain ⟨⟨k1, q1⟩, h1, h2⟩ := Res.bind_eq_ok h
        obtain ⟨rfl, rfl, h3⟩ := lwalk_empty.mp h2
        exact h3
      · exact fun h => h.1

theorem lslash_canon {p : Path} (hp : p ≠ []) {q : List Bytes} : fs.canonicalize (Path.join p []) = .ok q ↔ fs.canonicalize p = .ok q ∧ fs.at q = some .dir := by
  rw [lcanon_iff, lcanon_iff]
  constructor
  · rintro ⟨k, e, h1, h2⟩
    obtain ⟨g1, g2⟩ := (lslash hp).mp h1
    exact ⟨⟨k, e, g1, h2⟩, g2⟩
  · rintro ⟨⟨k, e, h1, h2⟩, h3⟩
    exact ⟨k, e, (lslash hp).mpr ⟨h1, h3⟩, h2⟩

theorem lslash_dir {p : Path} (hp : p ≠ []) (h : (fs.answers E glob dbPath).stat 0 p = .ok .dir) :
    (fs.answers E glob dbPath).stat 0 (Path.join p []) = .ok .dir ∧ (fs.answers E glob dbPath).list 0 (Path.join p []) = (fs.answers E glob dbPath).list 0 p := by
  obtain ⟨q, h1, h2⟩ := lstat_dir.mp h
  have h3 := (lslash_canon hp).mpr ⟨h1, h2⟩
  exact ⟨lstat_dir.mpr ⟨q, h3, h2⟩, by rw [llist h3 h2, llist h1 h2]⟩

theorem lslash_stat {p : Path} (hp : p ≠ []) (w : What) (h : (fs.answers E glob dbPath).stat 0 (Path.join p []) = .ok w) :
    w = .dir ∧ (fs.answers E glob dbPath).stat 0 p = .ok w ∧ (fs.answers E glob dbPath).list 0 (Path.join p []) = (fs.answers E glob dbPath).list 0 p := by
  have h' : ((fs.metadata (Path.join p [])).bind fun
    | .dir => .ok .dir
    | .file c _ => .ok (.file c.length)
    | _ => .ok .other) = .ok w := h
  cases hm : fs.metadata (Path.join p []) with
  | ok e =>
    obtain ⟨q, h1, h2⟩ := lmeta_iff.mp hm
    obtain ⟨h3, h4⟩ := (lslash_canon hp).mp h1
    rw [h4] at h2
    simp only [Option.some.injEq] at h2
    subst h2
    rw [hm] at h'
    simp only [Res.bind, Res.ok.injEq] at h'
    subst h'
    exact ⟨rfl, lstat_dir.mpr ⟨q, h3, h4⟩, (lslash_dir hp (lstat_dir.mpr ⟨q, h3, h4⟩)).2⟩
  | _ => rw [hm] at h'; simp [Res.bind] at h'

theorem lopened {p : Path} {t : Nat} {c : Bytes} {md : FileMeta} (h : fs.metadata p = .ok (.file c md)) : (fs.sights E glob dbPath).opened t p = .ok (tripleOf c md, E.rd p c) := by
  have : (fs.sights E glob dbPath).opened t p = (fs.metadata p).bind fun
    | .file c md => .ok (⟨md.ino, md.mtime, BitVec.ofNat 64 c.length⟩, E.rd p c)
    | _ => .err .io := rfl
  rw [this, h]
  rfl

theorem lfile {p : Path} {t len : Nat} (h : (fs.sights E glob dbPath).stat t p = .ok (.file len)) : ∃ c md, fs.metadata p = .ok (.file c md) ∧ c.length = len := by
  obtain ⟨q, c, md, h1, h2, h3⟩ := lstat_file.mp h
  exact ⟨c, md, lmeta_iff.mpr ⟨q, h1, h2⟩, h3⟩

theorem fixed_links : Fixed (fs.sights E glob dbPath) where
  time := timeless fs E glob dbPath
  opened _ _ := rfl
  file p len h := by
    obtain ⟨q, c, md, h1, h2, h3⟩ := lstat_file.mp h
    exact ⟨_, _, lopened (lmeta_iff.mpr ⟨q, h1, h2⟩), lread h1 h2⟩

theorem keyOf_file (E : Env) (p : Path) (c : Bytes) : Spec.keyOf E (E.rd p c) c.length = fileKey E p c := by
  unfold Spec.keyOf fileKey
  rw [putRead_eq]

theorem unmixed_links (h : Spec.Honest E fs) : Unmixed E (fs.sights E glob dbPath) := by
  intro p p' len len' ck evs evs' h1 h2 h3 h4
  obtain ⟨c, md, g1, rfl⟩ := lfile h1
  obtain ⟨c', md', g2, rfl⟩ := lfile h2
  rw [lopened g1] at h3
  rw [lopened g2] at h4
  simp only [Res.ok.injEq, Prod.mk.injEq] at h3 h4
  obtain ⟨h3, rfl⟩ := h3
  obtain ⟨h4, rfl⟩ := h4
  obtain ⟨rfl, k1, k2, k3, k4⟩ := h p p' c md c' md' g1 g2 (h3.trans h4.symm)
  rw [keyOf_file, keyOf_file]
  exact fileKey_alike k1 k2 k3 k4

theorem trusted_links {ca : Cache} (h : Spec.Vouched E fs ca) : Trusted E (fs.sights E glob dbPath) ca := by
  intro p len ck evs h1 h2
  obtain ⟨c, md, g1, rfl⟩ := lfile h1
  rw [lopened g1] at h2
  simp only [Res.ok.injEq, Prod.mk.injEq] at h2
  obtain ⟨rfl, rfl⟩ := h2
  rw [keyOf_file]
  exact h p c md g1

end

/-! ### The commands -/

/-- What `status` and `checkout-head` do when the comparison they make finds nothing. -/
theorem racing_clean {X : Ctx} {A : Sights} {w : World} {R : Repo} {q : List Bytes} {after : Fs} {head : Bytes} (hhead : getHead (w.dbs q) = .ok (some head))
    {ck : Key} {c : Commit} (hck : reflogGet (w.dbs q) head none = .ok ck) (hc : Commit.fromKey (w.dbs q) ck = .ok c) {s' : Db × Cache} {t' : Nat}
    (hcmp : compareLive X.E A X.iter X.depth R.root (some c.tree) ((w.dbs q, w.cache), 0) = (.ok ⟨[], [], []⟩, (s', t'))) (hsf : s'.1.faults = []) (hcf : s'.2.faults = []) :
    ((runRacing X A R q .status after w).1 = .success ∧ (runRacing X A R q .status after w).2.1 = [.headAt head (some (ck.asUserKey.take 8)), .result ⟨[], [], []⟩]) ∧
    ∀ n, (runRacing X A R q (.checkoutHead n) after w).1 = .success ∧ (runRacing X A R q (.checkoutHead n) after w).2.1 = [.text sNewHead] ∧
      rawGetState ((runRacing X A R q (.checkoutHead n) after w).2.2.dbs q) sHEAD = .ok (some n) := by
  have hname := headName_eq hhead
  constructor
  · have : (Command.status.racing X A R (startOf w q)) = (.ok (), { db := s'.1, cache := s'.2, fs := w.fs, out := [.headAt head (some (ck.asUserKey.take 8)), .result ⟨[], [], []⟩] }) := by
      show statusLive X A R (startOf w q) = _
      unfold statusLive
      rw [SM.bind_apply, readDb_apply]
      simp only [startOf, hname, SM.bind_apply, SM.read_apply, hck, Res.toOption, emit, SM.modify_apply, readDb_apply, hc]
      unfold compareWorkLive onDbCache SM.on
      simp only [hcmp]
      rfl
    rw [runRacing_eq, this]
    simp [Cache.finish, hcf, exitOf]
  · intro n
    have hp : putHead n s'.1 = (.ok (), { s'.1 with state := insertReplace s'.1.state sHEAD n, faults := [] }) := by
      unfold putHead rawPutState
      rcases write_cases (fun db => { db with state := insertReplace db.state sHEAD n }) s'.1 with ⟨fs, h, _⟩ | e
      · rw [hsf] at h; simp at h
      · rw [e, hsf]; rfl
    have : ((Command.checkoutHead n).racing X A R (startOf w q)) =
        (.ok (), { db := { s'.1 with state := insertReplace s'.1.state sHEAD n, faults := [] }, cache := s'.2, fs := w.fs, out := [.text sNewHead] }) := by
      show checkoutHeadLive X A R n (startOf w q) = _
      unfold checkoutHeadLive
      rw [SM.bind_apply, readDb_apply]
      simp only [startOf, hname, SM.bind_apply, SM.read_apply, hck, Res.toOption, readDb_apply, hc, Res.ok_bind, pure]
      unfold compareWorkLive onDbCache SM.on
      simp only [hcmp, DiffResult.isEmpty, List.isEmpty_nil, Bool.and_self, if_true, SM.bind_apply, onDb_apply, hp]
      rfl
    rw [runRacing_eq, this]
    refine ⟨by simp [Cache.finish, hcf, exitOf], rfl, ?_⟩
    have := (putHead_ok hp).2.2.1
    simpa [World.setDb, Conn.finish, Conn.commit, Conn.crash, Db.restore, Conn.view, rawGetState] using this

theorem commitLive_ok {X : Ctx} {A : Answers} {R : Repo} {path : Option Path} {message : Bytes} {refname : Option Bytes} {s s' : Sys} (h : commitLive X A R path message refname s = (.ok (), s')) :
    ∃ n ps tree d1 t1 ck d2, refOrHead s.db refname = .ok n ∧ parentsOf s.db n = .ok ps ∧ putLive X.E A X.depth (path.getD R.root) (s.db, 0) = (.ok tree, (d1, t1)) ∧
      commitTree X.E.H tree ps { message := message } d1 = (.ok ck, d2) ∧ reflogPush n none ck d2 = (.ok (), s'.db) := by
  unfold commitLive at h
  obtain ⟨n, s1, h1, g1⟩ := bind_ok h
  obtain ⟨h1, e1⟩ := readDb_ok h1
  rw [e1] at g1
  obtain ⟨ps, s2, h2, g2⟩ := bind_ok g1
  obtain ⟨h2, e2⟩ := readDb_ok h2
  rw [e2] at g2
  obtain ⟨tree, s3, h3, g3⟩ := bind_ok g2
  obtain ⟨h3, _⟩ := onDb_ok h3
  obtain ⟨ck, s4, h4, g4⟩ := bind_ok g3
  obtain ⟨h4, _⟩ := onDb_ok h4
  obtain ⟨h5, _⟩ := onDb_ok g4
  simp only [storeLive, Prod.mk.injEq] at h3
  refine ⟨n, ps, tree, _, (putLive X.E A X.depth (path.getD R.root) (s.db, 0)).2.2, ck, _, h1, h2, Prod.ext h3.1 (Prod.ext h3.2 rfl), h4, h5⟩

theorem runLive_committed {X : Ctx} {A : Answers} {R : Repo} {q : List Bytes} {cmd : Command} {after : Fs} {w : World} {u : Unit} (h1 : (cmd.live X A R (startOf w q)).1 = .ok u)
    (h2 : commitOk (cmd.live X A R (startOf w q)).2.db) : SameDb ((runLive X A R q cmd after w).2.2.dbs q) (cmd.live X A R (startOf w q)).2.db := by
  have hk : ∀ x ∈ (cmd.live X A R (startOf w q)).2.db.hashed, x ∈ (cmd.live X A R (startOf w q)).2.db.hashed := fun _ h => h
  have e : (runLive X A R q cmd after w).2.2.dbs q = (Conn.finish (cmd.live X A R (startOf w q)).1 (Conn.mk (w.dbs q) (some (cmd.live X A R (startOf w q)).2.db))).durable := by
    simp only [runLive, World.setDb, if_true, Conn.begin, Conn.exec, Conn.view, Option.getD_some, startOf]
  rw [e, h1]
  simp only [Conn.finish, Conn.commit]
  split
  · rename_i fs hf
    exact (h2 fs hf).elim
  · exact ⟨⟨rfl, rfl, rfl⟩, hk⟩

theorem halts_inquire {σ α} {f : Nat → Res α} (h : ∀ t, f t ≠ .fuel) : Halts (inquire (σ := σ) f) := fun s => h s.2

theorem halts_walk {σ} {fs : LinkFs} {E : Env} {glob : Path → Bool} {dbPath : Path} (hs : fs.Sane) {D : Nat} (hD : ∀ e ∈ fs.ents, e.1.length ≤ D) {base : Path} (hb : base ≠ []) (n : Nat) {pre : List Bytes}
    (hp : ∀ m ∈ pre, okName m) (h0 : 0 < n) (hn : ∀ k q, fs.locate (joins base pre) = .ok (k, q) → farness D k q + 1 < n) :
    Halts (walkLive (σ := σ) (fs.sights E glob dbPath) base n (relPath pre)) := by
  induction n generalizing pre with
  | zero => omega
  | succ n ih =>
    have hpc : ∀ m ∈ pre, okComp m := fun m hm => (hp m hm).comp
    have hcur : ∀ m, okName m → Path.join (Path.join base (relPath pre)) m = joins base (pre ++ [m]) := by
      intro m hm
      by_cases h0 : pre = []
      · subst h0
        exact join_join_empty hb hm.comp.notAbs
      · rw [join_relPath hpc h0]
        simp [joins, List.foldl_append]
    have hcanon : ∀ q, fs.canonicalize (Path.join base (relPath pre)) = .ok q → fs.canonicalize (joins base pre) = .ok q := by
      intro q hq
      by_cases h0 : pre = []
      · subst h0
        exact ((lslash_canon hb).mp hq).1
      · rw [join_relPath hpc h0] at hq
        exact hq
    have h0' : n = 0 ∨ 0 < n := by omega
    unfold walkLive
    refine halts_bind (halts_inquire fun t => ?_) fun w s s' hw => ?_
    · refine res_bind_fuel (lmeta_fuel _) fun e _ => ?_
      cases e <;> exact nofun
    have hw : (fs.answers E glob dbPath).stat s.2 (Path.join base (relPath pre)) = .ok w := (Prod.mk.injEq _ _ _ _ ▸ hw).1
    cases w with
    | dir =>
      obtain ⟨q, g1, g2⟩ := lstat_dir.mp hw
      obtain ⟨k, _, g3, _⟩ := lcanon_iff.mp (hcanon q g1)
      refine halts_bind (halts_inquire fun t => res_bind_fuel (lreadDir_fuel _) fun _ _ => nofun) fun names s s' hr => ?_
      have hr : (fs.answers E glob dbPath).list s.2 (Path.join base (relPath pre)) = .ok names := (Prod.mk.injEq _ _ _ _ ▸ hr).1
      rw [llist g1 g2] at hr
      simp only [Res.ok.injEq] at hr
      have hent : ∀ (l : List (Option Bytes)) (B : PMap Bool), (∀ m, some m ∈ l → okName m) →
          Halts (walkLiveEntries (σ := σ) (fs.sights E glob dbPath) (walkLive (fs.sights E glob dbPath) base n) (Path.join base (relPath pre)) (relPath pre) B l) := by
        intro l B hl
        induction l generalizing B with
        | nil => exact halts_pure _
        | cons m l ihl =>
          cases m with
          | none => exact halts_throw _
          | some m =>
            have ihl := fun B => ihl B fun m hm => hl m (by simp [hm])
            have hm := hl m (by simp)
            unfold walkLiveEntries
            refine halts_bind (halts_inquire fun t => lfilter_fuel _) fun b s s' hb => ?_
            cases b with
            | false => exact ihl B
            | true =>
              have hb : fs.filter glob dbPath (Path.join (Path.join base (relPath pre)) m) = .ok true := (Prod.mk.injEq _ _ _ _ ▸ hb).1
              rw [hcur m hm] at hb
              obtain ⟨q', _, j1, _⟩ := lfilter_iff.mp hb
              obtain ⟨k', e', j2, j3⟩ := lcanon_iff.mp j1
              have hj : joins base (pre ++ [m]) = Path.join (joins base pre) m := by simp [joins, List.foldl_append]
              have := farness_lt hD g3 hm (by rw [← hj]; exact j2) j3
              have := hn k q g3
              rw [← relPath_snoc]
              refine halts_bind (ih (pre := pre ++ [m]) (by
                intro x hx
                rcases List.mem_append.mp hx with hx | hx
                · exact hp x hx
                · simp at hx; subst hx; exact hm) (by omega) fun k'' q'' h => ?_) fun B' _ _ _ => ihl _
              rw [j2] at h
              simp only [Res.ok.injEq, Prod.mk.injEq] at h
              rw [← h.1, ← h.2]
              omega
      refine hent names _ ?_
      subst hr
      intro m hm
      exact lname_ok hs (by simpa using hm)
    | file len => exact halts_pure _
    | other => exact halts_throw _

/-! ### The property -/

/-- **C97** (links are only another way to the same things): on the file systems the other theorems are about, which have no links except dangling ones, comparing sees the same in this model as
in theirs; with C95_still, `compare`, `status` and `checkout-head` do the same. -/
theorem C97_plain (fs : Fs) (hs : fs.Sane) (hc : fs.at fs.cwd = some .dir) (limit : Nat) (E : Env) (glob : Path → Bool) (dbPath : Path) :
    (fs.asLinks limit).sights E glob dbPath = Spec.resting E fs (makeFilter glob dbPath) := by
  have h1 := C94_plain fs hs hc limit E glob dbPath
  have h2 : ((fs.asLinks limit).sights E glob dbPath).opened = (Spec.resting E fs (makeFilter glob dbPath)).opened := by
    funext t p
    have hread : ((fs.asLinks limit).answers E glob dbPath).read t p = (Spec.still E fs (makeFilter glob dbPath)).read t p := by rw [h1]
    rw [resting_opened]
    show ((fs.asLinks limit).metadata p).bind _ = _
    unfold LinkFs.metadata Fs.metadata
    rw [aslinks_locate hs hc]
    cases fs.locate p with
    | ok q =>
      simp only [Res.ok_bind]
      cases h : fs.at q with
      | none => simp [aslinks_at, h, Res.bind]
      | some e => cases e <;> simp [aslinks_at, h, Res.bind, tripleOf]
    | err e => rfl
    | panic => rfl
    | fuel => rfl
  have h3 : ((fs.asLinks limit).sights E glob dbPath).toAnswers = (Spec.resting E fs (makeFilter glob dbPath)).toAnswers := h1
  generalize (fs.asLinks limit).sights E glob dbPath = x at *
  generalize Spec.resting E fs (makeFilter glob dbPath) = y at *
  cases x
  cases y
  simp only at h2 h3
  rw [h2, h3]

/-- **C97** (what is listed): the paths that comparing a directory lists are the places that storing it comes to (C94), and each is listed as what it leads to. -/
theorem C97_listed {σ : Type} (E : Env) (fs : LinkFs) (hs : fs.Sane) (glob : Path → Bool) (dbPath base : Path) (n : Nat) (s s' : σ × Nat) (m : PMap Bool)
    (h : walkLive (fs.sights E glob dbPath) base n [] s = (.ok m, s')) (p : Path) (dir : Bool) :
    (p, dir) ∈ m ↔ ∃ x : Seen, Spec.Reached fs E glob dbPath base x ∧ x.rel ≠ [] ∧ p = relPath x.rel ∧ dir = x.what.isNone := by
  have hb : base ≠ [] := by
    rintro rfl
    cases n with
    | zero => simp [walkLive] at h
    | succ n =>
      unfold walkLive at h
      obtain ⟨e, s1, h1, _⟩ := bind_ok h
      have : (fs.answers E glob dbPath).stat s.2 (Path.join [] []) = .ok e := (Prod.mk.injEq _ _ _ _ ▸ h1).1
      have hx : Path.join [] [] = [] := rfl
      rw [hx] at this
      simp [LinkFs.answers, LinkFs.metadata, LinkFs.locate, Res.bind] at this
  obtain ⟨_, okm, L, l1, l2, l3⟩ := walk_look (pre := []) fixed_links (lproper hs E glob dbPath) hb (lslash_stat hb) (by simp) (s := s.1) (t := s.2) (s' := s'.1) (t' := s'.2) h
  obtain ⟨t', hl⟩ := l1 0
  have hiff : ∀ x : Seen, x ∈ L ↔ Spec.Reached fs E glob dbPath base x := fun x => (look_iff (timeless fs E glob dbPath) hl x).trans reached_iff
  constructor
  · intro he
    obtain ⟨x, hx, g1, g2, g3⟩ := l2 _ he
    exact ⟨x, (hiff x).mp hx, by simpa using g1, by simpa using g2, g3⟩
  · rintro ⟨x, hx, g1, rfl, rfl⟩
    obtain ⟨d, hd⟩ := mem_keys.mp (l3 x ((hiff x).mpr hx) (by simpa using g1))
    obtain ⟨y, hy, k1, k2, k3⟩ := l2 _ hd
    simp only [List.nil_append] at k2 hd
    have ok : ∀ {z : Seen}, Spec.Reached fs E glob dbPath base z → ∀ m ∈ z.rel, okComp m := fun hz m hm => (goes_names hs (reached_iff.mpr hz).1 m hm).comp
    have hr := relPath_inj (ok hx) (ok ((hiff y).mp hy)) k2
    have hw : d = x.what.isNone := by
      simp only at k3
      rw [k3]
      obtain ⟨_, t1⟩ := reached_iff.mpr hx
      obtain ⟨_, t2⟩ := reached_iff.mpr ((hiff y).mp hy)
      rw [← hr] at t2
      cases hxw : x.what with
      | none =>
        cases hyw : y.what with
        | none => rfl
        | some v =>
          rw [hxw] at t1
          rw [hyw] at t2
          have := t2.1.symm.trans t1
          simp at this
      | some v =>
        cases hyw : y.what with
        | some v => rfl
        | none =>
          rw [hxw] at t1
          rw [hyw] at t2
          have := t1.1.symm.trans t2
          simp at this
    rw [← hw]
    exact hd

/-- **C97** (it ends): with recursion this deep, listing a directory is not cut short, whatever links there are. -/
theorem C97_ends (σ : Type) (E : Env) (fs : LinkFs) (hs : fs.Sane) (glob : Path → Bool) (dbPath base : Path) (hb : base ≠ []) (D : Nat) (hD : ∀ e ∈ fs.ents, e.1.length ≤ D) (n : Nat)
    (hn : (fs.limit + 1) * (D + 1) < n) : Halts (walkLive (σ := σ) (fs.sights E glob dbPath) base n []) := by
  refine halts_walk (pre := []) hs hD hb n (by simp) (by omega) fun k q h => ?_
  have hk : k ≤ fs.limit := by
    rw [joins_nil] at h
    unfold LinkFs.locate at h
    split at h
    · simp at h
    · split at h
      · simp at h
      · exact lwalk_le fs h
  have : k * (D + 1) ≤ fs.limit * (D + 1) := Nat.mul_le_mul_right _ hk
  rw [Nat.add_mul] at hn
  unfold farness
  omega

/-- **C97** (directories that contain themselves): where following entries and links leads back to a directory, and no pattern excludes it, the comparison has no result. -/
theorem C97_cycle (E : Env) (fs : LinkFs) (hs : fs.Sane) (dbPath base : Path) (rel r : List Bytes) (hr : r ≠ []) (q : List Bytes)
    (h0 : fs.canonicalize (joins base rel) = .ok q) (h1 : Spec.Reached fs E (fun _ => false) dbPath base ⟨rel ++ r, none⟩) (h2 : fs.canonicalize (joins base (rel ++ r)) = .ok q)
    (iter : Nat → List Path → List Path) (n : Nat) (to : Option Key) (s s' : (Db × Cache) × Nat) (res : DiffResult) :
    compareLive E (fs.sights E (fun _ => false) dbPath) iter n base to s ≠ (.ok res, s') := by
  intro h
  unfold compareLive at h
  obtain ⟨m, s1, h3, _⟩ := bind_ok h
  have hb : base ≠ [] := by
    rintro rfl
    have := goes_names hs (reached_iff.mpr h1).1
    have hk := (reached_iff.mpr h1).1
    cases hrel : rel ++ r with
    | nil => simp at hrel; exact hr hrel.2
    | cons a l =>
      rw [hrel] at hk
      have := (hk [] a (by simp)).1
      simp [joins, LinkFs.answers, LinkFs.metadata, LinkFs.locate, Res.bind] at this
  obtain ⟨_, _, L, l1, _⟩ := walk_look (pre := []) fixed_links (lproper hs E _ dbPath) hb (lslash_stat hb) (by simp) (s := s.1) (t := s.2) (s' := s1.1) (t' := s1.2) h3
  obtain ⟨t', hl⟩ := l1 0
  obtain ⟨g1, _⟩ := reached_iff.mpr h1
  have hsplit : Goes (fs.answers E (fun _ => false) dbPath) base rel ∧ Goes (fs.answers E (fun _ => false) dbPath) (joins base rel) r := by
    refine ⟨fun a m ha => g1 a m (ha.trans (List.prefix_append _ _)), fun a m ha => ?_⟩
    have := g1 (rel ++ a) m (by rw [List.append_assoc]; exact (List.prefix_append_right_inj rel).mpr ha)
    rw [List.append_assoc, joins_append, joins_append] at this
    exact this
  obtain ⟨k0, _, j1, _⟩ := lcanon_iff.mp h0
  obtain ⟨k1, _, j2, _⟩ := lcanon_iff.mp h2
  rw [joins_append] at j2
  exact cycle_fails hs hr hsplit.2 j1 j2 k0 _ j1 (lookOk_goes (timeless _ _ _ _) ⟨_, _, _, _, hl⟩ hsplit.1)

/-- **C97** (nothing changed): if the tree of HEAD's newest commit was stored from the working directory, links and all, and that is still the same, `status` finds no differences and
`checkout-head` sets HEAD. (No write fails; the cache has no wrong key for a file that is there; files with the same inode, time and size have the same contents, as those that are one file
reached in several ways have.) -/
theorem C97_clean (X : Ctx) (hit : IterOk X.iter) (fs : LinkFs) (hs : fs.Sane) (hh : Spec.Honest X.E fs) (w : World) (R : Repo) (q : List Bytes) (after : Fs)
    (hv : Spec.Vouched X.E fs w.cache) (hf1 : (w.dbs q).faults = []) (hf2 : w.cache.faults = []) (head : Bytes) (hhead : getHead (w.dbs q) = .ok (some head))
    (ck : Key) (c : Commit) (hck : reflogGet (w.dbs q) head none = .ok ck) (hc : Commit.fromKey (w.dbs q) ck = .ok c)
    (hdir : fs.metadata R.root = .ok .dir) (db0 db1 : Db) (t0 t1 : Nat) (hi : Inv X.E.H db0)
    (hput : putLive X.E (fs.answers X.E X.glob R.folder) X.depth R.root (db0, t0) = (.ok c.tree, (db1, t1))) (hcoll : NoColl X.E.H db1) (hd : db1.data <+: (w.dbs q).data) :
    let A := fs.sights X.E X.glob R.folder
    ((runRacing X A R q .status after w).1 = .success ∧ (runRacing X A R q .status after w).2.1 = [.headAt head (some (ck.asUserKey.take 8)), .result ⟨[], [], []⟩]) ∧
    ∀ n, (runRacing X A R q (.checkoutHead n) after w).1 = .success ∧ (runRacing X A R q (.checkoutHead n) after w).2.1 = [.text sNewHead] ∧
      rawGetState ((runRacing X A R q (.checkoutHead n) after w).2.2.dbs q) sHEAD = .ok (some n) := by
  intro A
  obtain ⟨qr, r1, r2⟩ := lmeta_iff.mp hdir
  have hb : R.root ≠ [] := by
    obtain ⟨_, _, h, _⟩ := lcanon_iff.mp r1
    exact locate_ne h
  have hstat : A.stat 0 R.root = .ok .dir := lstat_dir.mpr ⟨qr, r1, r2⟩
  have hw := walks_of_put (E := X.E) (A := A) (base := R.root) (pre := []) (timeless fs _ _ _) (lproper hs _ _ _) hb (fun h => lslash_dir hb h) (by simp) (fun _ => hstat) hi hput hcoll
  obtain ⟨s', t', h1, h2, h3⟩ := compare_stored fixed_links (unmixed_links hh) hw hd hf1 (trusted_links hv) hit
  exact racing_clean hhead hck hc h1 h2 (h3 hf2)

/-- **C97** (after a commit): so it is after a `commit` of the whole working directory on HEAD's ref, as long as the files and links stay as they are. -/
theorem C97_commit (X : Ctx) (hit : IterOk X.iter) (fs : LinkFs) (hs : fs.Sane) (hh : Spec.Honest X.E fs) (message : Bytes) (w : World) (R : Repo) (q : List Bytes) (hi : Inv X.E.H (w.dbs q))
    (hdir : fs.metadata R.root = .ok .dir) (after : Fs)
    (h1 : ((Command.commit none message none).live X (fs.answers X.E X.glob R.folder) R (startOf w q)).1 = .ok ())
    (h2 : commitOk ((Command.commit none message none).live X (fs.answers X.E X.glob R.folder) R (startOf w q)).2.db)
    (hcoll : NoColl X.E.H ((runLive X (fs.answers X.E X.glob R.folder) R q (.commit none message none) after w).2.2.dbs q))
    (w' : World) (hdb : SameDb (w'.dbs q) ((runLive X (fs.answers X.E X.glob R.folder) R q (.commit none message none) after w).2.2.dbs q))
    (hv : Spec.Vouched X.E fs w'.cache) (hf1 : (w'.dbs q).faults = []) (hf2 : w'.cache.faults = []) :
    ∃ head ck, getHead (w.dbs q) = .ok (some head) ∧ reflogGet (w'.dbs q) head none = .ok ck ∧
      let A := fs.sights X.E X.glob R.folder
      ((runRacing X A R q .status after w').1 = .success ∧ (runRacing X A R q .status after w').2.1 = [.headAt head (some (ck.asUserKey.take 8)), .result ⟨[], [], []⟩]) ∧
      ∀ n, (runRacing X A R q (.checkoutHead n) after w').1 = .success ∧ (runRacing X A R q (.checkoutHead n) after w').2.1 = [.text sNewHead] ∧
        rawGetState ((runRacing X A R q (.checkoutHead n) after w').2.2.dbs q) sHEAD = .ok (some n) := by
  have hsame := runLive_committed (after := after) h1 h2
  obtain ⟨n, ps, tree, d1, t1, ck, d2, g1, g2, g3, g4, g5⟩ := commitLive_ok (s := startOf w q)
    (s' := ((Command.commit none message none).live X (fs.answers X.E X.glob R.folder) R (startOf w q)).2) (Prod.ext h1 rfl)
  obtain ⟨e1, e2, e3, e4⟩ := reflogPush_ok g5
  have hd1 := growing_live X.E (fs.answers X.E X.glob R.folder) X.depth R.root (w.dbs q, 0)
  have g3' : putLive X.E (fs.answers X.E X.glob R.folder) X.depth R.root (w.dbs q, 0) = (.ok tree, (d1, t1)) := g3
  rw [g3'] at hd1
  have hd1 : Grow X.E.H (w.dbs q) d1 := hd1
  have hgrow2 := (isPuts_commitTree X.E.H tree ps { message := message }).grow d1
  rw [g4] at hgrow2
  have hcd2 : NoColl X.E.H d2 := by
    have := hsame.noColl hcoll
    unfold NoColl at this ⊢
    rw [e4] at this
    exact this
  have hcd1 : NoColl X.E.H d1 := fun x hx y hy => hcd2 x (hgrow2.hashed.subset hx) y (hgrow2.hashed.subset hy)
  obtain ⟨ps', x, p1, _, px, p2⟩ := C22_roundtrip X.E.H tree ps { message := message } d1 d2 ck (hd1.inv hi) g4 hcd2 (by simp [CommitAttrs.Readable])
  obtain rfl := px.eq_nil
  have hdata : (w'.dbs q).data = d2.data := hdb.1.1.trans (hsame.1.1.trans e1)
  have hlog : (w'.dbs q).reflog = (w.dbs q).reflog ++ [⟨n, none, ck.asDbKey⟩] := by
    rw [hdb.1.2.2, hsame.1.2.2, e3, hgrow2.reflog, hd1.reflog]
  have hstate : (w'.dbs q).state = (w.dbs q).state := by
    rw [hdb.1.2.1, hsame.1.2.1, e2, hgrow2.state, hd1.state]
  have hhead : getHead (w.dbs q) = .ok (some n) := headName_ok g1
  have hh' : getHead (w'.dbs q) = .ok (some n) := by
    simpa only [getHead, rawGetState, hstate] using hhead
  have hfrom := p2 (w'.dbs q) (by rw [hdata]; exact List.prefix_refl _)
  exact ⟨n, ck, hhead, reflogGet_pushed hlog, C97_clean X hit fs hs hh w' R q after hv hf1 hf2 n hh' ck _ (reflogGet_pushed hlog) hfrom hdir _ d1 0 t1 hi g3' hcd1
    (by rw [hdata]; exact hgrow2.data)⟩

/-- **C97** (nothing is overlooked): if comparing the directory with a stored tree finds no differences, the tree has just the paths that following entries and links leads to, and for each file
the key that storing what is there now gives. -/
theorem C97_noticed (E : Env) (fs : LinkFs) (hs : fs.Sane) (hh : Spec.Honest E fs) (glob : Path → Bool) (dbPath base : Path) (iter : Nat → List Path → List Path) (hit : IterOk iter) (n : Nat)
    (k : Key) (db : Db) (ca : Cache) (hv : Spec.Vouched E fs ca) (t : Nat) (s' : (Db × Cache) × Nat)
    (h : compareLive E (fs.sights E glob dbPath) iter n base (some k) ((db, ca), t) = (.ok ⟨[], [], []⟩, s')) :
    ∃ B, walkItems db n k = .ok B ∧ (∀ p, (∃ v, (p, v) ∈ B) ↔ ∃ x : Seen, Spec.Reached fs E glob dbPath base x ∧ x.rel ≠ [] ∧ p = relPath x.rel) ∧
      ∀ rel len evs, Spec.Reached fs E glob dbPath base ⟨rel, some (len, evs)⟩ → ∀ kf d, (relPath rel, kf, d) ∈ B → rel ≠ [] →
        ∃ c md, fs.metadata (joins base rel) = .ok (.file c md) ∧ fileKey E (joins base rel) c = .ok kf := by
  obtain ⟨m, B, t1, h1, h2, _, _, _, hr⟩ := reports hit h
  have hm := C97_listed E fs hs glob dbPath base n _ _ m h1
  refine ⟨B, h2, fun p => ⟨?_, ?_⟩, fun rel len evs hx kf d he hne => ?_⟩
  · rintro ⟨v, hv⟩
    obtain ⟨d, hd⟩ := hr.deleted.2 _ hv
    obtain ⟨x, g1, g2, g3, _⟩ := (hm _ _).mp hd
    exact ⟨x, g1, g2, g3⟩
  · rintro ⟨x, g1, g2, g3⟩
    have hd := (hm p x.what.isNone).mpr ⟨x, g1, g2, g3, rfl⟩
    apply Classical.byContradiction
    intro hno
    obtain ⟨e, he, _⟩ := hr.allAdded p _ hd fun v hv => hno ⟨v, hv⟩
    simp at he
  · have hd := (hm (relPath rel) false).mpr ⟨_, hx, hne, rfl, rfl⟩
    have hok : ∀ m ∈ rel, okComp m := fun m hm => (goes_names hs (reached_iff.mpr hx).1 m hm).comp
    obtain ⟨k', hsaw, hk⟩ := hr.allModified _ kf d hd he
    have hk : k' = kf := by
      rcases hk with hk | hk
      · exact hk
      · simp at hk
    subst hk
    obtain ⟨t0, len0, ck, evs0, _, _, a1, a2, a3⟩ := hsaw
    rw [join_relPath hok hne] at a1 a2
    obtain ⟨c, md, b1, rfl⟩ := lfile a1
    rw [lopened b1] at a2
    simp only [Res.ok.injEq, Prod.mk.injEq] at a2
    obtain ⟨rfl, rfl⟩ := a2
    refine ⟨c, md, b1, ?_⟩
    rcases a3 with a3 | ⟨_, t2, p2, len2, evs2, _, _, c1, c2, c3⟩
    · rcases hv _ _ _ b1 with e | ⟨k2, e, e'⟩
      · rw [a3] at e; simp at e
      · rw [a3] at e
        simp only [Res.ok.injEq, Option.some.injEq] at e
        rw [e]
        exact e'
    · rw [← keyOf_file, ← c3]
      exact unmixed_links (glob := glob) (dbPath := dbPath) hh (joins base rel) p2 _ _ _ _ _ a1 c1 (lopened b1) c2

end Snap.Props
