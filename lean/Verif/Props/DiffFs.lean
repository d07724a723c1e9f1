import Verif.Props.Diff
import Verif.Props.Cache
/-! Properties C50 and C51: comparing a directory with a stored tree; order of the results. -/
namespace Snap.Props
open Snap
set_option linter.unusedSectionVars false
variable [Serde] [LawfulSerde]

/-! ### Hashing several files -/

/-- The key `put_fs_item` gives a file with these contents, on a store without failing writes. -/
def fileKey (E : Env) (p : Path) (c : Bytes) : Res Key := (putFile E p c {}).1

theorem putFile_healthy (E : Env) (p : Path) (c : Bytes) (db : Db) (h : db.faults = []) : (putFile E p c db).1 = fileKey E p c ∧ (putFile E p c db).2.faults = [] := by
  obtain ⟨ws, r, hx⟩ := isPuts_putFile E p c
  unfold fileKey
  rw [hx db, hx {}, (execPuts_nofault E.H ws r {} rfl).1]
  exact execPuts_nofault E.H ws r db h

/-- A cache filled by hashing never holds a malformed key. -/
theorem hist_get {E : Env} {l : List (Fs × Path)} {s : Db × Cache} (h : Hist E l s) (k : CacheKey) : ∃ o, s.2.get k = .ok o := by
  induction h with
  | start db f => exact ⟨none, rfl⟩
  | @hash l s s' fs p r h hh ih =>
    have same : s'.2 = s.2 → ∃ o, s'.2.get k = .ok o := fun e => by rw [e]; exact ih
    cases hm : fs.metadata p with
    | ok e =>
      by_cases he : ∃ c md, e = .file c md
      · obtain ⟨c, md, rfl⟩ := he
        rw [hashFsItem_file hm] at hh
        cases hg : s.2.get (tripleOf c md) with
        | ok o =>
          rw [hg] at hh
          cases o with
          | some k => simp at hh; exact same (by rw [← hh.2])
          | none =>
            simp only at hh
            cases hp : putFile E p c s.1 with
            | mk rp db' =>
              rw [hp] at hh
              cases rp with
              | ok k' =>
                simp at hh
                rw [← hh.2]
                have hq := C56_put s.2 (Cache.put (tripleOf c md) k' s.2).2 (tripleOf c md) k' (Cache.put (tripleOf c md) k' s.2).1 rfl k
                dsimp only
                rw [hq]
                split
                · exact ⟨_, rfl⟩
                · exact ih
              | _ => simp at hh; exact same (by rw [← hh.2])
        | _ => rw [hg] at hh; simp at hh; exact same (by rw [← hh.2])
      · rw [C57_non_file E fs p s e hm (fun c md hc => he ⟨c, md, hc⟩)] at hh
        simp at hh
        exact same (by rw [← hh.2])
    | _ =>
      unfold hashFsItem at hh
      simp only [SM.bind_apply, SM.lift_apply, hm] at hh
      simp at hh
      exact same (by rw [← hh.2])
  | @grow l db ca db' h hd ih => exact ih

theorem Faithful.mono {E : Env} {l l' : List (Fs × Path)} (h : Faithful E l') (hs : l ⊆ l') : Faithful E l :=
  fun x hx y hy => h x (hs hx) y (hs hy)

/-- Every cached key is the key of a listed file with this triple. -/
def CacheRight (E : Env) (l : List (Fs × Path)) (ca : Cache) : Prop :=
  ∀ ck, ca.get ck = .ok none ∨ ∃ k, ca.get ck = .ok (some k) ∧ ∃ x ∈ l, ∃ c md, x.1.metadata x.2 = .ok (.file c md) ∧ tripleOf c md = ck ∧ fileKey E x.2 c = .ok k

theorem fileKey_of_put {E : Env} {p : Path} {c : Bytes} {k : Key} {d d' : Db} (h : putFile E p c d = (.ok k, d')) : fileKey E p c = .ok k := by
  obtain ⟨ws, r, hx⟩ := isPuts_putFile E p c
  have h1 := execPuts_result E.H ws r d
  rw [← hx, h] at h1
  rcases h1 with h1 | h1
  · simp only at h1
    subst h1
    unfold fileKey
    rw [hx]
    exact (execPuts_nofault E.H ws _ _ rfl).1
  · simp at h1

theorem CacheRight.mono {E : Env} {l l' : List (Fs × Path)} {ca : Cache} (h : CacheRight E l ca) (hs : l ⊆ l') : CacheRight E l' ca := by
  intro ck
  rcases h ck with h | ⟨k, h1, x, hx, h2⟩
  · exact Or.inl h
  · exact Or.inr ⟨k, h1, x, hs hx, h2⟩

theorem CacheRight.empty (E : Env) (l : List (Fs × Path)) {ca : Cache} (h : ca.rows = []) : CacheRight E l ca := by
  intro ck
  left
  simp [Cache.get, h, assoc]

theorem CacheRight.same {E : Env} {l : List (Fs × Path)} {ca ca' : Cache} (h : CacheRight E l ca) (hr : ca'.rows = ca.rows) : CacheRight E l ca' := by
  intro ck
  have : ca'.get ck = ca.get ck := by unfold Cache.get; rw [hr]
  rw [this]
  exact h ck

theorem hist_right {E : Env} {l : List (Fs × Path)} {s : Db × Cache} (h : Hist E l s) : CacheRight E l s.2 := by
  intro ck
  obtain ⟨o, ho⟩ := hist_get h ck
  cases o with
  | none => exact Or.inl ho
  | some k =>
    obtain ⟨x, hx, c, md, h1, h2, db, db', h3, _⟩ := hist_cacheOk h ck k ho
    exact Or.inr ⟨k, ho, x, hx, c, md, h1, h2, fileKey_of_put h3⟩

theorem fileKey_alike {E : Env} {p q : Path} {c : Bytes} (h1 : Spec.smallReads (E.rd p c)) (h2 : Spec.smallReads (E.rd q c)) (h3 : Spec.delivered (E.rd p c) = Spec.delivered (E.rd q c))
    (h4 : Spec.readFails (E.rd p c) = Spec.readFails (E.rd q c)) : fileKey E p c = fileKey E q c := by
  unfold fileKey putFile
  simp only [SM.bind_apply]
  rw [C25_small_reads E.table E.H _ _ h1 h2 h3 h4]

/-- Hashing a file keeps the cache right, whatever happens. -/
theorem right_hash {E : Env} {l : List (Fs × Path)} {s s' : Db × Cache} (h : CacheRight E l s.2) {fs : Fs} {p : Path} {r : Res Key} (hh : hashFsItem E fs p s = (r, s')) :
    CacheRight E (l ++ [(fs, p)]) s'.2 := by
  have same : s'.2 = s.2 → CacheRight E (l ++ [(fs, p)]) s'.2 := fun e => by rw [e]; exact h.mono (by simp)
  cases hm : fs.metadata p with
  | ok e =>
    by_cases he : ∃ c md, e = .file c md
    · obtain ⟨c, md, rfl⟩ := he
      rw [hashFsItem_file hm] at hh
      rcases h (tripleOf c md) with hg | ⟨k, hg, _⟩
      · rw [hg] at hh
        simp only at hh
        cases hp : putFile E p c s.1 with
        | mk rp db' =>
          rw [hp] at hh
          cases rp with
          | ok k' =>
            simp at hh
            rw [← hh.2]
            intro ck
            have hq := C56_put s.2 (Cache.put (tripleOf c md) k' s.2).2 (tripleOf c md) k' (Cache.put (tripleOf c md) k' s.2).1 rfl ck
            dsimp only
            rw [hq]
            split
            · rename_i hc
              exact Or.inr ⟨k', rfl, (fs, p), by simp, c, md, hm, hc.2.1.symm, fileKey_of_put hp⟩
            · exact h.mono (l' := l ++ [(fs, p)]) (by simp) ck
          | _ => simp at hh; exact same (by rw [← hh.2])
      · rw [hg] at hh
        simp at hh
        exact same (by rw [← hh.2])
    · rw [C57_non_file E fs p s e hm (fun c md hc => he ⟨c, md, hc⟩)] at hh
      simp at hh
      exact same (by rw [← hh.2])
  | _ =>
    unfold hashFsItem at hh
    simp only [SM.bind_apply, SM.lift_apply, hm] at hh
    simp at hh
    exact same (by rw [← hh.2])

/-- If it succeeds, the result is the key of the file. -/
theorem hash_key {E : Env} {l : List (Fs × Path)} {s s' : Db × Cache} (h : CacheRight E l s.2) {fs : Fs} {p : Path} {c : Bytes} {md : FileMeta} (hm : fs.metadata p = .ok (.file c md))
    {k : Key} (hh : hashFsItem E fs p s = (.ok k, s')) (hfa : Faithful E (l ++ [(fs, p)])) : fileKey E p c = .ok k := by
  rw [hashFsItem_file hm] at hh
  rcases h (tripleOf c md) with hg | ⟨k', hg, x, hx, c', md', h1, h2, h3⟩
  · rw [hg] at hh
    simp only at hh
    cases hp : putFile E p c s.1 with
    | mk rp db' =>
      rw [hp] at hh
      cases rp with
      | ok k' =>
        simp at hh
        rw [← hh.1]
        exact fileKey_of_put hp
      | _ => simp at hh
  · rw [hg] at hh
    simp at hh
    obtain ⟨rfl, _⟩ := hh
    obtain ⟨rfl, e2, e3, e4, e5⟩ := hfa (fs, p) (by simp) x (by simp [hx]) c md c' md' hm h1 h2.symm
    rw [fileKey_alike e2 e3 e4 e5]
    exact h3

theorem hash_sound {E : Env} {l : List (Fs × Path)} {s : Db × Cache} (h : CacheRight E l s.2) (hf : s.1.faults = []) {fs : Fs} {p : Path} {c : Bytes} {md : FileMeta}
    (hm : fs.metadata p = .ok (.file c md)) {k : Key} (hk : fileKey E p c = .ok k) (hfa : Faithful E (l ++ [(fs, p)])) :
    ∃ s', hashFsItem E fs p s = (.ok k, s') ∧ CacheRight E (l ++ [(fs, p)]) s'.2 ∧ s'.1.faults = [] ∧ s.1.data <+: s'.1.data ∧ (s.2.faults = [] → s'.2.faults = []) := by
  have hh := hashFsItem_file (E := E) hm s
  rcases h (tripleOf c md) with hg | ⟨k', hg, _⟩
  · rw [hg] at hh
    simp only at hh
    have hp := putFile_healthy E p c s.1 hf
    have gr := (isPuts_putFile E p c).grow s.1
    cases hpf : putFile E p c s.1 with
    | mk r db' =>
      rw [hpf] at hh hp gr
      simp only at hp
      rw [hk] at hp
      obtain ⟨rfl, hf'⟩ := hp
      simp only at hh
      refine ⟨_, hh, right_hash h hh, hf', gr.data, fun hca => ?_⟩
      simp only [Cache.put, hca, List.tail_nil]
  · rw [hg] at hh
    simp only at hh
    have := hash_key h hm hh hfa
    rw [hk] at this
    simp at this
    subst this
    exact ⟨s, hh, right_hash h hh, hf, List.prefix_refl _, fun h => h⟩

theorem mapSM_inv {σ α β} {f : α → SM σ β} {g : α → β} {I : σ → Prop} {l : List α} {s : σ} (hs : I s) (h : ∀ x ∈ l, ∀ s, I s → ∃ s', f x s = (.ok (g x), s') ∧ I s') :
    ∃ s', mapSM f l s = (.ok (l.map g), s') ∧ I s' := by
  induction l generalizing s with
  | nil => exact ⟨s, rfl, hs⟩
  | cons x l ih =>
    obtain ⟨s1, h1, i1⟩ := h x (by simp) s hs
    obtain ⟨s2, h2, i2⟩ := ih i1 (fun y hy => h y (by simp [hy]))
    refine ⟨s2, ?_, i2⟩
    unfold mapSM
    rw [SM.bind_apply, h1]
    simp only
    rw [SM.bind_apply, h2]
    rfl

/-! ### C50 -/

/-- The key of the file at a path, if there is a readable file. -/
def keyAt (E : Env) (fs : Fs) (p : Path) : Option Key :=
  match fs.metadata p with
  | .ok (.file c _) => (fileKey E p c).toOption
  | _ => none

/-- What a comparison of a directory with a stored tree reports when it returns. The directory is given as what `walk_real_fs_items` lists: path, directory flag. -/
structure ExactFs (E : Env) (fs : Fs) (path : Path) (m : List (Path × Bool)) (B : List (Path × Key × Bool)) (r : DiffResult) : Prop where
  added : ∀ e, e ∈ r.added ↔ (e.path, e.isDir) ∈ m ∧ (∀ v, (e.path, v) ∉ B) ∧ e.newKey = if e.isDir then none else keyAt E fs e.path
  modified : ∀ e, e ∈ r.modified ↔ (e.path, false) ∈ m ∧ (∃ d, (e.path, e.originalKey, d) ∈ B) ∧ keyAt E fs (Path.join path e.path) = some e.newKey ∧ e.newKey ≠ e.originalKey
  deleted : r.deleted = []

/-- The files the comparison may look at. -/
def looksAt (fs : Fs) (path : Path) (m : List (Path × Bool)) : List (Fs × Path) := m.flatMap fun e => [(fs, e.1), (fs, Path.join path e.1)]

/-- What is reported for a path only in the directory, and for a path in both. -/
def addF (E : Env) (fs : Fs) (m : PMap Bool) (x : Path) : Added :=
  match m.get x with
  | some true => ⟨x, true, none⟩
  | _ => ⟨x, false, keyAt E fs x⟩
def modF (E : Env) (fs : Fs) (path : Path) (m : PMap Bool) (B : PMap (Key × Bool)) (x : Path) : Option Modified :=
  match m.get x, keyAt E fs (Path.join path x), B.get x with
  | some false, some f, some t => if f = t.1 then none else some ⟨x, t.1, f⟩
  | _, _, _ => none

theorem keyAt_some {E : Env} {fs : Fs} {p : Path} {k : Key} : keyAt E fs p = some k ↔ ∃ c md, fs.metadata p = .ok (.file c md) ∧ fileKey E p c = .ok k := by
  unfold keyAt
  constructor
  · intro h
    split at h
    · rename_i c md hm
      refine ⟨c, md, hm, ?_⟩
      cases hk : fileKey E p c <;> simp [hk, Res.toOption] at h
      rw [h]
    · simp at h
  · rintro ⟨c, md, hm, hk⟩
    rw [hm]
    simp [hk, Res.toOption]

theorem exactFs_of {E : Env} {fs : Fs} {path : Path} {m : PMap Bool} {B : PMap (Key × Bool)} (hA : m.Ok) (hB : B.Ok) {la lm : List Path} (ha : la.Perm (onlyIn m B))
    (hm : lm.Perm (inBoth m B)) :
    ExactFs E fs path m B ⟨[], sortBy Added.le (la.map (addF E fs m)), sortBy Modified.le (lm.filterMap (modF E fs path m B))⟩ := by
  constructor
  · intro e
    rw [(sortBy_perm _ _).mem_iff, List.mem_map]
    constructor
    · rintro ⟨x, hx, rfl⟩
      obtain ⟨h1, h2⟩ := mem_onlyIn.mp (ha.subset hx)
      obtain ⟨a, h⟩ := (PMap.get_some_iff (hA.key_norm h1)).mpr h1
      have h' := (PMap.get_iff hA (hA.key_norm h1)).mp h
      unfold addF
      rw [h]
      cases a with
      | true => exact ⟨h', fun v hv => h2 (mem_keys.mpr ⟨v, hv⟩), rfl⟩
      | false => exact ⟨h', fun v hv => h2 (mem_keys.mpr ⟨v, hv⟩), rfl⟩
    · rintro ⟨h2, h3, h1⟩
      have hk : e.path ∈ m.map (·.1) := mem_keys.mpr ⟨_, h2⟩
      refine ⟨e.path, ha.symm.subset (mem_onlyIn.mpr ⟨hk, fun h => ?_⟩), ?_⟩
      · obtain ⟨v, hv⟩ := mem_keys.mp h; exact h3 v hv
      · unfold addF
        rw [(PMap.get_iff hA (hA.key_norm hk)).mpr h2]
        obtain ⟨p, d, o⟩ := e
        cases d <;> simp_all
  · intro e
    rw [(sortBy_perm _ _).mem_iff, List.mem_filterMap]
    constructor
    · rintro ⟨x, hx, he⟩
      obtain ⟨h1, h2⟩ := mem_inBoth.mp (hm.subset hx)
      unfold modF at he
      split at he
      · rename_i f t e1 e2 e3
        split at he
        · simp at he
        · rename_i hne
          simp at he
          subst he
          exact ⟨(PMap.get_iff hA (hA.key_norm h1)).mp e1, ⟨t.2, (PMap.get_iff hB (hB.key_norm h2)).mp e3⟩, e2, hne⟩
      · simp at he
    · rintro ⟨h1, ⟨d', h2⟩, h3, h4⟩
      have hk : e.path ∈ m.map (·.1) := mem_keys.mpr ⟨_, h1⟩
      have hk' : e.path ∈ B.map (·.1) := mem_keys.mpr ⟨_, h2⟩
      refine ⟨e.path, hm.symm.subset (mem_inBoth.mpr ⟨hk, hk'⟩), ?_⟩
      unfold modF
      rw [(PMap.get_iff hA (hA.key_norm hk)).mpr h1, (PMap.get_iff hB (hB.key_norm hk')).mpr h2, h3]
      simp only [if_neg h4]
  · rfl

theorem deletedOf_panic_fs {A : PMap Bool} {B : PMap (Key × Bool)} (hB : B.Ok) {x : Path} (hx : x ∈ B.map (·.1)) (hn : x ∉ A.map (·.1)) : deletedOf (.left A) B x = .panic := by
  obtain ⟨b, hb⟩ := (PMap.get_some_iff (hB.key_norm hx)).mpr hx
  unfold deletedOf
  simp only [FromMap.isDir, hb, (PMap.get_none_iff (hB.key_norm hx)).mpr hn]
  rfl

/-- The comparison after both trees have been listed. -/
theorem compare_fs {E : Env} {fs : Fs} {iter : Nat → List Path → List Path} {n : Nat} {path dbPath : Path} {glob : Path → Bool} {t : Option Key} {db : Db} {ca : Cache}
    {m : PMap Bool} {B : PMap (Key × Bool)} (hA : walkReal fs (makeFilter glob dbPath) n path = .ok m) (hB : toItems db n t = .ok B) :
    compare E fs iter n (.fileSystem path glob dbPath) t (db, ca) = (do
      let added ← mapSM (addedOf E fs (.left m)) (iter 0 (onlyIn m B))
      let deleted ← mapSM (fun x => SM.lift (deletedOf (.left m) B x)) (iter 1 (onlyIn B m))
      let modified ← mapSM (modifiedOf E fs (.left m) path B) (iter 2 (inBoth m B))
      pure ⟨sortBy Deleted.le deleted, sortBy Added.le added, sortBy Modified.le (modified.filterMap id)⟩ : SM (Db × Cache) DiffResult) (db, ca) := by
  unfold compare
  simp only [SM.bind_apply, SM.lift_apply, hA, SM.pure_apply]
  cases t with
  | none =>
    simp [toItems] at hB
    subst hB
    simp only [SM.pure_apply]
    rfl
  | some t =>
    simp only [toItems] at hB
    simp only [SM.read_apply, hB]
    rfl

/-- **C50**: comparing a directory with a stored tree, without failing writes and with a cache filled by hashing files of which those with equal triples are equal. If every
file that is only in the directory is found and readable at its relative path, and every file in both at its path below the directory: the comparison panics iff some
path is only in the stored tree, and is exact otherwise. -/
theorem C50_exact (E : Env) (fs : Fs) (iter : Nat → List Path → List Path) (hi : IterOk iter) (n : Nat) (path dbPath : Path) (glob : Path → Bool) (t : Option Key)
    (db : Db) (ca : Cache) (m : PMap Bool) (B : PMap (Key × Bool)) (hA : walkReal fs (makeFilter glob dbPath) n path = .ok m) (hB : toItems db n t = .ok B)
    (hdb : db.faults = []) (L : List (Fs × Path)) (hh : CacheRight E L ca) (hfa : Faithful E (L ++ looksAt fs path m))
    (hra : ∀ x, (x, false) ∈ m → (∀ v, (x, v) ∉ B) → ∃ k, keyAt E fs x = some k)
    (hrm : ∀ x v, (x, false) ∈ m → (x, v) ∈ B → ∃ k, keyAt E fs (Path.join path x) = some k) :
    ((∃ e ∈ B, ∀ v, (e.1, v) ∉ m) → (compare E fs iter n (.fileSystem path glob dbPath) t (db, ca)).1 = .panic) ∧
    ((∀ e ∈ B, ∃ v, (e.1, v) ∈ m) → ∃ r s', compare E fs iter n (.fileSystem path glob dbPath) t (db, ca) = (.ok r, s') ∧ ExactFs E fs path m B r ∧ s'.1.faults = [] ∧ (ca.faults = [] → s'.2.faults = []) ∧
      r = ⟨[], sortBy Added.le ((iter 0 (onlyIn m B)).map (addF E fs m)), sortBy Modified.le ((iter 2 (inBoth m B)).filterMap (modF E fs path m B))⟩) := by
  have okA := walkReal_okMap hA
  have okB := toItems_okMap hB
  let I : Db × Cache → Prop := fun s => s.1.faults = [] ∧ (ca.faults = [] → s.2.faults = []) ∧ ∃ l, l ⊆ L ++ looksAt fs path m ∧ CacheRight E l s.2
  have I0 : I (db, ca) := ⟨hdb, fun h => h, L, by simp, hh⟩
  have hash : ∀ p, (fs, p) ∈ looksAt fs path m → ∀ k, keyAt E fs p = some k → ∀ s, I s → ∃ s', hashFsItem E fs p s = (.ok k, s') ∧ I s' := by
    rintro p hp k hk s ⟨s1, s3, l, hl, s2⟩
    obtain ⟨c, md, hm, hk⟩ := keyAt_some.mp hk
    have hsub : l ++ [(fs, p)] ⊆ L ++ looksAt fs path m := by
      intro x hx
      rcases List.mem_append.mp hx with hx | hx
      · exact hl hx
      · simp at hx; subst hx; exact List.mem_append_right _ hp
    obtain ⟨s', h1, h2, h3, _, h5⟩ := hash_sound s2 s1 hm hk (hfa.mono hsub)
    exact ⟨s', h1, h3, fun h => h5 (s3 h), _, hsub, h2⟩
  obtain ⟨s1, h1, I1⟩ : ∃ s', mapSM (addedOf E fs (.left m)) (iter 0 (onlyIn m B)) (db, ca) = (.ok ((iter 0 (onlyIn m B)).map (addF E fs m)), s') ∧ I s' := by
    refine mapSM_inv I0 ?_
    intro x hx s hs
    obtain ⟨e1, e2⟩ := mem_onlyIn.mp ((hi 0 _).subset hx)
    obtain ⟨a, h⟩ := (PMap.get_some_iff (okA.key_norm e1)).mpr e1
    have hmem := (PMap.get_iff okA (okA.key_norm e1)).mp h
    unfold addedOf addF
    simp only [FromMap.isDir, h, SM.bind_apply, SM.lift_apply]
    cases a with
    | true => exact ⟨s, rfl, hs⟩
    | false =>
      obtain ⟨k, hk⟩ := hra x hmem (fun v hv => e2 (mem_keys.mpr ⟨v, hv⟩))
      obtain ⟨s', g1, g2⟩ := hash x (List.mem_flatMap.mpr ⟨_, hmem, by simp⟩) k hk s hs
      refine ⟨s', ?_, g2⟩
      simp only [Bool.false_eq_true, if_false, SM.bind_apply, SM.unwrap, g1, hk]
      rfl
  rw [compare_fs hA hB]
  rw [SM.bind_apply, h1]
  simp only
  constructor
  · rintro ⟨e, he, hn⟩
    rw [SM.bind_apply, mapSM_panic]
    · intro x hx
      obtain ⟨e1, e2⟩ := mem_onlyIn.mp ((hi 1 _).subset hx)
      rw [SM.lift_apply, deletedOf_panic_fs okB e1 e2]
    · intro h
      have := hi 1 (onlyIn B m)
      rw [h] at this
      have hx : e.1 ∈ onlyIn B m := mem_onlyIn.mpr ⟨List.mem_map_of_mem he, fun h => by obtain ⟨v, hv⟩ := mem_keys.mp h; exact hn v hv⟩
      rw [this.symm.eq_nil] at hx
      simp at hx
  · intro hall
    have hd : onlyIn B m = [] := by
      rw [List.eq_nil_iff_forall_not_mem]
      intro x hx
      obtain ⟨e1, e2⟩ := mem_onlyIn.mp hx
      obtain ⟨v, hv⟩ := mem_keys.mp e1
      obtain ⟨v', hv'⟩ := hall _ hv
      exact e2 (mem_keys.mpr ⟨v', hv'⟩)
    have hd1 : iter 1 (onlyIn B m) = [] := by
      have := hi 1 (onlyIn B m)
      rw [hd] at this
      rw [hd]
      exact this.eq_nil
    rw [SM.bind_apply, hd1]
    simp only [mapSM, SM.pure_apply]
    obtain ⟨s2, h2, i2, i3, _⟩ : ∃ s', mapSM (modifiedOf E fs (.left m) path B) (iter 2 (inBoth m B)) s1 = (.ok ((iter 2 (inBoth m B)).map (modF E fs path m B)), s') ∧ I s' := by
      refine mapSM_inv I1 ?_
      intro x hx s hs
      obtain ⟨e1, e2⟩ := mem_inBoth.mp ((hi 2 _).subset hx)
      obtain ⟨a, h⟩ := (PMap.get_some_iff (okA.key_norm e1)).mpr e1
      obtain ⟨b, hb⟩ := (PMap.get_some_iff (okB.key_norm e2)).mpr e2
      have hmem := (PMap.get_iff okA (okA.key_norm e1)).mp h
      unfold modifiedOf modF
      simp only [h, hb, SM.bind_apply]
      cases a with
      | true => exact ⟨s, rfl, hs⟩
      | false =>
        obtain ⟨k, hk⟩ := hrm x b hmem ((PMap.get_iff okB (okB.key_norm e2)).mp hb)
        obtain ⟨s', g1, g2⟩ := hash _ (List.mem_flatMap.mpr ⟨_, hmem, by simp⟩) k hk s hs
        refine ⟨s', ?_, g2⟩
        simp only [SM.bind_apply, g1, hk]
        rfl
    rw [SM.bind_apply, h2]
    simp only [SM.pure_apply, List.filterMap_map]
    exact ⟨_, s2, rfl, exactFs_of okA okB (hi 0 _) (hi 2 _), i2, i3, rfl⟩

theorem mapSM_ok_each {σ α β} {f : α → SM σ β} {l : List α} {s s' : σ} {r : List β} (h : mapSM f l s = (.ok r, s')) : ∀ x ∈ l, ∃ s1 b s2, f x s1 = (.ok b, s2) := by
  induction l generalizing s s' r with
  | nil => simp
  | cons a l ih =>
    unfold mapSM at h
    obtain ⟨b, s1, h1, h2⟩ := bind_ok h
    obtain ⟨bs, s2, h3, _⟩ := bind_ok h2
    intro x hx
    rcases List.mem_cons.mp hx with rfl | hx
    · exact ⟨_, _, _, h1⟩
    · exact ih h3 x hx

theorem hashFsItem_ok {E : Env} {fs : Fs} {p : Path} {s s' : Db × Cache} {k : Key} (h : hashFsItem E fs p s = (.ok k, s')) : ∃ c md, fs.metadata p = .ok (.file c md) := by
  cases hm : fs.metadata p with
  | ok e =>
    by_cases he : ∃ c md, e = .file c md
    · obtain ⟨c, md, rfl⟩ := he; exact ⟨c, md, rfl⟩
    · rw [C57_non_file E fs p s e hm (fun c md hc => he ⟨c, md, hc⟩)] at h
      simp at h
  | _ =>
    unfold hashFsItem at h
    simp only [SM.bind_apply, SM.lift_apply, hm] at h
    simp at h

/-- **C50**, the current directory: a file only in the directory is looked up at its relative path. If there is no file, seen from the current directory, the comparison
does not return, whatever the store and the cache. -/
theorem C50_needs_cwd (E : Env) (fs : Fs) (iter : Nat → List Path → List Path) (hi : IterOk iter) (n : Nat) (path dbPath : Path) (glob : Path → Bool) (t : Option Key)
    (db : Db) (ca : Cache) (m : PMap Bool) (B : PMap (Key × Bool)) (hA : walkReal fs (makeFilter glob dbPath) n path = .ok m) (hB : toItems db n t = .ok B)
    (x : Path) (hx : (x, false) ∈ m) (hn : ∀ v, (x, v) ∉ B) (hno : ∀ c md, fs.metadata x ≠ .ok (.file c md)) :
    (compare E fs iter n (.fileSystem path glob dbPath) t (db, ca)).1.isOk = false := by
  have okA := walkReal_okMap hA
  rw [compare_fs hA hB]
  cases h : mapSM (addedOf E fs (.left m)) (iter 0 (onlyIn m B)) (db, ca) with
  | mk r s =>
    rw [SM.bind_apply, h]
    cases r with
    | ok r =>
      exfalso
      have hk : x ∈ m.map (·.1) := mem_keys.mpr ⟨_, hx⟩
      obtain ⟨s1, b, s2, h1⟩ := mapSM_ok_each h x ((hi 0 _).symm.subset (mem_onlyIn.mpr ⟨hk, fun h => by obtain ⟨v, hv⟩ := mem_keys.mp h; exact hn v hv⟩))
      unfold addedOf at h1
      simp only [FromMap.isDir, (PMap.get_iff okA (okA.key_norm hk)).mpr hx, SM.bind_apply, SM.lift_apply, Bool.false_eq_true, if_false, SM.unwrap] at h1
      cases hh : hashFsItem E fs x s1 with
      | mk q s3 =>
        rw [hh] at h1
        cases q with
        | ok k => obtain ⟨c, md, hm⟩ := hashFsItem_ok hh; exact hno c md hm
        | _ => simp [Res.unwrap] at h1
    | _ => rfl

theorem metadata_relPath {fs : Fs} (hw : fs.Wf) (hc : fs.at fs.cwd = some .dir) {rel : List Bytes} (h0 : rel ≠ []) {e : Ent} (ha : fs.at (fs.cwd ++ rel) = some e) (hb : e ≠ .broken) :
    fs.metadata (relPath rel) = .ok e := by
  have hok := okName_rel hw (q := fs.cwd) (rel := rel) (by rw [ha]; simp)
  cases rel with
  | nil => simp at h0
  | cons n r =>
    have hn : okName n := hok n (by simp)
    have hl : fs.locate (Path.join [] n) = .ok (loc fs.cwd (Path.join [] n)) := by
      have := locate'_join fs hc (p := []) hn
      unfold Fs.locate' at this
      rw [if_neg (join_ne_nil hn.comp.notAbs hn.1), if_pos rfl, Res.ok_bind, Fs.enter, hc] at this
      rw [this, loc_join _ _ hn]
      rfl
    have := metadata_joins hw hl (rel := r) (e := e) (by rw [loc_join _ _ hn]; simpa [loc, Path.comps, splitSlash, Path.isAbs, sDot] using ha) hb
    exact this

theorem putFile_alike {E : Env} {p p' : Path} {c : Bytes} (h : FullyRead E p c) (h' : FullyRead E p' c) : putFile E p c = putFile E p' c := by
  obtain ⟨a1, a2, a3, a4⟩ := h
  obtain ⟨b1, b2, b3, b4⟩ := h'
  unfold putFile
  have : putData E.table E.H (E.rd p c) = putData E.table E.H (E.rd p' c) := by
    funext db
    exact C25_small_reads E.table E.H _ _ a3 b3 (a1.trans b1.symm) (a2.trans b2.symm) db
  rw [this]

/-- **C50** in terms of the directories. The current directory is compared with a stored snapshot of a directory, without failing writes, with a cache filled by hashing
files of which those with equal triples are equal; `later` is the store after putting the directory (what `commit` would do). The comparison panics iff something of
the snapshot is gone. Otherwise it reports exactly the new files and directories, and of the files that were there as file or directory exactly those that were a
directory or had other contents. A file replaced by a directory is not reported. -/
theorem C50_snapshot (E : Env) (db later : Db) (ca : Cache) (k t : Key) (fs fs2 : Fs) (glob : Path → Bool) (dbPath : Path) (f2 : Filter) (n1 n2 N : Nat) (hN1 : n1 ≤ N) (hN2 : n2 ≤ N) (path p2 : Path)
    (h1 : Snapshot E later k fs (makeFilter glob dbPath) n1 path) (h2 : Snapshot E db t fs2 f2 n2 p2) (hl : db.data <+: later.data)
    (hcwd : loc fs.cwd path = fs.cwd)
    (hr1 : ∀ rel c, VisFile fs (makeFilter glob dbPath) path rel c → FullyRead E (joins path rel) c ∧ FullyRead E (relPath rel) c)
    (hr2 : ∀ rel c, VisFile fs2 f2 p2 rel c → FullyRead E (joins p2 rel) c)
    (hdb : db.faults = []) (L : List (Fs × Path)) (hh : CacheRight E L ca)
    (hfa : ∀ m, walkReal fs (makeFilter glob dbPath) N path = .ok m → Faithful E (L ++ looksAt fs path m))
    (iter : Nat → List Path → List Path) (hi : IterOk iter) :
    ((∃ rel b, Shown fs2 f2 p2 rel b ∧ ∀ b', ¬ Shown fs (makeFilter glob dbPath) path rel b') →
      (compare E fs iter N (.fileSystem path glob dbPath) (some t) (db, ca)).1 = .panic) ∧
    ((∀ rel b, Shown fs2 f2 p2 rel b → ∃ b', Shown fs (makeFilter glob dbPath) path rel b') →
      ∃ r s', compare E fs iter N (.fileSystem path glob dbPath) (some t) (db, ca) = (.ok r, s') ∧ s'.1.faults = [] ∧ (ca.faults = [] → s'.2.faults = []) ∧
      r.deleted = [] ∧
      (∀ p b, (∃ o, (⟨p, b, o⟩ : Added) ∈ r.added) ↔ ∃ rel, p = relPath rel ∧ Shown fs (makeFilter glob dbPath) path rel b ∧ ∀ b', ¬ Shown fs2 f2 p2 rel b') ∧
      (∀ p, (∃ e ∈ r.modified, e.path = p) ↔ ∃ rel c, p = relPath rel ∧ rel ≠ [] ∧ VisFile fs (makeFilter glob dbPath) path rel c ∧
        (Shown fs2 f2 p2 rel true ∨ ∃ c', VisFile fs2 f2 p2 rel c' ∧ c ≠ c'))) := by
  obtain ⟨A, hA⟩ := h1.walked_later hN1
  obtain ⟨hA, wA⟩ := hA later (List.prefix_refl _)
  obtain ⟨B, hBl⟩ := h2.walked_later hN2
  obtain ⟨hB, _⟩ := hBl db (List.prefix_refl _)
  obtain ⟨_, wB⟩ := hBl later hl
  have hw := h1.wf
  obtain ⟨m, hm, hm2⟩ : ∃ m, walkReal fs (makeFilter glob dbPath) N path = .ok m ∧ ∀ p b, (p, b) ∈ m ↔ ∃ kf, (p, kf, b) ∈ A := by
    obtain ⟨d, d', i1, i2, i3, i4⟩ := h1.put
    obtain ⟨m, m', g1, g2, g3, _⟩ := C32_same_listing E fs hw _ n1 path d d' later k i1 i2 i3 i4 h1.dir N hN1
    rw [hA] at g1
    simp at g1
    subst g1
    refine ⟨m', g2, fun p b => ?_⟩
    rw [← g3]
    simp
  have okm := walkReal_okMap hm
  have ok1 : ∀ {rel b}, Shown fs (makeFilter glob dbPath) path rel b → ∀ m ∈ rel, okName m := fun h => h.okNames hw
  have ok2 : ∀ {rel b}, Shown fs2 f2 p2 rel b → ∀ m ∈ rel, okName m := fun h => h.okNames h2.wf
  have inj : ∀ {a b : List Bytes}, (∀ m ∈ a, okName m) → (∀ m ∈ b, okName m) → relPath a = relPath b → a = b :=
    fun ha hb h => relPath_inj (fun m hm => (ha m hm).comp) (fun m hm => (hb m hm).comp) h
  have mShown : ∀ {rel b}, Shown fs (makeFilter glob dbPath) path rel b → (relPath rel, b) ∈ m := by
    intro rel b hs
    obtain ⟨kf, h⟩ := wA.shown rel b hs
    exact (hm2 _ _).mpr ⟨kf, h⟩
  have shownM : ∀ {p b}, (p, b) ∈ m → ∃ rel, p = relPath rel ∧ Shown fs (makeFilter glob dbPath) path rel b := by
    intro p b h
    obtain ⟨kf, h⟩ := (hm2 _ _).mp h
    exact wA.only _ _ _ h
  have inB : ∀ {rel kf b}, (∀ m ∈ rel, okName m) → (relPath rel, kf, b) ∈ B → Shown fs2 f2 p2 rel b := by
    intro rel kf b hok h
    obtain ⟨rel', e, hs⟩ := wB.only _ _ _ h
    rwa [inj hok (ok2 hs) e]
  have inM : ∀ {rel b}, (∀ m ∈ rel, okName m) → (relPath rel, b) ∈ m → Shown fs (makeFilter glob dbPath) path rel b := by
    intro rel b hok h
    obtain ⟨rel', e, hs⟩ := shownM h
    rwa [inj hok (ok1 hs) e]
  obtain ⟨hloc, hat, _⟩ := metadata_ok h1.dir
  -- the file at a shown path, its key in the stored tree, and what is found when it is hashed
  have key : ∀ {rel}, Shown fs (makeFilter glob dbPath) path rel false → ∃ c kf, VisFile fs (makeFilter glob dbPath) path rel c ∧ (relPath rel, kf, false) ∈ A ∧
      keyAt E fs (Path.join path (relPath rel)) = some kf ∧ keyAt E fs (relPath rel) = some kf := by
    intro rel hs
    obtain ⟨c, hc⟩ : ∃ c, fs.content (loc fs.cwd path ++ rel) = some c := by
      rcases hs.2.2 with ⟨h, _⟩ | ⟨_, h⟩
      · simp at h
      · exact h
    obtain ⟨kf, hkf⟩ := wA.shown rel _ hs
    obtain ⟨⟨d, d', g1⟩, _⟩ := wA.file rel kf c hkf (ok1 hs) hc
    obtain ⟨md, ha⟩ := content_some.mp hc
    have hv : VisFile fs (makeFilter glob dbPath) path rel c := ⟨hs.2.1, hc⟩
    refine ⟨c, kf, hv, hkf, ?_, ?_⟩
    · rw [join_relPath (fun m hm => (ok1 hs m hm).comp) hs.1]
      exact keyAt_some.mpr ⟨c, md, metadata_joins hw hloc ha (by simp), fileKey_of_put g1⟩
    · rw [hcwd] at ha hat
      refine keyAt_some.mpr ⟨c, md, metadata_relPath hw hat hs.1 ha (by simp), ?_⟩
      obtain ⟨r1, r2⟩ := hr1 rel c hv
      rw [putFile_alike r1 r2] at g1
      exact fileKey_of_put g1
  have hcmp := C50_exact E fs iter hi N path dbPath glob (some t) db ca m B hm hB hdb L hh (hfa m hm)
    (by
      intro x hx _
      obtain ⟨rel, rfl, hs⟩ := shownM hx
      obtain ⟨c, kf, _, _, _, h⟩ := key hs
      exact ⟨kf, h⟩)
    (by
      intro x v hx _
      obtain ⟨rel, rfl, hs⟩ := shownM hx
      obtain ⟨c, kf, _, _, h, _⟩ := key hs
      exact ⟨kf, h⟩)
  constructor
  · rintro ⟨rel, b, hs, hno⟩
    obtain ⟨kf, hmm⟩ := wB.shown rel b hs
    exact hcmp.1 ⟨_, hmm, fun v hv => hno v (inM (ok2 hs) hv)⟩
  · intro hall
    obtain ⟨r, s', hr, hex, q1, q2, _⟩ := hcmp.2 (by
      rintro ⟨p, kf, b⟩ he
      obtain ⟨rel, rfl, hs⟩ := wB.only _ _ _ he
      obtain ⟨b', hs'⟩ := hall rel b hs
      exact ⟨b', mShown hs'⟩)
    refine ⟨r, s', hr, q1, q2, hex.deleted, ?_, ?_⟩
    · intro p b
      constructor
      · rintro ⟨o, ho⟩
        obtain ⟨e2, e3, _⟩ := (hex.added _).mp ho
        obtain ⟨rel, rfl, hs⟩ := shownM e2
        refine ⟨rel, rfl, hs, fun b' hs' => ?_⟩
        obtain ⟨k', hmm⟩ := wB.shown rel b' hs'
        exact e3 _ hmm
      · rintro ⟨rel, rfl, hs, hno⟩
        refine ⟨if b then none else keyAt E fs (relPath rel), (hex.added _).mpr ⟨mShown hs, fun v hv => hno v.2 (inB (kf := v.1) (ok1 hs) hv), rfl⟩⟩
    · intro p
      constructor
      · rintro ⟨e, he, rfl⟩
        obtain ⟨e1, ⟨d, e2⟩, e3, e4⟩ := (hex.modified _).mp he
        obtain ⟨rel, hp, hs⟩ := shownM e1
        rw [hp] at e2 e3
        have hs' := inB (ok1 hs) e2
        obtain ⟨c, kf, hv, hkf, hk1, _⟩ := key hs
        rw [hk1] at e3
        simp at e3
        subst e3
        refine ⟨rel, c, hp, hs.1, hv, ?_⟩
        cases d with
        | true => exact Or.inl hs'
        | false =>
          rcases hs'.2.2 with ⟨h, _⟩ | ⟨_, c', hc'⟩
          · simp at h
          refine Or.inr ⟨c', ⟨hs'.2.1, hc'⟩, ?_⟩
          obtain ⟨g1, g2⟩ := wA.file rel _ c hkf (ok1 hs) hv.2
          obtain ⟨g1', g2'⟩ := wB.file rel _ c' e2 (ok2 hs') hc'
          exact fun h => e4 ((same_key_iff (hr1 rel c hv).1 (hr2 rel c' ⟨hs'.2.1, hc'⟩) g1 g1' g2 g2').mpr h)
      · rintro ⟨rel, c, rfl, h0, hv, hor⟩
        have hs : Shown fs (makeFilter glob dbPath) path rel false := ⟨h0, hv.1, Or.inr ⟨rfl, c, hv.2⟩⟩
        obtain ⟨c1, kf, hv1, hkf, hk1, _⟩ := key hs
        have : c1 = c := by
          have a := hv1.2
          rw [hv.2] at a
          simpa using a.symm
        subst this
        obtain ⟨g1, g2⟩ := wA.file rel _ c1 hkf (ok1 hs) hv.2
        rcases hor with hs' | ⟨c', hv', hne⟩
        · obtain ⟨kt, hkt⟩ := wB.shown rel _ hs'
          refine ⟨⟨relPath rel, kt, kf⟩, (hex.modified _).mpr ⟨mShown hs, ⟨_, hkt⟩, hk1, ?_⟩, rfl⟩
          simp only
          rintro rfl
          obtain ⟨sz, nm, ck, _, q1, _⟩ := g2
          obtain ⟨_, _, _, q2⟩ := wB.isDir _ _ hkt
          rw [q1] at q2
          simp at q2
        · have hs' : Shown fs2 f2 p2 rel false := ⟨h0, hv'.1, Or.inr ⟨rfl, c', hv'.2⟩⟩
          obtain ⟨kt, hkt⟩ := wB.shown rel _ hs'
          obtain ⟨g1', g2'⟩ := wB.file rel _ c' hkt (ok2 hs') hv'.2
          refine ⟨⟨relPath rel, kt, kf⟩, (hex.modified _).mpr ⟨mShown hs, ⟨_, hkt⟩, hk1, ?_⟩, rfl⟩
          exact fun h => hne ((same_key_iff (hr1 rel c1 hv).1 (hr2 rel c' hv') g1 g1' g2 g2').mp h)

/-! ### C51 -/

theorem mapSM_ok_map {σ α β γ} {f : α → SM σ β} {g : β → γ} {h : α → γ} (hf : ∀ x s b s', f x s = (.ok b, s') → g b = h x) {l : List α} {s s' : σ} {r : List β}
    (hr : mapSM f l s = (.ok r, s')) : r.map g = l.map h := by
  induction l generalizing s s' r with
  | nil => simp [mapSM] at hr; simp [← hr.1]
  | cons a l ih =>
    unfold mapSM at hr
    obtain ⟨b, s1, h1, h2⟩ := bind_ok hr
    obtain ⟨bs, s2, h3, h4⟩ := bind_ok h2
    simp at h4
    rw [← h4.1]
    simp [hf a _ _ _ h1, ih h3]

theorem addedOf_path {E : Env} {fs : Fs} {m : FromMap} {x : Path} {s s' : Db × Cache} {b : Added} (h : addedOf E fs m x s = (.ok b, s')) : b.path = x := by
  unfold addedOf at h
  obtain ⟨k, s1, _, h⟩ := bind_ok h
  obtain ⟨d, s2, _, h⟩ := bind_ok h
  simp at h
  rw [← h.1]

theorem deletedOf_path {m : FromMap} {to : PMap (Key × Bool)} {x : Path} {b : Deleted} (h : deletedOf m to x = .ok b) : b.path = x := by
  unfold deletedOf at h
  obtain ⟨k, _, h⟩ := Res.bind_eq_ok h
  obtain ⟨d, _, h⟩ := Res.bind_eq_ok h
  simp at h
  rw [← h]

theorem modifiedOf_path {E : Env} {fs : Fs} {m : FromMap} {base : Path} {to : PMap (Key × Bool)} {x : Path} {s s' : Db × Cache} {b : Option Modified}
    (h : modifiedOf E fs m base to x s = (.ok b, s')) : ∀ e, b = some e → e.path = x := by
  unfold modifiedOf at h
  obtain ⟨f, s1, _, h⟩ := bind_ok h
  rintro e rfl
  cases f with
  | none => simp at h
  | some f =>
    cases ht : to.get x with
    | none => rw [ht] at h; simp [SM.panic] at h
    | some t =>
      rw [ht] at h
      simp at h
      rw [← h.1.2]

theorem filterMap_paths {l : List (Option Modified)} {xs : List Path} (h : l.length = xs.length) (hp : ∀ p ∈ l.zip xs, ∀ e, p.1 = some e → e.path = p.2) :
    ((l.filterMap id).map (·.path)).Sublist xs := by
  induction l generalizing xs with
  | nil => simp
  | cons a l ih =>
    cases xs with
    | nil => simp at h
    | cons x xs =>
      have := ih (xs := xs) (by simpa using h) (fun p hp' => hp p (by simp [hp']))
      cases a with
      | none => simpa using this.cons x
      | some e =>
        have := hp (some e, x) (by simp) e rfl
        simp only at this
        subst this
        simp only [List.filterMap_cons, id, List.map_cons]
        exact List.Sublist.cons_cons _ (by assumption)

theorem mapSM_zip {σ α β} {f : α → SM σ β} {P : α → β → Prop} (hf : ∀ x s b s', f x s = (.ok b, s') → P x b) {l : List α} {s s' : σ} {r : List β}
    (hr : mapSM f l s = (.ok r, s')) : r.length = l.length ∧ ∀ p ∈ r.zip l, P p.2 p.1 := by
  induction l generalizing s s' r with
  | nil => simp [mapSM] at hr; simp [← hr.1]
  | cons a l ih =>
    unfold mapSM at hr
    obtain ⟨b, s1, h1, h2⟩ := bind_ok hr
    obtain ⟨bs, s2, h3, h4⟩ := bind_ok h2
    simp at h4
    rw [← h4.1]
    obtain ⟨i1, i2⟩ := ih h3
    refine ⟨by simp [i1], ?_⟩
    intro p hp
    simp only [List.zip_cons_cons, List.mem_cons] at hp
    rcases hp with rfl | hp
    · exact hf _ _ _ _ h1
    · exact i2 p hp

theorem FromMap.keys_ok {m : FromMap} (h : match m with | .left m => m.Ok | .right m => m.Ok) : m.keys.Nodup ∧ ∀ p ∈ m.keys, p.norm = p := by
  cases m with
  | left m => exact ⟨h.nodup, fun p hp => PMap.Ok.key_norm h hp⟩
  | right m => exact ⟨h.nodup, fun p hp => PMap.Ok.key_norm h hp⟩

/-- **C51**: whatever is compared, in whatever state and iteration order: each list of the result is strictly ascending by path. -/
theorem C51_sorted (E : Env) (fs : Fs) (iter : Nat → List Path → List Path) (hi : IterOk iter) (n : Nat) (source : Target) (to : Option Key) (s s' : Db × Cache) (r : DiffResult)
    (h : compare E fs iter n source to s = (.ok r, s')) :
    (r.added.map (·.path)).Pairwise Path.lt ∧ (r.deleted.map (·.path)).Pairwise Path.lt ∧ (r.modified.map (·.path)).Pairwise Path.lt := by
  unfold compare at h
  obtain ⟨m, s1, hm, h⟩ := bind_ok h
  obtain ⟨B, s2, hB, h⟩ := bind_ok h
  obtain ⟨a, s3, ha, h⟩ := bind_ok h
  obtain ⟨d, s4, hd, h⟩ := bind_ok h
  obtain ⟨mo, s5, hmo, h⟩ := bind_ok h
  simp at h
  obtain ⟨rfl, _⟩ := h
  have okm : m.keys.Nodup ∧ ∀ p ∈ m.keys, p.norm = p := by
    apply FromMap.keys_ok
    cases source with
    | fileSystem path glob dbPath =>
      obtain ⟨x, s6, hx, hm⟩ := bind_ok hm
      simp at hm
      rw [← hm.1]
      rw [SM.lift_apply] at hx
      simp at hx
      exact walkReal_okMap hx.1
    | database key =>
      obtain ⟨x, s6, hx, hm⟩ := bind_ok hm
      simp at hm
      rw [← hm.1]
      rw [SM.read_apply] at hx
      simp at hx
      exact walkItemsFrom_okMap hx.1
  have okB : B.Ok := by
    cases to with
    | none => simp at hB; rw [hB.1]; exact PMap.ok_nil
    | some t =>
      simp only [SM.read_apply] at hB
      simp at hB
      exact walkItemsFrom_okMap hB.1
  have sub : ∀ (i : Nat) (l : List Path) (f : Path → Bool), l.Nodup → (∀ p ∈ l, p.norm = p) → (iter i (l.filter f)).Nodup ∧ ∀ p ∈ iter i (l.filter f), p.norm = p := by
    intro i l f h1 h2
    refine ⟨(hi i _).nodup_iff.mpr (h1.sublist List.filter_sublist), fun p hp => h2 p ?_⟩
    exact (List.mem_filter.mp ((hi i _).subset hp)).1
  refine ⟨?_, ?_, ?_⟩
  · have e := mapSM_ok_map (g := Added.path) (h := id) (fun x s b s' h => addedOf_path h) ha
    simp only [List.map_id] at e
    obtain ⟨g1, g2⟩ := sub 0 m.keys (fun x => !(B.map (·.1)).contains x) okm.1 okm.2
    refine sorted_paths Added.path (g := _) (lexLe_pre (pre_of bool_total.toTotalPre _) (pre_of opt_total.toTotalPre _)) (l := a) ?_ ?_
    · intro x hx
      exact g2 _ (e ▸ List.mem_map_of_mem hx)
    · show (a.map Added.path).Nodup
      rw [e]; exact g1
  · have e := mapSM_ok_map (g := Deleted.path) (h := id) (fun x s b s' h => by
      rw [SM.lift_apply] at h; simp at h; exact deletedOf_path h.1) hd
    simp only [List.map_id] at e
    obtain ⟨g1, g2⟩ := sub 1 (B.map (·.1)) (fun x => !m.keys.contains x) okB.nodup (fun p hp => okB.key_norm hp)
    refine sorted_paths Deleted.path (g := _) (lexLe_pre (pre_of bool_total.toTotalPre _) (pre_of opt_total.toTotalPre _)) (l := d) ?_ ?_
    · intro x hx
      exact g2 _ (e ▸ List.mem_map_of_mem hx)
    · show (d.map Deleted.path).Nodup
      rw [e]; exact g1
  · obtain ⟨e1, e2⟩ := mapSM_zip (P := fun x b => ∀ e, b = some e → e.path = x) (fun x s b s' h => modifiedOf_path h) hmo
    have e := filterMap_paths e1 e2
    obtain ⟨g1, g2⟩ := sub 2 m.keys (fun x => (B.map (·.1)).contains x) okm.1 okm.2
    refine sorted_paths Modified.path (g := _) (lexLe_pre (pre_of key_total.toTotalPre _) (pre_of key_total.toTotalPre _)) (l := mo.filterMap id) ?_ ?_
    · intro x hx
      exact g2 _ (e.subset (List.mem_map_of_mem hx))
    · exact g1.sublist e

/-- **C51**: the comparison of two stored trees does not depend on iteration orders at all. -/
theorem C51_database (E : Env) (fs : Fs) (iter iter' : Nat → List Path → List Path) (hi : IterOk iter) (hi' : IterOk iter') (n : Nat) (k : Key) (to : Option Key) (s : Db × Cache) :
    compare E fs iter n (.database k) to s = compare E fs iter' n (.database k) to s := by
  obtain ⟨db, ca⟩ := s
  cases hA : walkItems db n k with
  | ok A =>
    cases hB : toItems db n to with
    | ok B =>
      have hs := C51_sorted E fs iter hi n (.database k) to (db, ca) (db, ca)
      have hs' := C51_sorted E fs iter' hi' n (.database k) to (db, ca) (db, ca)
      rw [compare_db hi hA hB] at hs ⊢
      rw [compare_db hi' hA hB] at hs' ⊢
      split
      · rename_i hd
        rw [if_pos hd] at hs hs'
        have hs := hs _ rfl
        have hs' := hs' _ rfl
        refine congrArg (fun x => (Res.ok x, (db, ca))) ?_
        have e1 := ascending_unique Added.path hs.1 hs'.1 (fun a => by
          simp only [(sortBy_perm _ _).mem_iff, List.mem_map, (hi 0 _).mem_iff, (hi' 0 _).mem_iff])
        have e2 := ascending_unique Modified.path hs.2.2 hs'.2.2 (fun a => by
          simp only [(sortBy_perm _ _).mem_iff, List.mem_filterMap, (hi 2 _).mem_iff, (hi' 2 _).mem_iff])
        simp only at e1 e2
        rw [e1, e2]
      · rfl
    | _ =>
      cases to with
      | none => simp [toItems] at hB
      | some t =>
        simp only [toItems] at hB
        unfold compare
        simp only [SM.bind_apply, SM.read_apply, hA, hB, SM.pure_apply]
  | _ =>
    unfold compare
    simp only [SM.bind_apply, SM.read_apply, hA]

/-- **C51**: nor does what the comparison of a directory returns, under the conditions of C50. -/
theorem C51_directory (E : Env) (fs : Fs) (iter iter' : Nat → List Path → List Path) (hi : IterOk iter) (hi' : IterOk iter') (n : Nat) (path dbPath : Path) (glob : Path → Bool)
    (t : Option Key) (db : Db) (ca : Cache) (m : PMap Bool) (B : PMap (Key × Bool)) (hA : walkReal fs (makeFilter glob dbPath) n path = .ok m) (hB : toItems db n t = .ok B)
    (hdb : db.faults = []) (L : List (Fs × Path)) (hh : CacheRight E L ca) (hfa : Faithful E (L ++ looksAt fs path m))
    (hra : ∀ x, (x, false) ∈ m → (∀ v, (x, v) ∉ B) → ∃ k, keyAt E fs x = some k)
    (hrm : ∀ x v, (x, false) ∈ m → (x, v) ∈ B → ∃ k, keyAt E fs (Path.join path x) = some k) :
    (compare E fs iter n (.fileSystem path glob dbPath) t (db, ca)).1 = (compare E fs iter' n (.fileSystem path glob dbPath) t (db, ca)).1 := by
  have h1 := C50_exact E fs iter hi n path dbPath glob t db ca m B hA hB hdb L hh hfa hra hrm
  have h2 := C50_exact E fs iter' hi' n path dbPath glob t db ca m B hA hB hdb L hh hfa hra hrm
  by_cases hd : ∃ e ∈ B, ∀ v, (e.1, v) ∉ m
  · rw [h1.1 hd, h2.1 hd]
  · have hd : ∀ e ∈ B, ∃ v, (e.1, v) ∈ m := fun e he => Classical.byContradiction fun hc => hd ⟨e, he, fun v hv => hc ⟨v, hv⟩⟩
    obtain ⟨r, s, e, x, _⟩ := h1.2 hd
    obtain ⟨r', s', e', x', _⟩ := h2.2 hd
    have hs := C51_sorted E fs iter hi n _ t (db, ca) s r e
    have hs' := C51_sorted E fs iter' hi' n _ t (db, ca) s' r' e'
    rw [e, e']
    obtain ⟨rd, ra, rm⟩ := r
    obtain ⟨rd', ra', rm'⟩ := r'
    have e1 := ascending_unique Added.path hs.1 hs'.1 (fun a => (x.added a).trans (x'.added a).symm)
    have e2 := ascending_unique Modified.path hs.2.2 hs'.2.2 (fun a => (x.modified a).trans (x'.modified a).symm)
    have e3 := x.deleted
    have e4 := x'.deleted
    simp only at e1 e2 e3 e4
    rw [e1, e2, e3, e4]

end Snap.Props
