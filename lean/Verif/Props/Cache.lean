import Verif.Props.Walk
import Verif.Model.Cache
/-! Properties C56 (the cache) and C57 (`hash_fs_item`). -/
namespace Snap.Props
open Snap

/-! ### C56 -/

theorem leBytes_length (w n : Nat) : (leBytes w n).length = w := by
  induction w generalizing n with
  | zero => rfl
  | succ w ih => simp [leBytes, ih]

theorem leBytes_inj {w a b : Nat} (ha : a < 256 ^ w) (hb : b < 256 ^ w) (h : leBytes w a = leBytes w b) : a = b := by
  induction w generalizing a b with
  | zero => simp at ha hb; omega
  | succ w ih =>
    simp only [leBytes, List.cons.injEq] at h
    have h1 : a % 256 = b % 256 := by
      have := congrArg UInt8.toNat h.1
      simpa using this
    have h2 := ih (a := a / 256) (b := b / 256) (by rw [Nat.pow_succ] at ha; omega) (by rw [Nat.pow_succ] at hb; omega) h.2
    omega

/-- Different triples are stored under different bytes. -/
theorem CacheKey.bytes_inj {a b : CacheKey} (h : a.bytes = b.bytes) : a = b := by
  unfold CacheKey.bytes at h
  have h1 := List.append_inj h (by simp [leBytes_length])
  have h2 := List.append_inj h1.2 (by simp [leBytes_length])
  have lt : ∀ x : BitVec 64, x.toNat < 256 ^ 8 := fun x => by have := x.isLt; omega
  have e1 := leBytes_inj (lt _) (lt _) h1.1
  have e2 := leBytes_inj (lt _) (lt _) h2.1
  have e3 := leBytes_inj (lt _) (lt _) h2.2
  cases a; cases b
  simp only at e1 e2 e3
  rw [BitVec.toNat_inj] at e1 e2 e3
  simp [e1, e2, e3]

/-- **C56**: one put, for every cache, triple and key. A put that succeeds adds an entry for its triple if there is none, and does nothing else; a put that fails does
nothing. -/
theorem C56_put (c c' : Cache) (k : CacheKey) (v : Key) (r : Res Unit) (h : Cache.put k v c = (r, c')) (k' : CacheKey) :
    c'.get k' = if r = .ok () ∧ k' = k ∧ c.get k = .ok none then .ok (some v) else c.get k' := by
  unfold Cache.put at h
  split at h
  · simp at h
    obtain ⟨rfl, rfl⟩ := h
    simp; rfl
  · simp at h
    obtain ⟨rfl, rfl⟩ := h
    unfold Cache.get
    simp only [insertIgnore_assoc, true_and]
    by_cases hk : k' = k
    · subst hk
      cases ha : assoc c.rows k'.bytes with
      | some x =>
        simp only [Option.some_or, true_and]
        rw [if_neg]
        cases fromDbKey x <;> simp
      | none =>
        simp [fromDbKey_asDbKey]
    · rw [if_neg (fun e => hk (CacheKey.bytes_inj e).symm)]
      simp [hk]

/-- A history of puts. -/
def putAll : List (CacheKey × Key) → Cache → List (Res Unit) × Cache
  | [], c => ([], c)
  | p :: ps, c =>
    let r := Cache.put p.1 p.2 c
    let q := putAll ps r.2
    (r.1 :: q.1, q.2)

/-- **C56**: after any history of puts, an entry that was there is as before, and any other one is the first key successfully put for exactly this triple. -/
theorem C56_history (ps : List (CacheKey × Key)) (c : Cache) (k : CacheKey) :
    (putAll ps c).2.get k = match c.get k with
      | .ok none => .ok (((ps.zip (putAll ps c).1).find? fun e => decide (e.1.1 = k) && e.2.isOk).map fun e => e.1.2)
      | r => r := by
  induction ps generalizing c with
  | nil => simp only [putAll, List.zip_nil_left, List.find?_nil, Option.map_none]; cases h : c.get k with
    | ok a => cases a <;> rfl
    | _ => rfl
  | cons p ps ih =>
    simp only [putAll, List.zip_cons_cons, List.find?_cons]
    rw [ih]
    have h1 := C56_put c (Cache.put p.1 p.2 c).2 p.1 p.2 (Cache.put p.1 p.2 c).1 rfl k
    rw [h1]
    have hr : (Cache.put p.1 p.2 c).1 = .ok () ∨ (Cache.put p.1 p.2 c).1 = .err .sqlite := by
      unfold Cache.put; split <;> simp
    by_cases hk : k = p.1
    · subst hk
      rcases hr with hr | hr
      · rw [hr]
        cases hg : c.get p.1 with
        | ok a => cases a <;> simp [Res.isOk]
        | _ => simp
      · rw [hr]; simp [Res.isOk]
    · have : decide (p.1 = k) = false := by simp; exact fun e => hk e.symm
      simp [hk, this]

example : (putAll [(⟨1, 2, 3⟩, exH [1]), (⟨1, 3, 2⟩, exH [2]), (⟨1, 2, 3⟩, exH [3])] { faults := [true] }).2.get ⟨1, 2, 3⟩ = .ok (some (exH [3])) := by decide +kernel

/-! ### C57 -/

/-- The triple that identifies a file in the cache. -/
def tripleOf (c : Bytes) (md : FileMeta) : CacheKey := ⟨md.ino, md.mtime, BitVec.ofNat 64 c.length⟩

theorem hashFsItem_file {E : Env} {fs : Fs} {path : Path} {c : Bytes} {md : FileMeta} (hm : fs.metadata path = .ok (.file c md)) (s : Db × Cache) :
    hashFsItem E fs path s = match s.2.get (tripleOf c md) with
      | .ok (some k) => (.ok k, s)
      | .ok none => match putFile E path c s.1 with
        | (.ok k, db) => (.ok k, db, (Cache.put (tripleOf c md) k s.2).2)
        | (.err e, db) => (.err e, db, s.2)
        | (.panic, db) => (.panic, db, s.2)
        | (.fuel, db) => (.fuel, db, s.2)
      | .err e => (.err e, s)
      | .panic => (.panic, s)
      | .fuel => (.fuel, s) := by
  unfold hashFsItem
  simp only [SM.bind_apply, SM.lift_apply, hm]
  have hr : (SM.read (fun s : Db × Cache => s.2.get (tripleOf c md)) : SM (Db × Cache) _) s = (s.2.get (tripleOf c md), s) := rfl
  have hr' : (SM.read (fun s : Db × Cache => s.2.get ⟨md.ino, md.mtime, BitVec.ofNat 64 c.length⟩) : SM (Db × Cache) _) s = (s.2.get (tripleOf c md), s) := rfl
  rw [hr']
  cases s.2.get (tripleOf c md) with
  | ok o =>
    cases o with
    | some k => rfl
    | none =>
      simp only [SM.bind_apply, SM.fst]
      cases hp : putFile E path c s.1 with
      | mk r db => cases r <;> rfl
  | _ => rfl

/-- **C57**: with no entry for the file in the cache, `hash_fs_item` has the result of `put_fs_item` and stores the same objects, whatever writes fail, and remembers the
key. -/
theorem C57_miss (E : Env) (fs : Fs) (path : Path) (c : Bytes) (md : FileMeta) (hm : fs.metadata path = .ok (.file c md)) (filter : Filter) (n : Nat) (db : Db) (ca : Cache)
    (hg : ca.get (tripleOf c md) = .ok none) :
    ((hashFsItem E fs path (db, ca)).1, (hashFsItem E fs path (db, ca)).2.1) = putFsItem E fs filter (n + 1) path db ∧
    ∀ k, (hashFsItem E fs path (db, ca)).1 = .ok k → ca.faults = [] → (hashFsItem E fs path (db, ca)).2.2.get (tripleOf c md) = .ok (some k) := by
  have hp : putFsItem E fs filter (n + 1) path db = putFile E path c db := by
    unfold putFsItem
    simp only [SM.bind_apply, SM.lift_apply, hm]
  rw [hp, hashFsItem_file hm]
  simp only [hg]
  cases hpf : putFile E path c db with
  | mk r db' =>
    cases r with
    | ok k =>
      refine ⟨rfl, ?_⟩
      intro k' hk hf
      simp at hk
      subst hk
      dsimp only
      have := C56_put ca (Cache.put (tripleOf c md) k ca).2 (tripleOf c md) k (Cache.put (tripleOf c md) k ca).1 rfl (tripleOf c md)
      rw [this, if_pos]
      refine ⟨?_, rfl, hg⟩
      unfold Cache.put
      rw [hf]
    | _ => exact ⟨rfl, by simp⟩

/-- **C57**: with an entry the cached key is returned and nothing is stored, whatever the file contains now. -/
theorem C57_hit (E : Env) (fs : Fs) (path : Path) (c : Bytes) (md : FileMeta) (hm : fs.metadata path = .ok (.file c md)) (s : Db × Cache) (k : Key)
    (hg : s.2.get (tripleOf c md) = .ok (some k)) : hashFsItem E fs path s = (.ok k, s) := by
  rw [hashFsItem_file hm]; simp [hg]

/-- **C57**: anything that is not a regular file is refused. -/
theorem C57_non_file (E : Env) (fs : Fs) (path : Path) (s : Db × Cache) (e : Ent) (hm : fs.metadata path = .ok e) (he : ∀ c md, e ≠ .file c md) :
    hashFsItem E fs path s = (.err .nonFile, s) := by
  unfold hashFsItem
  simp only [SM.bind_apply, SM.lift_apply, hm]
  cases e with
  | file c md => exact absurd rfl (he c md)
  | _ => rfl

/-- States reached by hashing the listed files, one after the other, from an empty cache. In between the files may change in any way and the store may grow. -/
inductive Hist (E : Env) : List (Fs × Path) → Db × Cache → Prop
  | start (db : Db) (f : List Bool) : Hist E [] (db, ⟨[], f⟩)
  | hash {l s s'} (fs : Fs) (p : Path) (r : Res Key) : Hist E l s → hashFsItem E fs p s = (r, s') → Hist E (l ++ [(fs, p)]) s'
  | grow {l db ca} (db' : Db) : Hist E l (db, ca) → db.data <+: db'.data → Hist E l (db', ca)

/-- Whoever has the same triple has the same contents, and is read alike. -/
def Faithful (E : Env) (l : List (Fs × Path)) : Prop :=
  ∀ x ∈ l, ∀ y ∈ l, ∀ c md c' md', x.1.metadata x.2 = .ok (.file c md) → y.1.metadata y.2 = .ok (.file c' md') → tripleOf c md = tripleOf c' md' →
    c = c' ∧ Spec.smallReads (E.rd x.2 c) ∧ Spec.smallReads (E.rd y.2 c) ∧ Spec.delivered (E.rd x.2 c) = Spec.delivered (E.rd y.2 c) ∧ Spec.readFails (E.rd x.2 c) = Spec.readFails (E.rd y.2 c)

/-- Every cached key is one that was put for a listed file with this triple, and its objects are in the store. -/
def CacheOk (E : Env) (l : List (Fs × Path)) (s : Db × Cache) : Prop :=
  ∀ ck k, s.2.get ck = .ok (some k) → ∃ x ∈ l, ∃ c md, x.1.metadata x.2 = .ok (.file c md) ∧ tripleOf c md = ck ∧
    ∃ db db', putFile E x.2 c db = (.ok k, db') ∧ db'.data <+: s.1.data

theorem hist_cacheOk {E : Env} {l : List (Fs × Path)} {s : Db × Cache} (h : Hist E l s) : CacheOk E l s := by
  induction h with
  | start db f => intro ck k hg; simp [Cache.get, assoc] at hg
  | @hash l s s' fs p r h hh ih =>
    have mono : ∀ {s'' : Db × Cache}, s''.2 = s.2 → s.1.data <+: s''.1.data → CacheOk E (l ++ [(fs, p)]) s'' := by
      intro s'' e1 e2 ck k hg
      rw [e1] at hg
      obtain ⟨x, hx, c, md, h1, h2, db, db', h3, h4⟩ := ih ck k hg
      exact ⟨x, by simp [hx], c, md, h1, h2, db, db', h3, h4.trans e2⟩
    cases hm : fs.metadata p with
    | ok e =>
      by_cases he : ∃ c md, e = .file c md
      · obtain ⟨c, md, rfl⟩ := he
        rw [hashFsItem_file hm] at hh
        cases hg : s.2.get (tripleOf c md) with
        | ok o =>
          rw [hg] at hh
          cases o with
          | some k =>
            simp at hh
            rw [← hh.2]
            exact mono rfl (List.prefix_refl _)
          | none =>
            simp only at hh
            have gr := (isPuts_putFile E p c).grow s.1
            cases hp : putFile E p c s.1 with
            | mk rp db' =>
              rw [hp] at hh gr
              cases rp with
              | ok k =>
                simp at hh
                rw [← hh.2]
                intro ck k' hg'
                have hq := C56_put s.2 (Cache.put (tripleOf c md) k s.2).2 (tripleOf c md) k (Cache.put (tripleOf c md) k s.2).1 rfl ck
                dsimp only at hg'
                rw [hq] at hg'
                split at hg'
                · rename_i hc
                  simp at hg'
                  subst hg'
                  exact ⟨(fs, p), by simp, c, md, hm, hc.2.1.symm, s.1, db', hp, List.prefix_refl _⟩
                · exact mono (s'' := (db', s.2)) rfl gr.data ck k' hg'
              | _ =>
                simp at hh
                rw [← hh.2]
                exact mono rfl gr.data
        | _ =>
          rw [hg] at hh
          simp at hh
          rw [← hh.2]
          exact mono rfl (List.prefix_refl _)
      · rw [C57_non_file E fs p s e hm (fun c md hc => he ⟨c, md, hc⟩)] at hh
        simp at hh
        rw [← hh.2]
        exact mono rfl (List.prefix_refl _)
    | _ =>
      unfold hashFsItem at hh
      simp only [SM.bind_apply, SM.lift_apply, hm] at hh
      simp at hh
      rw [← hh.2]
      exact mono rfl (List.prefix_refl _)
  | @grow l db ca db' h hd ih =>
    intro ck k hg
    obtain ⟨x, hx, c, md, h1, h2, d, d', h3, h4⟩ := ih ck k hg
    exact ⟨x, hx, c, md, h1, h2, d, d', h3, h4.trans hd⟩

/-- **C57**: in any history of hashing files from an empty cache in which files with the same inode, mtime and size have the same contents, the key returned is the one
`put_fs_item` returns for the file (on any healthy store), and all objects it would store are stored. -/
theorem C57_history (E : Env) (l : List (Fs × Path)) (s s' : Db × Cache) (h : Hist E l s) (fs : Fs) (p : Path) (k : Key) (hh : hashFsItem E fs p s = (.ok k, s'))
    (hf : Faithful E (l ++ [(fs, p)])) (filter : Filter) (n : Nat) :
    (∀ db : Db, db.faults = [] → (putFsItem E fs filter (n + 1) p db).1 = .ok k) ∧ (putFsItem E fs filter (n + 1) p s'.1).2.data = s'.1.data := by
  have hok := hist_cacheOk (Hist.hash fs p (.ok k) h hh)
  have key : ∃ c md, fs.metadata p = .ok (.file c md) ∧ ∃ db db', putFile E p c db = (.ok k, db') ∧ db'.data <+: s'.1.data := by
    cases hm : fs.metadata p with
    | ok e =>
      by_cases he : ∃ c md, e = .file c md
      · obtain ⟨c, md, rfl⟩ := he
        refine ⟨c, md, rfl, ?_⟩
        rw [hashFsItem_file hm] at hh
        cases hg : s.2.get (tripleOf c md) with
        | ok o =>
          rw [hg] at hh
          cases o with
          | some k' =>
            simp at hh
            obtain ⟨rfl, rfl⟩ := hh
            obtain ⟨x, hx, c', md', h1, h2, db, db', h3, h4⟩ := hist_cacheOk h (tripleOf c md) k' hg
            obtain ⟨rfl, e2, e3, e4, e5⟩ := hf (fs, p) (by simp) x (by simp [hx]) c md c' md' hm h1 h2.symm
            refine ⟨db, db', ?_, h4⟩
            rw [← h3]
            unfold putFile
            simp only [SM.bind_apply]
            rw [C25_small_reads E.table E.H _ _ e2 e3 e4 e5]
          | none =>
            simp only at hh
            cases hp : putFile E p c s.1 with
            | mk rp db' =>
              rw [hp] at hh
              cases rp with
              | ok k' =>
                simp at hh
                obtain ⟨rfl, rfl⟩ := hh
                exact ⟨s.1, db', hp, List.prefix_refl _⟩
              | _ => simp at hh
        | _ => rw [hg] at hh; simp at hh
      · rw [C57_non_file E fs p s e hm (fun c md hc => he ⟨c, md, hc⟩)] at hh
        simp at hh
    | _ =>
      unfold hashFsItem at hh
      simp only [SM.bind_apply, SM.lift_apply, hm] at hh
      simp at hh
  obtain ⟨c, md, hm, db, db', hp, hd⟩ := key
  have hpf : ∀ db, putFsItem E fs filter (n + 1) p db = putFile E p c db := by
    intro db
    unfold putFsItem
    simp only [SM.bind_apply, SM.lift_apply, hm]
  obtain ⟨ws, r, hx⟩ := isPuts_putFile E p c
  have hr : r = .ok k := by
    have := execPuts_result E.H ws r db
    rw [← hx, hp] at this
    rcases this with h | h
    · exact h.symm
    · simp at h
  subst hr
  refine ⟨fun d hd => ?_, ?_⟩
  · rw [hpf, hx]; exact (execPuts_nofault E.H ws _ d hd).1
  · rw [hpf, hx]
    refine execPuts_again E.H ws _ _ fun w hw => ?_
    obtain ⟨row, hrow, he⟩ := execPuts_present E.H ws _ k db db' (by rw [← hx]; exact hp) w hw
    exact ⟨row, hd.subset hrow, he⟩

/-- **C57**, the condition is needed: a file overwritten within a second by contents of the same size is given the key of its old contents. -/
theorem C57_stale_counterexample (E : Env) (fs fs' : Fs) (p : Path) (c c' : Bytes) (md : FileMeta) (hm : fs.metadata p = .ok (.file c md))
    (hm' : fs'.metadata p = .ok (.file c' md)) (hl : c.length = c'.length) (db : Db) (ca : Cache) (hf : ca.faults = []) (hg : ca.get (tripleOf c md) = .ok none)
    (k : Key) (s : Db × Cache) (h : hashFsItem E fs p (db, ca) = (.ok k, s)) : hashFsItem E fs' p s = (.ok k, s) := by
  have ht : tripleOf c' md = tripleOf c md := by unfold tripleOf; rw [hl]
  refine C57_hit E fs' p c' md hm' s k ?_
  have := (C57_miss E fs p c md hm (fun _ _ => .ok true) 0 db ca hg).2 k (by rw [h]) hf
  rw [h] at this
  rw [ht]; exact this

/-- the file `/s/a` of `exFs` is hashed; then its bytes `1 2` become `7 7` with the same inode, time and size -/
example : (match hashFsItem exEnv exFs [47, 115, 47, 97] ({}, {}) with
    | (.ok k, s) => (putFsItem exEnv exFs (fun _ _ => .ok true) 1 [47, 115, 47, 97] {}).1 == .ok k &&
        (hashFsItem exEnv { ents := [([[115]], .dir), ([[115], [97]], .file [7, 7] ⟨7, 8⟩)] } [47, 115, 47, 97] s).1 == .ok k
    | _ => false) = true := by decide +kernel
example : Hist exEnv [] ({}, {}) := Hist.start _ _
example : Faithful exEnv ([] ++ [(exFs, [47, 115, 47, 97])]) := by
  intro x hx y hy c md c' md' h1 h2 h3
  simp at hx hy
  subst hx; subst hy
  rw [h1] at h2
  simp at h2
  have hc : c = [1, 2] := by
    have : exFs.metadata [47, 115, 47, 97] = .ok (.file [1, 2] ⟨7, 8⟩) := by decide +kernel
    rw [this] at h1; simp at h1; exact h1.1.symm
  subst hc
  refine ⟨h2.1, ?_, ?_, rfl, rfl⟩ <;> simp [exEnv, Spec.smallReads]

end Snap.Props
