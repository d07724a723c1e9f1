import Verif.Props.Clean
import Verif.Props.Live
import Verif.Props.Status
/-! C95: comparing files that change meanwhile. -/
namespace Snap.Props
open Snap
set_option linter.unusedSectionVars false
variable [Serde] [LawfulSerde]

namespace Spec

/-- The answers of an operating system whose files are as `hist t` says when question `t` is asked. What a read returns is that of the file when it was opened. -/
def moving (E : Env) (hist : Nat → Fs) (filter : Filter) : Sights :=
  { during E hist filter with
    opened := fun t p => ((hist t).metadata p).bind fun
      | .file c md => .ok (tripleOf c md, E.rd p c)
      | _ => .err .io }

/-- Nobody changes the files. -/
def resting (E : Env) (fs : Fs) (filter : Filter) : Sights := moving E (fun _ => fs) filter

/-- The key of a file found with this length, of which these reads came. -/
def keyOf (E : Env) (evs : List ReadEv) (len : Nat) : Res Key := (putRead E evs len {}).1

/-- From question `lo` on and before question `hi`, some file was opened whose inode, time and size are `ck`, and `k` is the key of what was read, with the length that was found before. -/
def Entered (E : Env) (A : Sights) (lo hi : Nat) (ck : CacheKey) (k : Key) : Prop :=
  ∃ t p len evs, lo ≤ t ∧ t + 1 < hi ∧ A.stat t p = .ok (.file len) ∧ A.opened (t + 1) p = .ok (ck, evs) ∧ keyOf E evs len = .ok k

/-- From question `lo` on and before question `hi`, the file `p` was looked at and taken to have the key `k`: that in the cache, if there is one, and else that of what was read. -/
def Saw (E : Env) (A : Sights) (ca : Cache) (lo hi : Nat) (p : Path) (k : Key) : Prop :=
  ∃ t len ck evs, lo ≤ t ∧ t + 1 < hi ∧ A.stat t p = .ok (.file len) ∧ A.opened (t + 1) p = .ok (ck, evs) ∧
    (ca.get ck = .ok (some k) ∨ ca.get ck = .ok none ∧ Entered E A lo hi ck k)

/-- A path in the listing was, when it was listed, a directory or a file. -/
def Listed (A : Sights) (base : Path) (lo hi : Nat) (x : Path) (dir : Bool) : Prop :=
  ∃ p t, x = Path.norm p ∧ lo ≤ t ∧ t < hi ∧ if dir = true then A.stat t (Path.join base p) = .ok .dir else ∃ len, A.stat t (Path.join base p) = .ok (.file len)

/-- What is reported, given the listing `m` and the stored tree `B`. -/
structure Reported (E : Env) (A : Sights) (ca : Cache) (lo hi : Nat) (base : Path) (m : List (Path × Bool)) (B : List (Path × Key × Bool)) (r : DiffResult) : Prop where
  added : ∀ e ∈ r.added, (e.path, e.isDir) ∈ m ∧ (∀ v, (e.path, v) ∉ B) ∧ (e.isDir = true → e.newKey = none) ∧ (e.isDir = false → ∃ k, e.newKey = some k ∧ Saw E A ca lo hi e.path k)
  allAdded : ∀ x d, (x, d) ∈ m → (∀ v, (x, v) ∉ B) → ∃ e ∈ r.added, e.path = x
  modified : ∀ e ∈ r.modified, (e.path, false) ∈ m ∧ (∃ d, (e.path, e.originalKey, d) ∈ B) ∧ e.newKey ≠ e.originalKey ∧ Saw E A ca lo hi (Path.join base e.path) e.newKey
  allModified : ∀ x k d, (x, false) ∈ m → (x, k, d) ∈ B → ∃ k', Saw E A ca lo hi (Path.join base x) k' ∧ (k' = k ∨ ⟨x, k, k'⟩ ∈ r.modified)
  deleted : r.deleted = [] ∧ ∀ e ∈ B, ∃ d, (e.1, d) ∈ m

end Spec

/-! ### Files that nobody changes -/

/-- The same apart from the questions asked. -/
def Asks {σ α} (x : SM (σ × Nat) α) (y : SM σ α) : Prop := ∀ s t, ∃ t', x (s, t) = ((y s).1, ((y s).2, t'))

section
variable {σ α β : Type}

theorem asks_bind {x : SM (σ × Nat) α} {y : SM σ α} {f : α → SM (σ × Nat) β} {g : α → SM σ β} (hx : Asks x y) (hf : ∀ a, Asks (f a) (g a)) : Asks (x >>= f) (y >>= g) := by
  intro s t
  obtain ⟨t1, h1⟩ := hx s t
  rw [SM.bind_apply, SM.bind_apply, h1]
  cases y s with
  | mk r s' =>
    cases r with
    | ok a => exact hf a s' t1
    | _ => exact ⟨t1, rfl⟩

theorem asks_lift (r : Res α) : Asks (SM.lift r : SM (σ × Nat) α) (SM.lift r) := fun _ t => ⟨t, rfl⟩
theorem asks_pure (a : α) : Asks (pure a : SM (σ × Nat) α) (pure a) := fun _ t => ⟨t, rfl⟩
theorem asks_read (f : σ → Res α) : Asks (SM.read (fun s : σ × Nat => f s.1)) (SM.read f) := fun _ t => ⟨t, rfl⟩
theorem asks_inquire {f : Nat → Res α} {r : Res α} (h : ∀ t, f t = r) : Asks (inquire f : SM (σ × Nat) α) (SM.lift r) := fun s t => ⟨t + 1, by rw [inquire_apply, h]; rfl⟩
theorem asks_fst (x : SM σ α) : Asks (SM.fst x : SM (σ × Nat) α) x := fun _ t => ⟨t, rfl⟩
theorem asks_unwrap {x : SM (σ × Nat) α} {y : SM σ α} (h : Asks x y) : Asks (SM.unwrap x) (SM.unwrap y) := by
  intro s t
  obtain ⟨t1, h1⟩ := h s t
  refine ⟨t1, ?_⟩
  unfold SM.unwrap
  rw [h1]
theorem asks_mapSM {f : α → SM (σ × Nat) β} {g : α → SM σ β} (h : ∀ a, Asks (f a) (g a)) (l : List α) : Asks (mapSM f l) (mapSM g l) := by
  induction l with
  | nil => exact asks_pure _
  | cons a l ih => exact asks_bind (h a) fun b => asks_bind ih fun r => asks_pure _
theorem asks_congr {x : SM (σ × Nat) α} {y z : SM σ α} (h : Asks x y) (e : ∀ s, z s = y s) : Asks x z := by
  have : z = y := funext e
  rw [this]; exact h

theorem lift_bind (r : Res α) (f : α → Res β) : ∀ s : σ, (SM.lift (r >>= f) : SM σ β) s = ((SM.lift r : SM σ α) >>= fun a => SM.lift (f a)) s := by
  intro s
  cases r <;> rfl

end

section
variable {E : Env} {fs : Fs} {filter : Filter}

theorem resting_stat (t : Nat) (p : Path) : (Spec.resting E fs filter).stat t p = (fs.metadata p).bind fun
    | .dir => .ok .dir
    | .file c _ => .ok (.file c.length)
    | _ => .ok .other := rfl
theorem resting_list (t : Nat) (p : Path) : (Spec.resting E fs filter).list t p = (fs.readDir p).bind fun l => .ok (l.map some) := rfl
theorem resting_take (t : Nat) (p : Path) : (Spec.resting E fs filter).take t p = filter fs p := rfl
theorem resting_opened (t : Nat) (p : Path) : (Spec.resting E fs filter).opened t p = (fs.metadata p).bind fun
    | .file c md => .ok (tripleOf c md, E.rd p c)
    | _ => .err .io := rfl

theorem asks_walk {σ} (base : Path) (n : Nat) (path : Path) : Asks (σ := σ) (walkLive (Spec.resting E fs filter) base n path) (SM.lift (walkRealFrom fs filter base n path)) := by
  have he : ∀ (rec : Path → SM (σ × Nat) (PMap Bool)) (rec' : Path → Res (PMap Bool)), (∀ p, Asks (rec p) (SM.lift (rec' p))) → ∀ curr path l m,
      Asks (walkLiveEntries (Spec.resting E fs filter) rec curr path m (l.map some)) (SM.lift (walkRealEntries fs filter rec' curr path m l)) := by
    intro rec rec' hrec curr path l
    induction l with
    | nil => exact fun m => asks_pure _
    | cons nm l ih =>
      intro m
      refine asks_congr (asks_bind (asks_inquire fun t => resting_take t _) (g := fun b => SM.lift (if b = true then rec' (Path.join path nm) >>= fun r =>
        walkRealEntries fs filter rec' curr path (PMap.extend m r) l else walkRealEntries fs filter rec' curr path m l)) fun b => ?_) (lift_bind _ _)
      cases b
      · exact ih m
      · exact asks_congr (asks_bind (hrec _) fun r => ih _) (lift_bind _ _)
  induction n generalizing path with
  | zero => exact asks_lift _
  | succ n ih =>
    intro s t
    simp only [walkLive, walkRealFrom]
    rw [SM.bind_apply, inquire_apply, resting_stat]
    cases hm : fs.metadata (Path.join base path) with
    | ok e =>
      cases e with
      | dir =>
        simp only [Res.bind, Res.ok_bind]
        rw [SM.bind_apply, inquire_apply, resting_list]
        cases hr : fs.readDir (Path.join base path) with
        | ok l =>
          simp only [Res.bind, Res.ok_bind]
          exact he _ _ ih _ _ l _ s _
        | _ => exact ⟨_, rfl⟩
      | file c md => exact ⟨_, rfl⟩
      | special => exact ⟨_, rfl⟩
      | broken => exact ⟨_, rfl⟩
    | _ => exact ⟨_, rfl⟩

theorem asks_hash (p : Path) : Asks (hashLive E (Spec.resting E fs filter) p) (hashFsItem E fs p) := by
  intro s t
  unfold hashLive hashFsItem
  rw [SM.bind_apply, inquire_apply, resting_stat, SM.bind_apply, SM.lift_apply]
  cases hm : fs.metadata p with
  | ok e =>
    cases e with
    | file c md =>
      simp only [Res.bind]
      rw [SM.bind_apply, inquire_apply, resting_opened, hm]
      simp only [Res.bind]
      exact asks_bind (y := SM.read (fun s : Db × Cache => s.2.get (tripleOf c md))) (asks_read _) (fun o => by
        cases o with
        | some h => exact asks_pure _
        | none => exact asks_bind (y := SM.fst (putFile E p c)) (asks_fst _) fun k => asks_bind (asks_fst _) fun _ => asks_pure _) s _
    | _ => exact ⟨_, rfl⟩
  | _ => exact ⟨_, rfl⟩

theorem asks_compare (glob : Path → Bool) (dbPath : Path) (iter : Nat → List Path → List Path) (n : Nat) (base : Path) (to : Option Key) :
    Asks (compareLive E (Spec.resting E fs (makeFilter glob dbPath)) iter n base to) (compare E fs iter n (.fileSystem base glob dbPath) to) := by
  unfold compareLive compare
  refine asks_congr (asks_bind (asks_walk base n []) (g := fun m => _) fun m => asks_bind (y := match to with
    | some t => SM.read (fun s : Db × Cache => walkItems s.1 n t)
    | none => pure []) ?_ fun toMap => asks_bind (asks_mapSM (g := addedOf E fs (.left m)) (fun x => ?_) _) fun added => asks_bind (asks_mapSM (fun x => asks_lift _) _) fun deleted =>
      asks_bind (asks_mapSM (g := modifiedOf E fs (.left m) base toMap) (fun x => ?_) _) fun modified => asks_pure _) ?_
  · cases to with
    | some t => exact asks_read (fun s : Db × Cache => walkItems s.1 n t)
    | none => exact asks_pure _
  · intro s t
    unfold addedLive addedOf
    have hd : (FromMap.left m).isDir x = match m.get x with | some b => .ok b | none => .panic := rfl
    rw [SM.bind_apply, SM.lift_apply, SM.bind_apply]
    simp only
    rw [SM.bind_apply, SM.lift_apply]
    cases hg : m.get x with
    | none => simp only [hd, hg]; exact ⟨_, rfl⟩
    | some b =>
      simp only [hd, hg]
      cases b with
      | true => exact ⟨_, rfl⟩
      | false =>
        obtain ⟨t1, h1⟩ := asks_unwrap (asks_hash (E := E) (fs := fs) (filter := makeFilter glob dbPath) x) s t
        simp only [Bool.false_eq_true, if_false]
        rw [SM.bind_apply, SM.bind_apply, h1]
        cases SM.unwrap (hashFsItem E fs x) s with
        | mk r s' => cases r <;> exact ⟨t1, by first | rfl | (simp only [SM.pure_apply, SM.bind_apply, SM.lift_apply, hd, hg])⟩
  · intro s t
    unfold modifiedLive modifiedOf
    have hd : (FromMap.left m).isDir x = match m.get x with | some b => .ok b | none => .panic := rfl
    rw [SM.bind_apply, SM.lift_apply, SM.bind_apply]
    simp only
    cases hg : m.get x with
    | none => simp only [hd, hg]; exact ⟨_, rfl⟩
    | some b =>
      simp only [hd, hg]
      cases b with
      | true => exact ⟨_, rfl⟩
      | false =>
        obtain ⟨t1, h1⟩ := asks_hash (E := E) (fs := fs) (filter := makeFilter glob dbPath) (Path.join base x) s t
        simp only [Bool.false_eq_true, if_false]
        rw [SM.bind_apply, SM.bind_apply, h1]
        cases hashFsItem E fs (Path.join base x) s with
        | mk r s' =>
          cases r with
          | ok k =>
            simp only [SM.pure_apply]
            cases toMap.get x <;> exact ⟨t1, rfl⟩
          | _ => exact ⟨t1, rfl⟩
  · intro s
    show (((SM.lift (walkReal fs (makeFilter glob dbPath) n base) : SM (Db × Cache) _) >>= fun m => pure (FromMap.left m)) >>= _) s = (SM.lift (walkRealFrom fs (makeFilter glob dbPath) base n []) >>= _) s
    rw [SM.bind_apply, SM.bind_apply, SM.bind_apply, SM.lift_apply, SM.lift_apply]
    unfold walkReal
    cases walkRealFrom fs (makeFilter glob dbPath) base n [] <;> rfl

end

/-! ### What is reported -/

theorem keyOf_of_put {E : Env} {evs : List ReadEv} {len : Nat} {k : Key} {d d' : Db} (h : putRead E evs len d = (.ok k, d')) : Spec.keyOf E evs len = .ok k := by
  obtain ⟨ws, r, hx⟩ := isPuts_putRead E evs len
  have h1 := execPuts_result E.H ws r d
  rw [← hx, h] at h1
  rcases h1 with h1 | h1
  · simp only at h1
    subst h1
    unfold Spec.keyOf
    rw [hx]
    exact (execPuts_nofault E.H ws _ {} rfl).1
  · simp at h1

theorem Spec.Entered.mono {E : Env} {A : Sights} {lo hi hi' : Nat} {ck : CacheKey} {k : Key} (h : Spec.Entered E A lo hi ck k) (hh : hi ≤ hi') : Spec.Entered E A lo hi' ck k := by
  obtain ⟨t, p, len, evs, h1, h2, h3⟩ := h
  exact ⟨t, p, len, evs, h1, Nat.lt_of_lt_of_le h2 hh, h3⟩

theorem Spec.Saw.mono {E : Env} {A : Sights} {ca : Cache} {lo hi hi' : Nat} {p : Path} {k : Key} (h : Spec.Saw E A ca lo hi p k) (hh : hi ≤ hi') : Spec.Saw E A ca lo hi' p k := by
  obtain ⟨t, len, ck, evs, h1, h2, h3, h4, h5⟩ := h
  refine ⟨t, len, ck, evs, h1, Nat.lt_of_lt_of_le h2 hh, h3, h4, ?_⟩
  rcases h5 with h5 | ⟨h5, h6⟩
  · exact .inl h5
  · exact .inr ⟨h5, h6.mono hh⟩

/-- The cache during a comparison that began with `ca` and question `lo`. -/
def Since (E : Env) (A : Sights) (ca : Cache) (lo : Nat) (s : (Db × Cache) × Nat) : Prop :=
  lo ≤ s.2 ∧ ∀ ck, s.1.2.get ck = ca.get ck ∨ ca.get ck = .ok none ∧ ∃ k, s.1.2.get ck = .ok (some k) ∧ Spec.Entered E A lo s.2 ck k

theorem since_visit {E : Env} {A : Sights} {ca : Cache} {lo : Nat} {p : Path} {s s' : (Db × Cache) × Nat} {k : Key} (hI : Since E A ca lo s) (h : hashLive E A p s = (.ok k, s')) :
    Since E A ca lo s' ∧ s.2 ≤ s'.2 ∧ Spec.Saw E A ca lo s'.2 p k := by
  obtain ⟨⟨db, c0⟩, t⟩ := s
  obtain ⟨⟨db', c1⟩, t'⟩ := s'
  obtain ⟨hlo, hI⟩ := hI
  simp only at hlo hI
  obtain ⟨len, ck, evs, h1, h2, rfl, h3⟩ := hashLive_ok h
  have hE : ∀ {ck k}, Spec.Entered E A lo t ck k → Spec.Entered E A lo (t + 2) ck k := fun h => h.mono (by omega)
  rcases h3 with ⟨h3, rfl, rfl⟩ | ⟨h3, h4, rfl⟩
  · refine ⟨⟨by simp only; omega, fun ck => ?_⟩, by simp only; omega, t, len, ck, evs, hlo, by simp only; omega, h1, h2, ?_⟩
    · rcases hI ck with h | ⟨h, k, h', h''⟩
      · exact .inl h
      · exact .inr ⟨h, k, h', hE h''⟩
    · rcases hI ck with h | ⟨h, k', h', h''⟩
      · exact .inl (h ▸ h3)
      · rw [h3] at h'
        simp only [Res.ok.injEq, Option.some.injEq] at h'
        subst h'
        exact .inr ⟨h, hE h''⟩
  · have hn : Spec.Entered E A lo (t + 2) ck k := ⟨t, p, len, evs, hlo, by omega, h1, h2, keyOf_of_put h4⟩
    have h0 : ca.get ck = .ok none := by
      rcases hI ck with h | ⟨h, _⟩
      · rw [← h]; exact h3
      · exact h
    refine ⟨⟨by simp only; omega, fun ck' => ?_⟩, by simp only; omega, t, len, ck, evs, hlo, by simp only; omega, h1, h2, .inr ⟨h0, hn⟩⟩
    have hq := C56_put c0 (Cache.put ck k c0).2 ck k (Cache.put ck k c0).1 rfl ck'
    simp only at hq ⊢
    rw [hq]
    split
    · rename_i hc
      obtain ⟨_, rfl, _⟩ := hc
      exact .inr ⟨h0, k, rfl, hn⟩
    · rcases hI ck' with h | ⟨h, k, h', h''⟩
      · exact .inl h
      · exact .inr ⟨h, k, h', hE h''⟩

theorem mapSM_visits {σ α β} {f : α → SM (σ × Nat) β} {I : σ × Nat → Prop} {P : α → β → Nat → Prop} (hm : ∀ x b t t', t ≤ t' → P x b t → P x b t') {l : List α}
    (hf : ∀ x ∈ l, ∀ s b s', I s → f x s = (.ok b, s') → I s' ∧ s.2 ≤ s'.2 ∧ P x b s'.2) {s s' : σ × Nat} {r : List β} (hI : I s) (hr : mapSM f l s = (.ok r, s')) :
    I s' ∧ s.2 ≤ s'.2 ∧ (∀ b ∈ r, ∃ x ∈ l, P x b s'.2) ∧ ∀ x ∈ l, ∃ b ∈ r, P x b s'.2 := by
  induction l generalizing s r with
  | nil =>
    simp only [mapSM, SM.pure_apply, Prod.mk.injEq, Res.ok.injEq] at hr
    obtain ⟨rfl, rfl⟩ := hr
    exact ⟨hI, Nat.le_refl _, by simp, by simp⟩
  | cons a l ih =>
    unfold mapSM at hr
    obtain ⟨b, s1, h1, h2⟩ := bind_ok hr
    obtain ⟨bs, s2, h3, h4⟩ := bind_ok h2
    simp only [SM.pure_apply, Prod.mk.injEq, Res.ok.injEq] at h4
    obtain ⟨rfl, rfl⟩ := h4
    obtain ⟨i1, t1, p1⟩ := hf a (by simp) _ _ _ hI h1
    obtain ⟨i2, t2, p2, p3⟩ := ih (fun x hx => hf x (by simp [hx])) i1 h3
    refine ⟨i2, Nat.le_trans t1 t2, ?_, ?_⟩
    · intro c hc
      rcases List.mem_cons.mp hc with rfl | hc
      · exact ⟨a, by simp, hm _ _ _ _ t2 p1⟩
      · obtain ⟨x, hx, h⟩ := p2 c hc
        exact ⟨x, by simp [hx], h⟩
    · intro x hx
      rcases List.mem_cons.mp hx with rfl | hx
      · exact ⟨b, by simp, hm _ _ _ _ t2 p1⟩
      · obtain ⟨c, hc, h⟩ := p3 x hx
        exact ⟨c, by simp [hc], h⟩

theorem PMap.mem_insert {α} {m : PMap α} {p : Path} {a : α} {e : Path × α} (h : e ∈ PMap.insert m p a) : e ∈ m ∨ e = (p.norm, a) := by
  unfold PMap.insert at h
  split at h
  · obtain ⟨x, hx, rfl⟩ := List.mem_map.mp h
    split
    · exact .inr rfl
    · exact .inl hx
  · simpa using h

theorem PMap.mem_extend {α} {m m' : PMap α} (hn : ∀ e ∈ m', Path.norm e.1 = e.1) {e : Path × α} (h : e ∈ PMap.extend m m') : e ∈ m ∨ e ∈ m' := by
  unfold PMap.extend at h
  induction m' generalizing m with
  | nil => exact .inl h
  | cons x m' ih =>
    rcases ih (fun e he => hn e (by simp [he])) h with h | h
    · rcases PMap.mem_insert h with h | h
      · exact .inl h
      · rw [hn x (by simp)] at h
        exact .inr (by simp [h])
    · exact .inr (by simp [h])

theorem Spec.Listed.mono {A : Sights} {base : Path} {lo hi lo' hi' : Nat} {x : Path} {d : Bool} (h : Spec.Listed A base lo hi x d) (h1 : lo' ≤ lo) (h2 : hi ≤ hi') : Spec.Listed A base lo' hi' x d := by
  obtain ⟨p, t, a, b, c, e⟩ := h
  exact ⟨p, t, a, Nat.le_trans h1 b, Nat.lt_of_lt_of_le c h2, e⟩

/-- What a walk that ends well found. -/
theorem walk_found {σ} {A : Sights} {base : Path} {n : Nat} {path : Path} {s s' : σ × Nat} {m : PMap Bool} (h : walkLive A base n path s = (.ok m, s')) :
    m.Ok ∧ s.2 ≤ s'.2 ∧ ∀ e ∈ m, Spec.Listed A base s.2 s'.2 e.1 e.2 := by
  have he : ∀ (rec : Path → SM (σ × Nat) (PMap Bool)), (∀ p s s' m, rec p s = (.ok m, s') → m.Ok ∧ s.2 ≤ s'.2 ∧ ∀ e ∈ m, Spec.Listed A base s.2 s'.2 e.1 e.2) → ∀ curr path l m0 lo (s s' : σ × Nat) m,
      m0.Ok → lo ≤ s.2 → (∀ e ∈ m0, Spec.Listed A base lo s.2 e.1 e.2) → walkLiveEntries A rec curr path m0 l s = (.ok m, s') → m.Ok ∧ s.2 ≤ s'.2 ∧ ∀ e ∈ m, Spec.Listed A base lo s'.2 e.1 e.2 := by
    intro rec hrec curr path l
    induction l with
    | nil =>
      intro m0 lo s s' m h0 hlo hl h
      simp only [walkLiveEntries, SM.pure_apply, Prod.mk.injEq, Res.ok.injEq] at h
      obtain ⟨rfl, rfl⟩ := h
      exact ⟨h0, Nat.le_refl _, hl⟩
    | cons a l ih =>
      intro m0 lo s s' m h0 hlo hl h
      cases a with
      | none => simp [walkLiveEntries, SM.throw] at h
      | some nm =>
        unfold walkLiveEntries at h
        obtain ⟨b, s1, h1, h2⟩ := bind_ok h
        rw [inquire_apply] at h1
        simp only [Prod.mk.injEq] at h1
        obtain ⟨_, rfl⟩ := h1
        cases b with
        | false =>
          simp only [Bool.false_eq_true, if_false] at h2
          obtain ⟨i1, i2, i3⟩ := ih m0 lo _ _ _ h0 (by simp only; omega) (fun e he => (hl e he).mono (Nat.le_refl _) (by simp only; omega)) h2
          exact ⟨i1, by simp only at i2; omega, i3⟩
        | true =>
          simp only [if_true] at h2
          obtain ⟨r, s2, h3, h4⟩ := bind_ok h2
          obtain ⟨j1, j2, j3⟩ := hrec _ _ _ _ h3
          simp only at j2 j3
          obtain ⟨i1, i2, i3⟩ := ih _ lo _ _ _ (PMap.extend_ok h0 r) (by omega) (fun e he => by
            rcases PMap.mem_extend j1.norm he with he | he
            · exact (hl e he).mono (Nat.le_refl _) (by omega)
            · exact (j3 e he).mono (by omega) (Nat.le_refl _)) h4
          exact ⟨i1, by omega, i3⟩
  induction n generalizing path s s' m with
  | zero => simp [walkLive] at h
  | succ n ih =>
    unfold walkLive at h
    obtain ⟨x, s1, h1, h2⟩ := bind_ok h
    rw [inquire_apply] at h1
    simp only [Prod.mk.injEq] at h1
    obtain ⟨h1, rfl⟩ := h1
    cases x with
    | dir =>
      simp only at h2
      obtain ⟨names, s2, h3, h4⟩ := bind_ok h2
      rw [inquire_apply] at h3
      simp only [Prod.mk.injEq] at h3
      obtain ⟨_, rfl⟩ := h3
      obtain ⟨i1, i2, i3⟩ := he _ (fun p s s' m h => ih h) _ _ _ _ s.2 _ _ _ (by
        split
        · exact PMap.ok_nil
        · exact PMap.insert_ok PMap.ok_nil _ _) (by simp only; omega) (fun e he => by
        split at he
        · simp at he
        · rcases PMap.mem_insert he with he | he
          · simp at he
          · rw [he]
            exact ⟨path, s.2, rfl, Nat.le_refl _, by simp only; omega, h1⟩) h4
      exact ⟨i1, by simp only at i2; omega, i3⟩
    | file len =>
      simp only [SM.pure_apply, Prod.mk.injEq, Res.ok.injEq] at h2
      obtain ⟨rfl, rfl⟩ := h2
      refine ⟨PMap.insert_ok PMap.ok_nil _ _, by simp only; omega, fun e he => ?_⟩
      rcases PMap.mem_insert he with he | he
      · simp at he
      · rw [he]
        exact ⟨path, s.2, rfl, Nat.le_refl _, by simp only; omega, len, h1⟩
    | other => simp [SM.throw] at h2

theorem reports {E : Env} {A : Sights} {iter : Nat → List Path → List Path} (hi : IterOk iter) {n : Nat} {base : Path} {to : Option Key} {db : Db} {ca : Cache} {t : Nat} {r : DiffResult}
    {s' : (Db × Cache) × Nat} (h : compareLive E A iter n base to ((db, ca), t) = (.ok r, s')) :
    ∃ m B t1, walkLive A base n [] ((db, ca), t) = (.ok m, ((db, ca), t1)) ∧ toItems db n to = .ok B ∧ t ≤ t1 ∧ t1 ≤ s'.2 ∧ (∀ e ∈ m, Spec.Listed A base t t1 e.1 e.2) ∧
      Spec.Reported E A ca t1 s'.2 base m B r := by
  unfold compareLive at h
  obtain ⟨m, s1, h1, h⟩ := bind_ok h
  have hst := walkLive_state A base n [] ((db, ca), t)
  obtain ⟨okA, hle, hl⟩ := walk_found h1
  obtain ⟨x1, t1⟩ := s1
  rw [h1] at hst
  simp only at hst hle hl
  subst hst
  obtain ⟨B, s2, h2, h⟩ := bind_ok h
  obtain ⟨hB, rfl⟩ : toItems db n to = .ok B ∧ s2 = ((db, ca), t1) := by
    cases to with
    | none =>
      simp only [SM.pure_apply, Prod.mk.injEq, Res.ok.injEq] at h2
      obtain ⟨rfl, rfl⟩ := h2
      exact ⟨rfl, rfl⟩
    | some k =>
      simp only [SM.read_apply, Prod.mk.injEq] at h2
      exact ⟨h2.1, h2.2.symm⟩
  have okB := toItems_okMap hB
  simp only at h
  obtain ⟨added, s3, h3, h⟩ := bind_ok h
  obtain ⟨deleted, s4, h4, h⟩ := bind_ok h
  obtain ⟨modified, s5, h5, h⟩ := bind_ok h
  simp only [SM.pure_apply, Prod.mk.injEq, Res.ok.injEq] at h
  obtain ⟨rfl, rfl⟩ := h
  have ha := mapSM_visits (I := Since E A ca t1) (P := fun x (e : Added) hi => e.path = x ∧ (x, e.isDir) ∈ m ∧ (e.isDir = true → e.newKey = none) ∧
      (e.isDir = false → ∃ k, e.newKey = some k ∧ Spec.Saw E A ca t1 hi x k)) (fun x b t t' ht hp => ⟨hp.1, hp.2.1, hp.2.2.1, fun hd => by
        obtain ⟨k, e1, e2⟩ := hp.2.2.2 hd
        exact ⟨k, e1, e2.mono ht⟩⟩) (fun x hx s b s' hI hb => by
    obtain ⟨e1, e2⟩ := mem_onlyIn.mp ((hi 0 (onlyIn m B)).subset hx)
    obtain ⟨a, hg⟩ := (PMap.get_some_iff (okA.key_norm e1)).mpr e1
    have hmem := (PMap.get_iff okA (okA.key_norm e1)).mp hg
    unfold addedLive at hb
    obtain ⟨d, s6, h6, hb⟩ := bind_ok hb
    simp only [SM.lift_apply, FromMap.isDir, hg, Prod.mk.injEq, Res.ok.injEq] at h6
    obtain ⟨rfl, rfl⟩ := h6
    cases a with
    | true =>
      simp only [if_true, SM.pure_apply, Prod.mk.injEq, Res.ok.injEq] at hb
      obtain ⟨rfl, rfl⟩ := hb
      exact ⟨hI, Nat.le_refl _, rfl, hmem, fun _ => rfl, by simp⟩
    | false =>
      simp only [Bool.false_eq_true, if_false] at hb
      obtain ⟨k, s7, h7, hb⟩ := bind_ok hb
      simp only [SM.pure_apply, Prod.mk.injEq, Res.ok.injEq] at hb
      obtain ⟨rfl, rfl⟩ := hb
      have h8 : hashLive E A x s = (.ok k, s7) := by
        unfold SM.unwrap at h7
        cases hr : hashLive E A x s with
        | mk r s8 =>
          rw [hr] at h7
          cases r with
          | ok b => simpa [Res.unwrap] using h7
          | _ => simp [Res.unwrap] at h7
      obtain ⟨i1, i2, i3⟩ := since_visit hI h8
      exact ⟨i1, i2, rfl, hmem, by simp, fun _ => ⟨k, rfl, i3⟩⟩) (⟨Nat.le_refl _, fun _ => .inl rfl⟩ : Since E A ca t1 ((db, ca), t1)) h3
  obtain ⟨I3, t3, ha1, ha2⟩ := ha
  have hdel : iter 1 (onlyIn B m) = [] ∧ deleted = [] ∧ s4 = s3 := by
    cases hl : iter 1 (onlyIn B m) with
    | nil =>
      have h4' : mapSM (fun x => SM.lift (deletedOf (.left m) B x)) (iter 1 (onlyIn B m)) s3 = (.ok deleted, s4) := h4
      rw [hl] at h4'
      simp only [mapSM, SM.pure_apply, Prod.mk.injEq, Res.ok.injEq] at h4'
      exact ⟨rfl, h4'.1.symm, h4'.2.symm⟩
    | cons x l =>
      have h4' : mapSM (fun x => SM.lift (deletedOf (.left m) B x)) (iter 1 (onlyIn B m)) s3 = (.ok deleted, s4) := h4
      obtain ⟨e1, e2⟩ := mem_onlyIn.mp ((hi 1 (onlyIn B m)).subset (by rw [hl]; exact List.mem_cons_self) : x ∈ onlyIn B m)
      obtain ⟨_, _, _, h6⟩ := mapSM_ok_each h4' x (by rw [hl]; exact List.mem_cons_self)
      rw [SM.lift_apply, deletedOf_panic_fs okB e1 e2] at h6
      simp at h6
  obtain ⟨hd1, rfl, rfl⟩ := hdel
  have hm := mapSM_visits (I := Since E A ca t1) (P := fun x (e : Option Modified) hi => ((x, true) ∈ m ∧ e = none) ∨ ∃ k f, (x, false) ∈ m ∧ (∃ d, (x, k, d) ∈ B) ∧
      Spec.Saw E A ca t1 hi (Path.join base x) f ∧ e = if f = k then none else some ⟨x, k, f⟩) (fun x b t t' ht hp => by
        rcases hp with hp | ⟨k, f, a1, a2, a3, a4⟩
        · exact .inl hp
        · exact .inr ⟨k, f, a1, a2, a3.mono ht, a4⟩) (fun x hx s b s' hI hb => by
    obtain ⟨e1, e2⟩ := mem_inBoth.mp ((hi 2 (inBoth m B)).subset hx)
    obtain ⟨a, hg⟩ := (PMap.get_some_iff (okA.key_norm e1)).mpr e1
    obtain ⟨v, hv⟩ := (PMap.get_some_iff (okB.key_norm e2)).mpr e2
    have hmem := (PMap.get_iff okA (okA.key_norm e1)).mp hg
    have hmem' := (PMap.get_iff okB (okB.key_norm e2)).mp hv
    unfold modifiedLive at hb
    obtain ⟨d, s6, h6, hb⟩ := bind_ok hb
    simp only [SM.lift_apply, FromMap.isDir, hg, Prod.mk.injEq, Res.ok.injEq] at h6
    obtain ⟨rfl, rfl⟩ := h6
    cases a with
    | true =>
      simp only [if_true, SM.pure_apply, Prod.mk.injEq, Res.ok.injEq] at hb
      obtain ⟨rfl, rfl⟩ := hb
      exact ⟨hI, Nat.le_refl _, .inl ⟨hmem, rfl⟩⟩
    | false =>
      simp only [Bool.false_eq_true, if_false] at hb
      obtain ⟨k, s7, h7, hb⟩ := bind_ok hb
      simp only [hv, SM.pure_apply, Prod.mk.injEq, Res.ok.injEq] at hb
      obtain ⟨rfl, rfl⟩ := hb
      obtain ⟨i1, i2, i3⟩ := since_visit hI h7
      exact ⟨i1, i2, .inr ⟨v.1, k, hmem, ⟨v.2, hmem'⟩, i3, rfl⟩⟩) I3 h5
  obtain ⟨I5, t5, hm1, hm2⟩ := hm
  have t31 : t1 ≤ s4.2 := I3.1
  refine ⟨m, B, t1, h1, hB, hle, Nat.le_trans t31 t5, hl, ?_, ?_, ?_, ?_, rfl, ?_⟩
  · intro e he
    obtain ⟨x, hx, rfl, p1, p2, p3⟩ := ha1 e ((sortBy_perm _ _).mem_iff.mp he)
    have := mem_onlyIn.mp ((hi 0 (onlyIn m B)).subset hx)
    refine ⟨p1, fun v hv => this.2 (mem_keys.mpr ⟨v, hv⟩), p2, fun hd => ?_⟩
    obtain ⟨k, e1, e2⟩ := p3 hd
    exact ⟨k, e1, e2.mono t5⟩
  · intro x d hx hn
    obtain ⟨e, he, p1, _⟩ := ha2 x ((hi 0 (onlyIn m B)).symm.subset (mem_onlyIn.mpr ⟨mem_keys.mpr ⟨d, hx⟩, fun h => by
      obtain ⟨v, hv⟩ := mem_keys.mp h
      exact hn v hv⟩))
    exact ⟨e, (sortBy_perm _ _).mem_iff.mpr he, p1⟩
  · intro e he
    have he := (sortBy_perm _ _).mem_iff.mp he
    obtain ⟨o, ho, heo⟩ := List.mem_filterMap.mp he
    obtain ⟨x, hx, hp⟩ := hm1 o ho
    rcases hp with ⟨_, rfl⟩ | ⟨k, f, a1, a2, a3, rfl⟩
    · simp at heo
    · split at heo
      · simp at heo
      · rename_i hne
        simp only [id, Option.some.injEq] at heo
        subst heo
        exact ⟨a1, a2, hne, a3⟩
  · intro x k d hx hk
    obtain ⟨o, ho, hp⟩ := hm2 x ((hi 2 (inBoth m B)).symm.subset (mem_inBoth.mpr ⟨mem_keys.mpr ⟨_, hx⟩, mem_keys.mpr ⟨_, hk⟩⟩))
    have nx := okA.norm _ hx
    rcases hp with ⟨a1, _⟩ | ⟨k', f, a1, ⟨d', a2⟩, a3, rfl⟩
    · have e1 := (PMap.get_iff okA nx).mpr hx
      rw [(PMap.get_iff okA nx).mpr a1] at e1
      simp at e1
    · have e1 := (PMap.get_iff okB nx).mpr hk
      rw [(PMap.get_iff okB nx).mpr a2] at e1
      simp only [Option.some.injEq, Prod.mk.injEq] at e1
      obtain ⟨rfl, rfl⟩ := e1
      refine ⟨f, a3, ?_⟩
      by_cases hf : f = k'
      · exact .inl hf
      · rw [if_neg hf] at ho
        exact .inr ((sortBy_perm _ _).mem_iff.mpr (List.mem_filterMap.mpr ⟨_, ho, rfl⟩))
  · intro e he
    by_cases hx : e.1 ∈ m.map (·.1)
    · exact mem_keys.mp hx
    · have := (hi 1 (onlyIn B m)).symm.subset (mem_onlyIn.mpr ⟨List.mem_map_of_mem he, hx⟩)
      rw [hd1] at this
      simp at this

/-! ### The commands -/

theorem runRacing_eq (X : Ctx) (A : Sights) (R : Repo) (q : List Bytes) (cmd : Command) (after : Fs) (w : World) :
    runRacing X A R q cmd after w = (let s := cmd.racing X A R (startOf w q)
      let ca := Cache.finish s.1 w.cache s.2.cache
      (exitOf s.1 ca.1, s.2.out, World.setDb { w with fs := after, cache := ca.2 } q (Conn.finish s.1 (Conn.mk (w.dbs q) (some s.2.db))).durable)) := rfl

theorem runIn_eq (X : Ctx) (R : Repo) (q : List Bytes) (cmd : Command) (w : World) :
    runIn X R q cmd w = (let s := cmd.inRepo X R (startOf w q)
      let ca := Cache.finish s.1 w.cache s.2.cache
      (exitOf s.1 ca.1, s.2.out, World.setDb { w with fs := s.2.fs, cache := ca.2 } q (Conn.finish s.1 (Conn.mk (w.dbs q) (some s.2.db))).durable)) := rfl

theorem compares_ne_init {cmd : Command} (h : cmd.compares = true) : cmd ≠ .init := by
  rintro rfl; simp [Command.compares] at h

/-- The same on states with these files, which stay. -/
def AlikeOn {α} (fs : Fs) (x y : C α) : Prop := ∀ s, s.fs = fs → x s = y s ∧ (y s).2.fs = fs

theorem alikeOn_bind {α β} {fs : Fs} {x y : C α} {f g : α → C β} (hx : AlikeOn fs x y) (hf : ∀ a, AlikeOn fs (f a) (g a)) : AlikeOn fs (x >>= f) (y >>= g) := by
  intro s hs
  obtain ⟨h1, h2⟩ := hx s hs
  rw [SM.bind_apply, SM.bind_apply, h1]
  cases hy : y s with
  | mk r s' =>
    rw [hy] at h2
    cases r with
    | ok a => exact hf a s' h2
    | _ => exact ⟨rfl, h2⟩

theorem alikeOn_refl {α} {fs : Fs} {x : C α} (h : ∀ s, (x s).2.fs = s.fs) : AlikeOn fs x x := fun s hs => ⟨rfl, (h s).trans hs⟩

theorem racing_still (X : Ctx) (R : Repo) (fs : Fs) (cmd : Command) (hc : cmd.compares = true) :
    AlikeOn fs (cmd.racing X (Spec.resting X.E fs (makeFilter X.glob R.folder)) R) (cmd.inRepo X R) := by
  have hw : ∀ path to, AlikeOn fs (compareWorkLive X (Spec.resting X.E fs (makeFilter X.glob R.folder)) path to) (compareWork X R path to) := by
    intro path to s hs
    refine ⟨?_, hs⟩
    subst hs
    obtain ⟨t', h⟩ := asks_compare (E := X.E) (fs := s.fs) X.glob R.folder X.iter X.depth path to (s.db, s.cache) 0
    unfold compareWorkLive compareWork onDbCache SM.on
    simp only [h]
  have hr : ∀ {α} (f : Db → Res α), AlikeOn fs (readDb f) (readDb f) := fun f => alikeOn_refl fun _ => rfl
  have he : ∀ o, AlikeOn fs (emit o) (emit o) := fun o => alikeOn_refl fun _ => rfl
  cases cmd with
  | compare path key stat =>
    refine alikeOn_bind (hr _) fun k => alikeOn_bind (hw _ _) fun r => ?_
    cases stat
    · exact he _
    · exact alikeOn_bind (hr _) fun _ => he _
  | status =>
    refine alikeOn_bind (hr _) fun n => alikeOn_bind (alikeOn_refl fun _ => rfl) fun k => ?_
    cases k with
    | none => exact he _
    | some k => exact alikeOn_bind (he _) fun _ => alikeOn_bind (hr _) fun _ => alikeOn_bind (hw _ _) fun _ => he _
  | checkoutHead refname =>
    refine alikeOn_bind (hr _) fun n => alikeOn_bind (alikeOn_refl fun _ => rfl) fun k => alikeOn_bind (hr _) fun t => alikeOn_bind (hw _ _) fun r => ?_
    cases r.isEmpty
    · exact alikeOn_bind (he _) fun _ => he _
    · exact alikeOn_bind (alikeOn_refl fun _ => rfl) fun _ => he _
  | _ => simp [Command.compares] at hc

theorem racing_hashed (X : Ctx) (A : Sights) (R : Repo) (cmd : Command) (hc : cmd.compares = true) (s : Sys) : ∀ x ∈ s.db.hashed, x ∈ (cmd.racing X A R s).2.db.hashed := by
  intro x hx
  refine racing_hold (I := fun d => x ∈ d.1.hashed) X A R cmd hc (compareLive_hold (I := fun d => x ∈ d.1.hashed) X.E A (fun p s hs => ?_) X.iter X.depth) (fun n db ca h => ?_) s hx
  · have key : ∀ evs len (db : Db), x ∈ db.hashed → x ∈ (putRead X.E evs len db).2.hashed := fun evs len db h => ((isPuts_putRead X.E evs len).grow db).hashed.subset h
    unfold hashLive
    rw [SM.bind_apply, inquire_apply]
    cases A.stat s.2 p with
    | ok wh =>
      cases wh with
      | file len =>
        simp only
        rw [SM.bind_apply, inquire_apply]
        cases A.opened (s.2 + 1) p with
        | ok f =>
          simp only
          rw [SM.bind_apply, SM.read_apply]
          simp only
          cases s.1.2.get f.1 with
          | ok o =>
            cases o with
            | some k => exact hs
            | none =>
              simp only
              rw [SM.bind_apply]
              simp only [SM.fst]
              have := key f.2 len s.1.1 hs
              cases hp : putRead X.E f.2 len s.1.1 with
              | mk r d =>
                rw [hp] at this
                cases r <;> exact this
          | _ => exact hs
        | _ => exact hs
      | _ => exact hs
    | _ => exact hs
  · unfold putHead rawPutState
    rcases write_cases (fun db => { db with state := insertReplace db.state sHEAD n }) db with ⟨fs, _, e⟩ | e <;> rw [e] <;> exact h

theorem runRacing_others (X : Ctx) (A : Sights) (R : Repo) (q : List Bytes) (cmd : Command) (after : Fs) (w : World) (q' : List Bytes) (hq : q' ≠ q) :
    (runRacing X A R q cmd after w).2.2.dbs q' = w.dbs q' := by
  simp [runRacing, World.setDb, hq]

/-- What becomes of the database. -/
theorem runRacing_db (X : Ctx) (A : Sights) (R : Repo) (q : List Bytes) (cmd : Command) (hc : cmd.compares = true) (after : Fs) (w : World) :
    SameDb ((runRacing X A R q cmd after w).2.2.dbs q) (w.dbs q) ∨
      ∃ u, (cmd.racing X A R (startOf w q)).1 = .ok u ∧ SameDb ((runRacing X A R q cmd after w).2.2.dbs q) (cmd.racing X A R (startOf w q)).2.db := by
  have hk : ∀ x ∈ (w.dbs q).hashed, x ∈ (cmd.racing X A R (startOf w q)).2.db.hashed := racing_hashed X A R cmd hc (startOf w q)
  rw [runRacing_eq]
  simp only [World.setDb, if_true]
  cases hr : (cmd.racing X A R (startOf w q)).1 with
  | ok u =>
    simp only [Conn.finish, Conn.commit]
    split
    · exact .inl ⟨⟨rfl, rfl, rfl⟩, hk⟩
    · exact .inr ⟨u, trivial, ⟨rfl, rfl, rfl⟩, fun x h => h⟩
  | err e => exact .inl ⟨⟨rfl, rfl, rfl⟩, hk⟩
  | panic => exact .inl ⟨⟨rfl, rfl, rfl⟩, hk⟩
  | fuel => exact .inl ⟨⟨rfl, rfl, rfl⟩, hk⟩

theorem runRacing_lost (X : Ctx) (A : Sights) (R : Repo) (q : List Bytes) (cmd : Command) (hc : cmd.compares = true) (after : Fs) (w : World) (h : ∀ u, (cmd.racing X A R (startOf w q)).1 ≠ .ok u) :
    SameDb ((runRacing X A R q cmd after w).2.2.dbs q) (w.dbs q) := by
  rcases runRacing_db X A R q cmd hc after w with h1 | ⟨u, h1, _⟩
  · exact h1
  · exact (h u h1).elim

/-! ### Databases -/

theorem execPuts_unfaulty {α} {H : Bytes → Key} {ws : List Bytes} {r : Res α} {db d : Db} {a : α} (h : execPuts H ws r db = (.ok a, d)) :
    execPuts H ws r { db with faults := [] } = (.ok a, { d with faults := [] }) := by
  induction ws generalizing db with
  | nil =>
    simp only [execPuts, SM.lift_apply, Prod.mk.injEq] at h ⊢
    exact ⟨h.1, by rw [← h.2]⟩
  | cons w ws ih =>
    rw [execPuts_cons] at h ⊢
    rw [put_nofault (db := { db with faults := [] }) rfl]
    rcases put_cases H w db with e | e
    · rw [e] at h
      simp at h
    · rw [e] at h
      exact ih h

theorem putRead_unfaulty {E : Env} {evs : List ReadEv} {len : Nat} {db d : Db} {k : Key} (h : putRead E evs len db = (.ok k, d)) :
    putRead E evs len { db with faults := [] } = (.ok k, { d with faults := [] }) := by
  obtain ⟨ws, r, hx⟩ := isPuts_putRead E evs len
  rw [hx] at h ⊢
  exact execPuts_unfaulty h

theorem SameDb.faults (db : Db) (l : List Bool) : SameDb { db with faults := l } db := ⟨⟨rfl, rfl, rfl⟩, fun _ h => h⟩
theorem SameDb.faults' (db : Db) (l : List Bool) : SameDb db { db with faults := l } := ⟨⟨rfl, rfl, rfl⟩, fun _ h => h⟩

/-- Answers by which `insert` reads this and nothing else. -/
def oneFile (evs : List ReadEv) (len : Nat) : Answers := ⟨fun _ _ => .ok (.file len), fun _ _ => .err .io, fun _ _ => .err .io, fun _ _ => .ok evs⟩

/-- A database that worlds as in `World.Sound` have at `q`, beside the others of `w`. -/
def Attained (H : Bytes → Key) (w : World) (q : List Bytes) (db : Db) : Prop :=
  ∃ v : World, v.Sound H ∧ v.fs = w.fs ∧ SameDb db (v.dbs q) ∧ ∀ q', q' ≠ q → v.dbs q' = w.dbs q'

theorem attained_edit {H : Bytes → Key} {w v : World} {q : List Bytes} {db : Db} (hv : v.Sound H) (hf : v.fs = w.fs) (hs : SameDb db (v.dbs q)) (ho : ∀ q', q' ≠ q → v.dbs q' = w.dbs q') :
    (v.setDb q db).Sound H ∧ (v.setDb q db).fs = w.fs ∧ (v.setDb q db).dbs q = db ∧ ∀ q', q' ≠ q → (v.setDb q db).dbs q' = w.dbs q' := by
  refine ⟨hv.step (.edit _ _ fun q' => ?_) hv.sane, hf, by simp [World.setDb], fun q' h => by simp [World.setDb, h, ho q' h]⟩
  by_cases h : q' = q
  · subst h; simpa [World.setDb] using hs
  · simpa [World.setDb, h] using SameDb.refl _

theorem attained_read {X : Ctx} {w : World} {R : Repo} {q : List Bytes} (ho : Opens X w R q) (hroot : 2 ≤ q.length) {evs : List ReadEv} {len : Nat} {db d : Db} {k : Key}
    (hp : putRead X.E evs len db = (.ok k, d)) (h : Attained X.E.H w q db) : Attained X.E.H w q d := by
  obtain ⟨v, hv, hf, hs, hq⟩ := h
  obtain ⟨s1, s2, s3, s4⟩ := attained_edit hv hf ((SameDb.faults db []).trans hs) hq
  have hX : Opens { X with depth := 1 } (v.setDb q { db with faults := [] }) R q := by
    unfold Opens
    rw [s2]
    exact ho
  have hb := C93_sound { X with depth := 1 } (oneFile evs len) (fun t p l h => by simp [oneFile] at h) _ s1 R q hX hroot (.insert []) (by simp) w.fs (s2 ▸ s1.sane)
  have hlive : (Command.insert []).live { X with depth := 1 } (oneFile evs len) R (startOf (v.setDb q { db with faults := [] }) q) =
      (.ok (), { startOf (v.setDb q { db with faults := [] }) q with db := { d with faults := [] }, out := [.key k] }) := by
    have hst : storeLive { X with depth := 1 } (oneFile evs len) [] { db with faults := [] } = (.ok k, { d with faults := [] }) := by
      have hl : putLive X.E (oneFile evs len) 1 [] ({ db with faults := [] }, 0) = (.ok k, ({ d with faults := [] }, 2)) := by
        simp only [putLive, SM.bind_apply, ask_apply, oneFile, fst_apply]
        rw [putRead_unfaulty hp]
      unfold storeLive
      simp only [hl]
    have hdb : (startOf (v.setDb q { db with faults := [] }) q).db = { db with faults := [] } := s3
    have hon : onDb (storeLive { X with depth := 1 } (oneFile evs len) []) (startOf (v.setDb q { db with faults := [] }) q) =
        (.ok k, { startOf (v.setDb q { db with faults := [] }) q with db := { d with faults := [] } }) := by
      simp only [onDb, SM.on, hdb, hst]
    show (onDb (storeLive { X with depth := 1 } (oneFile evs len) []) >>= fun h => emit (.key h)) (startOf (v.setDb q { db with faults := [] }) q) = _
    rw [bind_of hon]
    rfl
  have e2 : runLive { X with depth := 1 } (oneFile evs len) R q (.insert []) w.fs (v.setDb q { db with faults := [] }) =
      (let s := (Command.insert []).live { X with depth := 1 } (oneFile evs len) R (startOf (v.setDb q { db with faults := [] }) q)
      let ca := Cache.finish s.1 (v.setDb q { db with faults := [] }).cache s.2.cache
      (exitOf s.1 ca.1, s.2.out, World.setDb { v.setDb q { db with faults := [] } with fs := w.fs, cache := ca.2 } q
        (Conn.finish s.1 (Conn.mk ((v.setDb q { db with faults := [] }).dbs q) (some s.2.db))).durable)) := rfl
  refine ⟨_, hb, ?_, ?_, fun q' hq' => (runLive_others _ _ _ _ _ _ _ _ hq').trans (s4 q' hq')⟩
  · rw [e2]; rfl
  · rw [e2, hlive]
    simp only [World.setDb, if_true, Conn.finish, Conn.commit, Conn.crash, Conn.view, Option.getD_none]
    exact ⟨⟨rfl, rfl, rfl⟩, fun _ h => h⟩

theorem attained_head {X : Ctx} {w : World} {R : Repo} {q : List Bytes} (ho : Opens X w R q) {n : Bytes} {db d : Db} (hp : putHead n db = (.ok (), d)) (h : Attained X.E.H w q db) :
    Attained X.E.H w q d := by
  obtain ⟨v, hv, hf, hs, hq⟩ := h
  obtain ⟨s1, s2, s3, s4⟩ := attained_edit hv hf ((SameDb.faults db []).trans hs) hq
  have hX : Opens X (v.setDb q { db with faults := [] }) R q := by
    unfold Opens
    rw [s2]
    exact ho
  have hb := s1.run X (.setHead n)
  have hd : d = { db with state := insertReplace db.state sHEAD n, faults := db.faults.tail } := by
    unfold putHead rawPutState at hp
    rcases write_cases (fun db => { db with state := insertReplace db.state sHEAD n }) db with ⟨fs, _, e⟩ | e
    · rw [e] at hp; simp at hp
    · rw [e] at hp
      simp only [Prod.mk.injEq, true_and] at hp
      exact hp.symm
  have hin : (Command.setHead n).inRepo X R (startOf (v.setDb q { db with faults := [] }) q) =
      (.ok (), { startOf (v.setDb q { db with faults := [] }) q with db := { d with faults := [] } }) := by
    have hdb : (startOf (v.setDb q { db with faults := [] }) q).db = { db with faults := [] } := s3
    show onDb (putHead n) _ = _
    unfold onDb SM.on putHead rawPutState
    rw [hdb, hd]
    rfl
  rw [mainRun_open (by simp) hX, runIn_eq, hin] at hb
  refine ⟨_, hb, s2, ?_, fun q' hq' => ?_⟩
  · simp only [World.setDb, if_true, Conn.finish, Conn.commit, Conn.crash, Conn.view, Option.getD_none]
    exact ⟨⟨rfl, rfl, rfl⟩, fun _ h => h⟩
  · have := s4 q' hq'
    simp only [World.setDb, if_neg hq'] at this ⊢
    exact this

/-! ### What the commands print -/

theorem compareWorkLive_ok {X : Ctx} {A : Sights} {path : Path} {to : Option Key} {s s' : Sys} {r : DiffResult} (h : compareWorkLive X A path to s = (.ok r, s')) :
    ∃ t, compareLive X.E A X.iter X.depth path to ((s.db, s.cache), 0) = (.ok r, ((s'.db, s'.cache), t)) ∧ s'.out = s.out := by
  unfold compareWorkLive onDbCache SM.on at h
  simp only [Prod.mk.injEq] at h
  obtain ⟨h1, rfl⟩ := h
  exact ⟨_, Prod.ext h1 rfl, rfl⟩

theorem racing_status {X : Ctx} {A : Sights} {R : Repo} (hi : IterOk X.iter) {w : World} {q : List Bytes} {head : Bytes} {hk : Key} {c : Commit} (hh : HeadCommit (w.dbs q) head hk c) {u : Unit} {s' : Sys}
    (h : Command.status.racing X A R (startOf w q) = (.ok u, s')) :
    ∃ m B lo hi r, toItems (w.dbs q) X.depth (some c.tree) = .ok B ∧ (∃ d : Db × Cache, walkLive A R.root X.depth [] (d, 0) = (.ok m, (d, lo))) ∧ lo ≤ hi ∧
      (∀ e ∈ m, Spec.Listed A R.root 0 lo e.1 e.2) ∧ Spec.Reported X.E A w.cache lo hi R.root m B r ∧ s'.out = [.headAt head (some (hk.asUserKey.take 8)), .result (simplify r)] := by
  obtain ⟨a1, a2, a3⟩ := hh
  have hn : headName (w.dbs q) = .ok head := by unfold headName; rw [a1]; rfl
  have h : statusLive X A R (startOf w q) = (.ok u, s') := h
  unfold statusLive at h
  rw [bind_of (a := head) (s' := startOf w q) (show readDb headName (startOf w q) = _ by rw [readDb_apply]; exact congrArg (·, _) hn),
    bind_of (a := some hk) (s' := startOf w q) (show (SM.read _ : C _) (startOf w q) = _ by rw [SM.read_apply]; simp only [startOf, a2, Res.toOption])] at h
  simp only at h
  obtain ⟨_, s1, h1, h⟩ := bind_ok h
  obtain ⟨c', s2, h2, h⟩ := bind_ok h
  obtain ⟨r, s3, h3, h4⟩ := bind_ok h
  simp only [emit, SM.modify_apply, Prod.mk.injEq, true_and] at h1 h4
  subst h1
  rw [readDb_apply] at h2
  simp only [startOf, a3, Prod.mk.injEq, Res.ok.injEq] at h2
  obtain ⟨rfl, rfl⟩ := h2
  obtain ⟨t, g1, g2⟩ := compareWorkLive_ok h3
  obtain ⟨m, B, t1, b1, b2, _, b4, b5, b6⟩ := reports hi g1
  refine ⟨m, B, t1, t, r, b2, ⟨_, b1⟩, b4, b5, b6, ?_⟩
  rw [← h4, g2]
  rfl

theorem racing_head {X : Ctx} {A : Sights} {R : Repo} (hi : IterOk X.iter) {w : World} {q : List Bytes} {t : Option Key} (ht : HeadTree (w.dbs q) t) {refname : Bytes} {u : Unit} {s' : Sys}
    (h : (Command.checkoutHead refname).racing X A R (startOf w q) = (.ok u, s')) :
    ∃ m B lo hi r, toItems (w.dbs q) X.depth t = .ok B ∧ (∃ d : Db × Cache, walkLive A R.root X.depth [] (d, 0) = (.ok m, (d, lo))) ∧ lo ≤ hi ∧
      (∀ e ∈ m, Spec.Listed A R.root 0 lo e.1 e.2) ∧ Spec.Reported X.E A w.cache lo hi R.root m B r ∧
      ((r.isEmpty = true ∧ s'.out = [.text sNewHead]) ∨ (r.isEmpty = false ∧ s'.out = [.text sNotClean, .result (simplify r)] ∧ s'.db.state = (w.dbs q).state)) := by
  have hst : ∀ path to, Hold (fun s : (Db × Cache) × Nat => s.1.1.state = (w.dbs q).state) (compareLive X.E A X.iter X.depth path to) :=
    compareLive_hold (I := fun s => s.1.state = (w.dbs q).state) X.E A (fun p s hs => by
      have key : ∀ evs len, (putRead X.E evs len s.1.1).2.state = s.1.1.state := fun evs len => ((isPuts_putRead X.E evs len).grow s.1.1).state
      unfold hashLive
      rw [SM.bind_apply, inquire_apply]
      cases A.stat s.2 p with
      | ok wh =>
        cases wh with
        | file len =>
          simp only
          rw [SM.bind_apply, inquire_apply]
          cases A.opened (s.2 + 1) p with
          | ok f =>
            simp only
            rw [SM.bind_apply, SM.read_apply]
            simp only
            cases s.1.2.get f.1 with
            | ok o =>
              cases o with
              | some k => exact hs
              | none =>
                simp only
                rw [SM.bind_apply]
                simp only [SM.fst]
                have := key f.2 len
                cases hp : putRead X.E f.2 len s.1.1 with
                | mk r d =>
                  rw [hp] at this
                  cases r <;> exact this.trans hs
            | _ => exact hs
          | _ => exact hs
        | _ => exact hs
      | _ => exact hs) X.iter X.depth
  have h : checkoutHeadLive X A R refname (startOf w q) = (.ok u, s') := h
  unfold checkoutHeadLive at h
  obtain ⟨head, a1, a2⟩ := ht
  have hn : headName (w.dbs q) = .ok head := by unfold headName; rw [a1]; rfl
  rw [bind_of (a := head) (s' := startOf w q) (show readDb headName (startOf w q) = _ by rw [readDb_apply]; exact congrArg (·, _) hn)] at h
  obtain ⟨k, s1, h1, h⟩ := bind_ok h
  simp only [SM.read_apply, Prod.mk.injEq, Res.ok.injEq] at h1
  obtain ⟨hk, rfl⟩ := h1
  obtain ⟨t', s2, h2, h⟩ := bind_ok h
  rw [readDb_apply] at h2
  simp only [Prod.mk.injEq] at h2
  obtain ⟨h2, rfl⟩ := h2
  obtain rfl : t' = t := by
    rcases a2 with ⟨k', c, b1, b2, rfl⟩ | ⟨b1, rfl⟩
    · simp only [startOf, b1, Res.toOption] at hk
      subst hk
      simp only [startOf, b2, Res.ok_bind] at h2
      simpa using h2.symm
    · cases hg : reflogGet (w.dbs q) head none with
      | ok k' => exact (b1 k' hg).elim
      | _ =>
        simp only [startOf, hg, Res.toOption] at hk
        subst hk
        simpa using h2.symm
  obtain ⟨r, s3, h3, h⟩ := bind_ok h
  obtain ⟨t, g1, g2⟩ := compareWorkLive_ok h3
  have gs := hst R.root t' (((startOf w q).db, (startOf w q).cache), 0) rfl
  rw [g1] at gs
  obtain ⟨m, B, t1, b1, b2, _, b4, b5, b6⟩ := reports hi g1
  refine ⟨m, B, t1, t, r, b2, ⟨_, b1⟩, b4, b5, b6, ?_⟩
  cases he : r.isEmpty with
  | true =>
    simp only [he, if_true] at h
    obtain ⟨_, s4, h4, h5⟩ := bind_ok h
    refine .inl ⟨rfl, ?_⟩
    simp only [onDb, SM.on, Prod.mk.injEq] at h4
    simp only [emit, SM.modify_apply, Prod.mk.injEq, true_and] at h5
    rw [← h5, ← h4.2]
    show s3.out ++ _ = _
    rw [g2]
    rfl
  | false =>
    simp only [he, Bool.false_eq_true, if_false] at h
    obtain ⟨_, s4, h4, h5⟩ := bind_ok h
    simp only [emit, SM.modify_apply, Prod.mk.injEq, true_and] at h4 h5
    refine .inr ⟨rfl, ?_, ?_⟩
    · rw [← h5, ← h4]
      show s3.out ++ _ ++ _ = _
      rw [g2]
      rfl
    · rw [← h5, ← h4]
      exact gs

/-- What a look at a file means if no visit is torn: a key that the file had at some moment. -/
theorem saw_content {E : Env} {A : Sights} {l l' : List Fs} (hA : Spec.Untorn E l' A) (hfa : FaithfulFs E (l' ++ l)) {ca : Cache} (hr : RightFor E l ca) {lo hi : Nat} {p : Path} {k : Key}
    (h : Spec.Saw E A ca lo hi p k) : ∃ fs ∈ l', ∃ c md, fs.metadata p = .ok (.file c md) ∧ fileKey E p c = .ok k := by
  obtain ⟨t, len, ck, evs, _, _, h1, h2, h3⟩ := h
  obtain ⟨fs, hfs, c, md, hm, rfl, rfl, rfl⟩ := hA _ _ _ _ _ h1 h2
  refine ⟨fs, hfs, c, md, hm, ?_⟩
  have alike : ∀ g ∈ l' ++ l, ∀ p' c' md', g.metadata p' = .ok (.file c' md') → tripleOf c md = tripleOf c' md' → fileKey E p' c' = .ok k → fileKey E p c = .ok k := by
    intro g hg p' c' md' e1 e2 e3
    obtain ⟨rfl, f2, f3, f4, f5⟩ := hfa fs (by simp [hfs]) g hg p p' c md c' md' hm e1 e2
    rw [fileKey_alike f2 f3 f4 f5]
    exact e3
  rcases h3 with h3 | ⟨_, t', p', len', evs', _, _, g1, g2, g3⟩
  · obtain ⟨L, hL, hcr⟩ := hr
    rcases hcr (tripleOf c md) with e | ⟨k', e, x, hx, c', md', e1, e2, e3⟩
    · rw [e] at h3; simp at h3
    · rw [e] at h3
      simp only [Res.ok.injEq, Option.some.injEq] at h3
      subst h3
      exact alike x.1 (by simp [hL x hx]) x.2 c' md' e1 e2.symm e3
  · obtain ⟨g, hg, c', md', e1, e2, rfl, rfl⟩ := hA _ _ _ _ _ g1 g2
    exact alike g (by simp [hg]) p' c' md' e1 e2 g3

/-! ### The cache -/

theorem visit_cache (E : Env) (A : Sights) (ca : Cache) (p : Path) :
    Hold (fun s : (Db × Cache) × Nat => ∀ ck, s.1.2.get ck = ca.get ck ∨ ca.get ck = .ok none ∧ ∃ k, s.1.2.get ck = .ok (some k) ∧ ∃ hi, Spec.Entered E A 0 hi ck k) (hashLive E A p) := by
  intro s hs ck
  rcases hashLive_cache E A p s with e | ⟨len, ck', evs, k, g1, g2, g3, g4, e⟩
  · rw [e]; exact hs ck
  · rw [e]
    have hq := C56_put s.1.2 (Cache.put ck' k s.1.2).2 ck' k (Cache.put ck' k s.1.2).1 rfl ck
    rw [hq]
    split
    · rename_i hc
      obtain ⟨_, rfl, _⟩ := hc
      refine .inr ⟨?_, k, rfl, s.2 + 2, s.2, p, len, evs, Nat.zero_le _, by omega, g1, g2, keyOf_of_put (d := s.1.1) (d' := (putRead E evs len s.1.1).2) (Prod.ext g4 rfl)⟩
      rcases hs ck with h | ⟨h, _⟩
      · rw [← h]; exact g3
      · exact h
    · exact hs ck

theorem get_rows {a b : Cache} (h : a.rows = b.rows) (ck : CacheKey) : a.get ck = b.get ck := by unfold Cache.get; rw [h]

/-- What may happen to the cache: commands run, are killed or race, and what else happens does not touch it. -/
inductive _root_.Snap.World.Ages : World → World → Prop where
  | refl (w : World) : Ages w w
  | run {w v : World} (h : Ages w v) (X : Ctx) (cmd : Command) : Ages w (mainRun X cmd v).2.2
  | killed {w v v' : World} (h : Ages w v) (X : Ctx) (cmd : Command) (hc : v'.cache.rows = v.cache.rows ∨ v'.cache.rows = (mainRun X cmd v).2.2.cache.rows) : Ages w v'
  | race {w v : World} (h : Ages w v) (X : Ctx) (A : Sights) (R : Repo) (q : List Bytes) (cmd : Command) (hc : cmd.compares = true) (after : Fs) : Ages w (runRacing X A R q cmd after v).2.2
  | edit {w v v' : World} (h : Ages w v) (hc : v'.cache.rows = v.cache.rows) : Ages w v'

theorem race_cache (X : Ctx) (A : Sights) (R : Repo) (q : List Bytes) (cmd : Command) (hc : cmd.compares = true) (after : Fs) (w : World) (ck : CacheKey) :
    (runRacing X A R q cmd after w).2.2.cache.get ck = w.cache.get ck ∨
      w.cache.get ck = .ok none ∧ ∃ k, (runRacing X A R q cmd after w).2.2.cache.get ck = .ok (some k) ∧ ∃ hi, Spec.Entered X.E A 0 hi ck k := by
  have h := racing_hold (I := fun s => ∀ ck, s.2.get ck = w.cache.get ck ∨ w.cache.get ck = .ok none ∧ ∃ k, s.2.get ck = .ok (some k) ∧ ∃ hi, Spec.Entered X.E A 0 hi ck k) X A R cmd hc
    (compareLive_hold (I := fun s => ∀ ck, s.2.get ck = w.cache.get ck ∨ w.cache.get ck = .ok none ∧ ∃ k, s.2.get ck = .ok (some k) ∧ ∃ hi, Spec.Entered X.E A 0 hi ck k) X.E A
      (visit_cache X.E A w.cache) X.iter X.depth) (fun _ _ _ h => h) (startOf w q) (fun _ => .inl rfl) ck
  rw [runRacing_eq]
  simp only [World.setDb]
  rcases finish_rows (cmd.racing X A R (startOf w q)).1 w.cache (cmd.racing X A R (startOf w q)).2.cache with e | e
  · exact .inl (get_rows e ck)
  · rw [get_rows e]; exact h

theorem main_cache (X : Ctx) (cmd : Command) (w : World) (ck : CacheKey) (k : Key) (h : w.cache.get ck = .ok (some k)) : (mainRun X cmd w).2.2.cache.get ck = .ok (some k) := by
  have same : ∀ {ca : Cache}, ca.rows = w.cache.rows → ca.get ck = .ok (some k) := fun e => by rw [get_rows e]; exact h
  by_cases hc : cmd.compares = true
  · unfold mainRun
    cases hf : findDbFolder w.fs X.dbPath with
    | ok found =>
      simp only
      split
      · exact same rfl
      · exact same rfl
      · exact same rfl
      · have key : ∀ R q, (runIn X R q cmd w).2.2.cache.get ck = .ok (some k) := by
          intro R q
          have hb := racing_still X R w.fs cmd hc (startOf w q) rfl
          have hr := race_cache X (Spec.resting X.E w.fs (makeFilter X.glob R.folder)) R q cmd hc w.fs w ck
          have e : (runIn X R q cmd w).2.2.cache = (runRacing X (Spec.resting X.E w.fs (makeFilter X.glob R.folder)) R q cmd w.fs w).2.2.cache := by
            rw [runIn_eq, runRacing_eq]
            simp only [hb.1, World.setDb]
          rw [e]
          rcases hr with hr | ⟨hr, _⟩
          · rw [hr]; exact h
          · rw [h] at hr; simp at hr
        cases cmd with
        | compare path k' stat =>
          simp only
          split
          · exact key _ _
          · simp only [runOut]
            rcases finish_rows _ w.cache _ with e | e <;> exact same e
        | status =>
          simp only
          split
          · exact key _ _
          · simp only [runOut]
            rcases finish_rows _ w.cache _ with e | e <;> exact same e
        | checkoutHead refname =>
          simp only
          split
          · exact key _ _
          · simp only [runOut]
            rcases finish_rows _ w.cache _ with e | e <;> exact same e
        | _ => simp [Command.compares] at hc
    | _ => exact same rfl
  · have hn := noCache_command X
    unfold mainRun
    cases hf : findDbFolder w.fs X.dbPath with
    | ok found =>
      simp only
      split
      · exact same rfl
      · exact same rfl
      · exact same rfl
      · cases cmd with
        | init =>
          simp only
          rcases finish_rows (runInit X w).1 w.cache w.cache with e | e <;> exact same e
        | _ =>
          simp only
          split
          · rename_i R q _
            simp only [runIn, World.setDb]
            rcases finish_rows _ w.cache _ with e | e
            · exact same e
            · refine same (e.trans (congrArg Cache.rows (hn R _ (by simpa using hc) _)))
          · simp only [runOut]
            rcases finish_rows _ w.cache _ with e | e
            · exact same e
            · refine same (e.trans ?_)
              first
              | rfl
              | exact congrArg Cache.rows (noCache_walkFsTree X _ { db := {}, cache := w.cache, fs := w.fs })
    | _ => exact same rfl

/-! ### The property -/

/-- Where nothing changes, comparing while files may change is what the other theorems are about. -/
theorem C95_still (X : Ctx) (w : World) (R : Repo) (q : List Bytes) (ho : Opens X w R q) (cmd : Command) (hc : cmd.compares = true) :
    runRacing X (Spec.resting X.E w.fs (makeFilter X.glob R.folder)) R q cmd w.fs w = mainRun X cmd w := by
  obtain ⟨h1, h2⟩ := racing_still X R w.fs cmd hc (startOf w q) rfl
  rw [mainRun_open (compares_ne_init hc) ho, runIn_eq, runRacing_eq]
  simp only [h1, h2]

/-- A run that does not succeed because of what happens to the files leaves every database as it was. -/
theorem C95_lost (X : Ctx) (A : Sights) (w : World) (R : Repo) (q : List Bytes) (cmd : Command) (hc : cmd.compares = true) (after : Fs)
    (h : (∃ e, (runRacing X A R q cmd after w).1 = .fatal e) ∨ (runRacing X A R q cmd after w).1 = .panicked) (q' : List Bytes) :
    SameDb ((runRacing X A R q cmd after w).2.2.dbs q') (w.dbs q') := by
  by_cases hq : q' = q
  · subst hq
    refine runRacing_lost X A R q' cmd hc after w fun u hu => ?_
    rw [runRacing_eq] at h
    simp only [hu, exitOf] at h
    split at h <;> simp at h
  · rw [runRacing_others X A R q cmd after w q' hq]
    exact SameDb.refl _

/-- All that is proved about databases only ever written by commands on trees that stand still holds as well if files changed during comparisons, in whatever way. -/
theorem C95_sound (X : Ctx) (A : Sights) (w : World) (hw : w.Sound X.E.H) (R : Repo) (q : List Bytes) (ho : Opens X w R q) (hroot : 2 ≤ q.length) (cmd : Command) (hc : cmd.compares = true)
    (after : Fs) (ha : after.Sane) : (runRacing X A R q cmd after w).2.2.Sound X.E.H := by
  have base : Attained X.E.H w q (w.dbs q) := ⟨w, hw, rfl, SameDb.refl _, fun _ _ => rfl⟩
  have fin : Attained X.E.H w q ((runRacing X A R q cmd after w).2.2.dbs q) := by
    rcases runRacing_db X A R q cmd hc after w with h | ⟨u, h1, h2⟩
    · exact ⟨w, hw, rfl, h, fun _ _ => rfl⟩
    · have := racing_holdOk (I := fun s => Attained X.E.H w q s.1) X A R cmd hc (compareLive_holdOk (I := fun s => Attained X.E.H w q s.1) X.E A (fun p s k s' hs hI => by
        obtain ⟨⟨db, ca⟩, t⟩ := s
        obtain ⟨⟨db', ca'⟩, t'⟩ := s'
        obtain ⟨len, ck, evs, _, _, _, h3⟩ := hashLive_ok hs
        rcases h3 with ⟨_, rfl, _⟩ | ⟨_, h3, _⟩
        · exact hI
        · exact attained_read ho hroot h3 hI) X.iter X.depth) (fun n db db' ca hp hI => attained_head ho hp hI) (startOf w q) u (cmd.racing X A R (startOf w q)).2 (Prod.ext h1 rfl) base
      obtain ⟨v, e1, e2, e3, e4⟩ := this
      exact ⟨v, e1, e2, h2.trans e3, e4⟩
  obtain ⟨v, e1, e2, e3, e4⟩ := fin
  refine e1.step (.edit _ _ fun q' => ?_) ha
  by_cases hq : q' = q
  · subst hq; exact e3
  · rw [runRacing_others X A R q cmd after w q' hq, e4 q' hq]
    exact SameDb.refl _

/-- **C95** (what `status` says of files that change): if it succeeds, it reports what it saw. Each listed path was a file or a directory at some moment; no stored path was missing; each path that was
not stored is reported as added; a stored path that was a file when listed was looked at once more, and is reported as modified iff the key it was then taken to have is not the stored one. -/
theorem C95_status (X : Ctx) (hi : IterOk X.iter) (A : Sights) (w : World) (R : Repo) (q : List Bytes) (after : Fs) (head : Bytes) (hk : Key) (c : Commit) (hh : HeadCommit (w.dbs q) head hk c)
    (h : (runRacing X A R q .status after w).1 = .success) :
    ∃ m B lo hi r, toItems (w.dbs q) X.depth (some c.tree) = .ok B ∧ (∃ d : Db × Cache, walkLive A R.root X.depth [] (d, 0) = (.ok m, (d, lo))) ∧ lo ≤ hi ∧
      (∀ e ∈ m, Spec.Listed A R.root 0 lo e.1 e.2) ∧ Spec.Reported X.E A w.cache lo hi R.root m B r ∧
      (runRacing X A R q .status after w).2.1 = [.headAt head (some (hk.asUserKey.take 8)), .result (simplify r)] := by
  rw [runRacing_eq] at h ⊢
  cases hr : Command.status.racing X A R (startOf w q) with
  | mk r s =>
    cases r with
    | ok u => exact racing_status hi hh hr
    | _ => rw [hr] at h; simp [exitOf] at h

/-- **C95** (moving HEAD while files change): if `checkout-head` changes HEAD, then every path of the commit that HEAD named was listed, and if it was a file then, it was afterwards found with the
stored key at some moment during the command; nothing was listed that is not in the commit. With files that are never torn, and times that tell contents apart, so is each of these keys that of
the contents the file had at some moment. -/
theorem C95_head (X : Ctx) (hi : IterOk X.iter) (A : Sights) (w : World) (R : Repo) (q : List Bytes) (after : Fs) (refname : Bytes) (t : Option Key) (ht : HeadTree (w.dbs q) t)
    (h : rawGetState ((runRacing X A R q (.checkoutHead refname) after w).2.2.dbs q) sHEAD ≠ rawGetState (w.dbs q) sHEAD) :
    ∃ (m : PMap Bool) (B : PMap (Key × Bool)) (lo hi : Nat), toItems (w.dbs q) X.depth t = .ok B ∧ lo ≤ hi ∧ (∀ e ∈ m, Spec.Listed A R.root 0 lo e.1 e.2) ∧ (∀ x d, (x, d) ∈ m → ∃ v, (x, v) ∈ B) ∧
      (∀ x k d, (x, k, d) ∈ B → ((x, true) ∈ m ∨ (x, false) ∈ m ∧ Spec.Saw X.E A w.cache lo hi (Path.join R.root x) k)) ∧
      ∀ l l', Spec.Untorn X.E l' A → World.Uses X.E l w → FaithfulFs X.E (l' ++ l) → ∀ x k d, (x, k, d) ∈ B →
        ((x, true) ∈ m ∨ ∃ fs ∈ l', ∃ c md, fs.metadata (Path.join R.root x) = .ok (.file c md) ∧ fileKey X.E (Path.join R.root x) c = .ok k) := by
  have hs : ∀ {a b : Db}, a.state = b.state → rawGetState a sHEAD = rawGetState b sHEAD := fun e => by unfold rawGetState; rw [e]
  rcases runRacing_db X A R q (.checkoutHead refname) rfl after w with h1 | ⟨u, h1, h2⟩
  · exact (h (hs h1.1.2.1)).elim
  · obtain ⟨m, B, lo, hi', r, b1, _, b3, b4, b5, b6⟩ := racing_head hi ht (s' := ((Command.checkoutHead refname).racing X A R (startOf w q)).2) (Prod.ext h1 rfl)
    rcases b6 with ⟨b6, _⟩ | ⟨_, _, b6⟩
    · have hmod : r.modified = [] ∧ r.added = [] := by
        simp only [DiffResult.isEmpty, Bool.and_eq_true, List.isEmpty_iff] at b6
        exact ⟨b6.2, b6.1.1⟩
      have hall : ∀ x k d, (x, k, d) ∈ B → ((x, true) ∈ m ∨ (x, false) ∈ m ∧ Spec.Saw X.E A w.cache lo hi' (Path.join R.root x) k) := by
        intro x k d hx
        obtain ⟨d', hd'⟩ := b5.deleted.2 _ hx
        cases d' with
        | true => exact .inl hd'
        | false =>
          obtain ⟨k', hk', e⟩ := b5.allModified x k d hd' hx
          rcases e with rfl | e
          · exact .inr ⟨hd', hk'⟩
          · rw [hmod.1] at e; simp at e
      refine ⟨m, B, lo, hi', b1, b3, b4, fun x d hx => ?_, hall, fun l l' hA hu hfa x k d hx => ?_⟩
      · by_cases hn : ∃ v, (x, v) ∈ B
        · exact hn
        · obtain ⟨e, he, _⟩ := b5.allAdded x d hx fun v hv => hn ⟨v, hv⟩
          rw [hmod.2] at he; simp at he
      · rcases hall x k d hx with hd | ⟨_, hd⟩
        · exact .inl hd
        · exact .inr (saw_content hA hfa (uses_right hu) hd)
    · exact (h (hs (h2.1.2.1.trans b6))).elim

/-- No visit is torn if no file changes its size between two questions; it may be replaced, written and touched. -/
theorem C95_untorn (E : Env) (hist : Nat → Fs) (filter : Filter) (l : List Fs) (hl : ∀ t, hist t ∈ l)
    (h : ∀ t p c md c' md', (hist t).metadata p = .ok (.file c md) → (hist (t + 1)).metadata p = .ok (.file c' md') → c.length = c'.length) : Spec.Untorn E l (Spec.moving E hist filter) := by
  intro t p len ck evs h1 h2
  have h1 : ((hist t).metadata p).bind (fun
    | .dir => .ok .dir
    | .file c _ => .ok (.file c.length)
    | _ => .ok .other) = .ok (What.file len) := h1
  have h2 : ((hist (t + 1)).metadata p).bind (fun
    | .file c md => .ok (tripleOf c md, E.rd p c)
    | _ => .err .io) = .ok (ck, evs) := h2
  cases he : (hist t).metadata p with
  | ok e =>
    cases hf : (hist (t + 1)).metadata p with
    | ok f =>
      rw [he] at h1
      rw [hf] at h2
      cases e <;> simp [Res.bind] at h1
      cases f <;> simp [Res.bind] at h2
      rename_i c md c' md'
      exact ⟨_, hl (t + 1), c', md', hf, h2.1.symm, h2.2.symm, h1.symm.trans (h t p c md c' md' he hf)⟩
    | _ => rw [hf] at h2; simp [Res.bind] at h2
  | _ => rw [he] at h1; simp [Res.bind] at h1

/-- What a comparison does to the cache: nothing that was there is changed, and what is new was found in this run. -/
theorem C95_cache (X : Ctx) (A : Sights) (R : Repo) (q : List Bytes) (cmd : Command) (hc : cmd.compares = true) (after : Fs) (w : World) (ck : CacheKey) :
    (runRacing X A R q cmd after w).2.2.cache.get ck = w.cache.get ck ∨
      w.cache.get ck = .ok none ∧ ∃ k, (runRacing X A R q cmd after w).2.2.cache.get ck = .ok (some k) ∧ ∃ hi, Spec.Entered X.E A 0 hi ck k :=
  race_cache X A R q cmd hc after w ck

/-- What is in the cache stays, whatever is done with snapcd. -/
theorem C95_kept (w w' : World) (h : World.Ages w w') (ck : CacheKey) (k : Key) (hk : w.cache.get ck = .ok (some k)) : w'.cache.get ck = .ok (some k) := by
  induction h with
  | refl => exact hk
  | run _ X cmd ih => exact main_cache X cmd _ ck k ih
  | killed _ X cmd hc ih =>
    rcases hc with hc | hc
    · rw [get_rows hc]; exact ih
    · rw [get_rows hc]; exact main_cache X cmd _ ck k ih
  | race _ X A R q cmd hc after ih =>
    rcases race_cache X A R q cmd hc after _ ck with e | ⟨e, _⟩
    · rw [e]; exact ih
    · rw [ih] at e; simp at e
  | edit _ hc ih => rw [get_rows hc]; exact ih

/-- **C95** (a wrong key in the cache is never corrected): if the cache has a key for the inode, time and size of a file that is not the key of its stored version, however it came there, then as
long as the file is left alone every later `status` that succeeds lists it as modified, whatever is done with snapcd in between. -/
theorem C95_forever (X : Ctx) (hi : IterOk X.iter) (w w' : World) (hage : World.Ages w w') (ck : CacheKey) (k : Key) (hk : w.cache.get ck = .ok (some k)) (R : Repo) (q : List Bytes)
    (ho : Opens X w' R q) (head : Bytes) (hc : Key) (c : Commit) (hh : HeadCommit (w'.dbs q) head hc c) (B : PMap (Key × Bool)) (hB : walkItems (w'.dbs q) X.depth c.tree = .ok B)
    (m : PMap Bool) (hm : walkReal w'.fs (makeFilter X.glob R.folder) X.depth R.root = .ok m) (x : Path) (old : Key) (d : Bool) (hx : (x, false) ∈ m) (hx' : (x, old, d) ∈ B) (hne : k ≠ old)
    (cont : Bytes) (md : FileMeta) (hf : w'.fs.metadata (Path.join R.root x) = .ok (.file cont md)) (hck : tripleOf cont md = ck) (hok : (mainRun X .status w').1 = .success) :
    ∃ r, (mainRun X .status w').2.1 = [.headAt head (some (hc.asUserKey.take 8)), .result r] ∧ ⟨x, old, k⟩ ∈ r.modified := by
  rw [← C95_still X w' R q ho .status rfl] at hok ⊢
  obtain ⟨m', B', lo, hi', r, b1, ⟨dd, b2⟩, _, _, b5, b6⟩ := C95_status X hi _ w' R q _ head hc c hh hok
  obtain ⟨t', hw⟩ := asks_walk (E := X.E) (fs := w'.fs) (filter := makeFilter X.glob R.folder) R.root X.depth [] dd 0
  rw [b2] at hw
  have hm' : walkRealFrom w'.fs (makeFilter X.glob R.folder) R.root X.depth [] = .ok m := hm
  simp only [SM.lift_apply, hm', Prod.mk.injEq, Res.ok.injEq] at hw
  obtain ⟨rfl, _⟩ := hw
  simp only [toItems, hB, Res.ok.injEq] at b1
  subst b1
  obtain ⟨k', ⟨t, len, ck', evs, _, _, g1, g2, g3⟩, e⟩ := b5.allModified x old d hx hx'
  rw [resting_opened, hf] at g2
  simp only [Res.bind, Res.ok.injEq, Prod.mk.injEq] at g2
  rw [← g2.1, hck, C95_kept w w' hage ck k hk] at g3
  have hkk : k' = k := by
    rcases g3 with g3 | ⟨g3, _⟩
    · simpa using g3.symm
    · simp at g3
  subst hkk
  exact ⟨_, b6, by
    rcases e with e | e
    · exact (hne e).elim
    · exact e⟩

end Snap.Props
