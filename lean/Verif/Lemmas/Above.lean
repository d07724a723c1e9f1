import Verif.Lemmas.Sim
/-! A database with more objects: computations that succeed do the same, computations that fail got no further. -/
namespace Snap
set_option linter.unusedSectionVars false
variable [Serde] [LawfulSerde]

/-! ### Computations beside a database -/

/-- `y` only adds, in the sense of `le`; where `x` succeeds, `y` does the same; where `x` does not, it was not further than `y`. -/
def Leads {σ α} (le : σ → σ → Prop) (x y : SM σ α) : Prop :=
  ∀ s, le s (y s).2 ∧ (∀ r, (x s).1 = .ok r → y s = x s) ∧ ((x s).1.isOk = false → le (x s).2 (y s).2)

/-- If `r` is a success, `r'` is the same. -/
def ResLeads {α} (r r' : Res α) : Prop := ∀ v, r = .ok v → r' = .ok v

section
variable {σ α β : Type} {le : σ → σ → Prop}

theorem resLeads_refl (r : Res α) : ResLeads r r := fun _ h => h
theorem resLeads_bind {r r' : Res α} {f g : α → Res β} (h : ResLeads r r') (hf : ∀ a, ResLeads (f a) (g a)) : ResLeads (r >>= f) (r' >>= g) := by
  intro v hv
  obtain ⟨a, h1, h2⟩ := Res.bind_eq_ok hv
  rw [h a h1, Res.ok_bind]
  exact hf a v h2
theorem resLeads_unwrap {r r' : Res α} (h : ResLeads r r') : ResLeads r.unwrap r'.unwrap := by
  intro v hv
  cases r with
  | ok a => rw [h a rfl]; exact hv
  | err e => simp [Res.unwrap] at hv
  | panic => simp [Res.unwrap] at hv
  | fuel => simp [Res.unwrap] at hv
theorem resLeads_mapRes {f g : α → Res β} {l : List α} (h : ∀ a ∈ l, ResLeads (f a) (g a)) : ResLeads (mapRes f l) (mapRes g l) := by
  induction l with
  | nil => exact resLeads_refl _
  | cons a l ih => exact resLeads_bind (h a (by simp)) fun b => resLeads_bind (ih fun c hc => h c (by simp [hc])) fun r => resLeads_refl _

theorem leads_refl (hr : ∀ s, le s s) {x : SM σ α} (h : ∀ s, le s (x s).2) : Leads le x x := fun s => ⟨h s, fun _ _ => rfl, fun _ => hr _⟩
theorem leads_lift (hr : ∀ s, le s s) {r r' : Res α} (h : ResLeads r r') : Leads le (SM.lift r : SM σ α) (SM.lift r') :=
  fun s => ⟨hr s, fun v hv => by simp only [SM.lift_apply] at hv ⊢; rw [h v hv, hv], fun _ => hr s⟩
theorem leads_bind (ht : ∀ a b c, le a b → le b c → le a c) {x y : SM σ α} {f g : α → SM σ β} (hx : Leads le x y) (hf : ∀ a, Leads le (f a) (g a)) : Leads le (x >>= f) (y >>= g) := by
  intro s
  obtain ⟨h1, h2, h3⟩ := hx s
  have hgrow : ∀ s, le (y s).2 ((y >>= g) s).2 ∨ ((y >>= g) s).2 = (y s).2 := by
    intro s
    rw [SM.bind_apply]
    rcases hy : y s with ⟨r, s'⟩
    cases r with
    | ok a => exact .inl (hf a s').1
    | err e => exact .inr rfl
    | panic => exact .inr rfl
    | fuel => exact .inr rfl
  have hup : ∀ u, le u (y s).2 → le u ((y >>= g) s).2 := by
    intro u hu
    rcases hgrow s with h | h
    · exact ht _ _ _ hu h
    · rw [h]; exact hu
  refine ⟨hup _ h1, ?_, ?_⟩
  · intro r hr
    rw [SM.bind_apply] at hr ⊢
    conv => rhs; rw [SM.bind_apply]
    rcases hxs : x s with ⟨rx, s'⟩
    rw [hxs] at h2 hr
    cases rx with
    | ok a =>
      rw [h2 a rfl]
      exact (hf a s').2.1 r hr
    | err e => cases hr
    | panic => cases hr
    | fuel => cases hr
  · intro hr
    conv => lhs; rw [SM.bind_apply]
    rw [SM.bind_apply] at hr
    rcases hxs : x s with ⟨rx, s'⟩
    rw [hxs] at h2 h3 hr
    cases rx with
    | ok a =>
      rw [SM.bind_apply, h2 a rfl]
      exact (hf a s').2.2 hr
    | err e => exact hup _ (h3 rfl)
    | panic => exact hup _ (h3 rfl)
    | fuel => exact hup _ (h3 rfl)
theorem leads_each (hr : ∀ s, le s s) (ht : ∀ a b c, le a b → le b c → le a c) {f g : α → SM σ Unit} {l : List α} (h : ∀ a ∈ l, Leads le (f a) (g a)) : Leads le (SM.each f l) (SM.each g l) := by
  induction l with
  | nil => exact leads_refl hr fun s => hr s
  | cons a l ih => exact leads_bind ht (h a (by simp)) fun _ => ih fun b hb => h b (by simp [hb])
end

/-! ### Reading -/

/-- Every object of `a` is in `b`. -/
def Incl (a b : Db) : Prop := ∀ k v, get a k = .ok v → get b k = .ok v

variable {a b : Db} {σ α β : Type}

theorem incl_getObj (h : Incl a b) (k : Key) : ResLeads (getObj a k) (getObj b k) := resLeads_bind (h k) fun _ => resLeads_refl _
theorem incl_getItem (h : Incl a b) (k : Key) : ResLeads (getItem a k) (getItem b k) := resLeads_bind (incl_getObj h k) fun _ => resLeads_refl _
theorem incl_fromKey (h : Incl a b) (k : Key) : ResLeads (Commit.fromKey a k) (Commit.fromKey b k) := resLeads_bind (resLeads_unwrap (incl_getObj h k)) fun _ => resLeads_refl _

theorem leads_readDataTo (h : Incl a b) {le : σ → σ → Prop} (hr : ∀ s, le s s) (ht : ∀ a b c, le a b → le b c → le a c) {sink : Bytes → SM σ Unit} (hs : ∀ d s, le s (sink d s).2) (n : Nat) (k : Key) :
    Leads le (readDataTo a sink n k) (readDataTo b sink n k) := by
  induction n generalizing k with
  | zero => exact leads_refl hr fun s => hr s
  | succ n ih =>
    unfold readDataTo
    refine leads_bind ht (leads_lift hr (incl_getObj h k)) fun o => ?_
    cases o.objtype with
    | fileBlobTree => exact leads_each hr ht fun k' _ => ih k'
    | fsItemFile =>
      simp only
      match o.keys with
      | [k'] => exact ih k'
      | [] => exact leads_refl hr fun s => hr s
      | _ :: _ :: _ => exact leads_refl hr fun s => hr s
    | fileBlob => exact leads_refl hr (hs _)
    | commit => exact leads_refl hr fun s => hr s
    | fsItemDir => exact leads_refl hr fun s => hr s
    | unknown => exact leads_refl hr fun s => hr s

theorem incl_readAll (h : Incl a b) (n : Nat) (k : Key) : ResLeads (readAll a n k) (readAll b n k) := by
  intro v hv
  have := leads_readDataTo h (le := fun _ _ => True) (fun _ => trivial) (fun _ _ _ _ _ => trivial) (sink := fun d => SM.modify (· ++ d)) (fun _ _ => trivial) n k []
  unfold readAll readData at hv ⊢
  rcases hx : readDataTo a (fun d => SM.modify (· ++ d)) n k [] with ⟨r, s⟩
  rw [hx] at hv this
  cases r with
  | ok u => rw [this.2.1 u rfl]; exact hv
  | err e => cases hv
  | panic => cases hv
  | fuel => cases hv

theorem resLeads_extendAll {f g : β → Res (PMap α)} {l : List β} (h : ∀ c ∈ l, ResLeads (f c) (g c)) (m : PMap α) : ResLeads (extendAll f m l) (extendAll g m l) := by
  induction l generalizing m with
  | nil => exact resLeads_refl _
  | cons c l ih => exact resLeads_bind (h c (by simp)) fun r => ih (fun c hc => h c (by simp [hc])) _

theorem incl_walkFrom (h : Incl a b) (n : Nat) (k : Key) (path : Path) : ResLeads (walkItemsFrom a n k path) (walkItemsFrom b n k path) := by
  induction n generalizing k path with
  | zero => exact resLeads_refl _
  | succ n ih =>
    unfold walkItemsFrom
    refine resLeads_bind (incl_getItem h k) fun i => ?_
    cases i.itemtype with
    | dir => exact resLeads_extendAll (fun c _ => ih c.1 _) _
    | file => exact resLeads_refl _
theorem incl_walk (h : Incl a b) (n : Nat) (k : Key) : ResLeads (walkItems a n k) (walkItems b n k) := incl_walkFrom h n k []

theorem incl_countStat (h : Incl a b) (n : Nat) (isDir : α → Bool) (key : α → Option Key) (mk : α → Nat → FileStat) (l : List α) :
    ResLeads (countStat a n isDir key mk l) (countStat b n isDir key mk l) := by
  unfold countStat
  refine resLeads_bind (resLeads_mapRes fun x _ => ?_) fun _ => resLeads_refl _
  match key x with
  | none => exact resLeads_refl _
  | some k => exact resLeads_bind (resLeads_bind (resLeads_unwrap (incl_readAll h n k)) fun _ => resLeads_refl _) fun _ => resLeads_refl _

theorem incl_printedStat (h : Incl a b) (lib : DiffLib) (n : Nat) (r : DiffResult) : ResLeads (printedStat lib a n r) (printedStat lib b n r) := by
  unfold printedStat lineStat
  refine resLeads_bind (resLeads_bind (incl_countStat h n _ _ _ _) fun _ => resLeads_bind (incl_countStat h n _ _ _ _) fun _ => resLeads_bind (resLeads_mapRes fun x _ => ?_) fun _ => resLeads_refl _)
    fun _ => resLeads_refl _
  exact resLeads_bind (resLeads_unwrap (incl_readAll h n _)) fun _ => resLeads_bind (resLeads_unwrap (incl_readAll h n _)) fun _ => resLeads_refl _

theorem resLeads_filePatches {isDir : α → Bool} {key : α → Option Key} {mk mk' : α → Key → Res Patch} {l : List α} (hl : ∀ x k, ResLeads (mk x k) (mk' x k)) :
    ResLeads (filePatches isDir key mk l) (filePatches isDir key mk' l) := by
  unfold filePatches
  refine resLeads_bind (resLeads_mapRes fun x _ => ?_) fun _ => resLeads_refl _
  match key x with
  | none => exact resLeads_refl _
  | some k => exact resLeads_bind (hl x k) fun _ => resLeads_refl _

theorem incl_createPatch (h : Incl a b) (lib : DiffLib) (n : Nat) (r : DiffResult) : ResLeads (createPatch lib a n r) (createPatch lib b n r) := by
  unfold createPatch
  refine resLeads_bind (resLeads_filePatches fun x k => ?_) fun _ => resLeads_bind (resLeads_filePatches fun x k => ?_) fun _ => resLeads_bind (resLeads_mapRes fun x _ => ?_) fun _ => resLeads_refl _
  · exact resLeads_bind (resLeads_unwrap (incl_readAll h n k)) fun _ => resLeads_refl _
  · exact resLeads_bind (resLeads_unwrap (incl_readAll h n k)) fun _ => resLeads_refl _
  · exact resLeads_bind (resLeads_unwrap (incl_readAll h n _)) fun _ => resLeads_bind (resLeads_unwrap (incl_readAll h n _)) fun _ => resLeads_refl _

/-! ### Restoring -/

theorem leads_getFsItem (h : Incl a b) {le : Fs → Fs → Prop} (hr : ∀ s, le s s) (ht : ∀ a b c, le a b → le b c → le a c) (h1 : ∀ p s, le s (Fs.createDirAll p s).2)
    (h2 : ∀ p s, le s (Fs.createNew p s).2) (h3 : ∀ f d s, le s (Fs.writeAll f d s).2) (n : Nat) (k : Key) (path : Path) : Leads le (getFsItem a n k path) (getFsItem b n k path) := by
  induction n generalizing k path with
  | zero => exact leads_refl hr fun s => hr s
  | succ n ih =>
    unfold getFsItem
    refine leads_bind ht (leads_lift hr (incl_getItem h k)) fun i => ?_
    cases i.itemtype with
    | dir => exact leads_each hr ht fun c _ => ih c.1 _
    | file =>
      have hrest : Leads le (do let f ← Fs.createNew path; (match i.children with | c :: _ => readDataTo a (Fs.writeAll f) n c | [] => SM.panic : SM Fs Unit))
          (do let f ← Fs.createNew path; (match i.children with | c :: _ => readDataTo b (Fs.writeAll f) n c | [] => SM.panic : SM Fs Unit)) := by
        refine leads_bind ht (leads_refl hr (h2 path)) fun f => ?_
        match i.children with
        | [] => exact leads_refl hr fun s => hr s
        | c :: _ => exact leads_readDataTo h hr ht (h3 f) n c
      cases hp : Path.parent path with
      | none => simp only; exact hrest
      | some q => simp only; exact leads_bind ht (leads_refl hr (h1 q)) fun _ => hrest

theorem leads_checkout (h : Incl a b) (filter : Filter) (iter : List Bytes → List Bytes) (n : Nat) (k : Key) (path : Path) :
    Leads (fun _ _ => True) (checkoutFsItem a filter iter n k path) (checkoutFsItem b filter iter n k path) := by
  have hr : ∀ s : Fs, (fun _ _ : Fs => True) s s := fun _ => trivial
  have ht : ∀ a b c : Fs, (fun _ _ : Fs => True) a b → (fun _ _ : Fs => True) b c → (fun _ _ : Fs => True) a c := fun _ _ _ _ _ => trivial
  induction n generalizing k path with
  | zero => exact leads_refl hr fun s => hr s
  | succ n ih =>
    unfold checkoutFsItem
    refine leads_bind ht (leads_lift hr (incl_getItem h k)) fun i => ?_
    cases i.itemtype with
    | dir =>
      refine leads_bind ht (leads_refl hr fun s => trivial) fun all => leads_bind ht (leads_refl hr fun s => trivial) fun mine => leads_bind ht (leads_refl hr fun s => trivial) fun _ => ?_
      exact leads_each hr ht fun c _ => leads_bind ht (leads_refl hr fun s => trivial) fun _ => ih c.1 _
    | file =>
      refine leads_bind ht (leads_refl hr fun s => trivial) fun f => ?_
      split
      · match i.children with
        | [] => exact leads_refl hr fun s => trivial
        | c :: _ => exact leads_readDataTo h hr ht (fun _ _ => trivial) n c
      · exact leads_refl hr fun s => trivial

/-! ### Databases -/

/-- `b` has the objects of `a` and possibly more; HEAD, refs and the failures to come are the same; the rows of both are values under their own hash, from `T`. -/
structure Above (H : Bytes → Key) (T : Bytes → Prop) (a b : Db) : Prop where
  incl : Incl a b
  state : a.state = b.state
  reflog : a.reflog = b.reflog
  faults : a.faults = b.faults
  left : ∀ r ∈ a.data, r.1 = (H r.2).asDbKey ∧ T r.2
  right : ∀ r ∈ b.data, r.1 = (H r.2).asDbKey ∧ T r.2

/-- A computation on a state with a database (`π`) and a terminal (`out`): it only adds to what was hashed and what was printed; started in states related by `R`, if it succeeds in
the first, it does the same in the second, and the states are again related; and if it does not, it printed no more than in the second. -/
structure Up {σ α} (π : σ → Db) (out : σ → List Out) (T : Bytes → Prop) (R : σ → σ → Prop) (x : SM σ α) : Prop where
  hashed : ∀ s, ∀ y ∈ (π s).hashed, y ∈ (π (x s).2).hashed
  grows : ∀ s, out s <+: out (x s).2
  same : ∀ s t, R s t → (∀ y ∈ (π (x s).2).hashed, T y) → ∀ v, (x s).1 = .ok v → (x t).1 = .ok v ∧ R (x s).2 (x t).2
  fails : ∀ s t, R s t → (∀ y ∈ (π (x s).2).hashed, T y) → (x s).1.isOk = false → out (x s).2 <+: out (x t).2

section
variable {π : σ → Db} {out : σ → List Out} {T : Bytes → Prop} {R : σ → σ → Prop}

theorem up_read {f : σ → Res α} (ho : ∀ s t, R s t → out s = out t) (h : ∀ s t, R s t → ResLeads (f s) (f t)) : Up π out T R (SM.read f) :=
  ⟨fun _ _ h => h, fun _ => List.prefix_refl _, fun s t hr _ v hv => ⟨h s t hr v hv, hr⟩, fun s t hr _ _ => by simp only [SM.read_apply]; rw [ho s t hr]; exact List.prefix_refl _⟩
theorem up_lift (ho : ∀ s t, R s t → out s = out t) (r : Res α) : Up π out T R (SM.lift r : SM σ α) := up_read ho fun _ _ _ => resLeads_refl _
theorem up_pure (ho : ∀ s t, R s t → out s = out t) (v : α) : Up π out T R (pure v : SM σ α) := up_read ho fun _ _ _ => resLeads_refl (.ok v)
theorem up_throw (ho : ∀ s t, R s t → out s = out t) (e : Err) : Up π out T R (SM.throw e : SM σ α) := up_read ho fun _ _ _ => resLeads_refl (.err e)
theorem up_panic (ho : ∀ s t, R s t → out s = out t) : Up π out T R (SM.panic : SM σ α) := up_read ho fun _ _ _ => resLeads_refl .panic

theorem up_bind {x : SM σ α} {f : α → SM σ β} (hx : Up π out T R x) (hf : ∀ v, Up π out T R (f v)) : Up π out T R (x >>= f) := by
  have hstep : ∀ s, (∀ y ∈ (π (x s).2).hashed, y ∈ (π ((x >>= f) s).2).hashed) ∧ out (x s).2 <+: out ((x >>= f) s).2 := by
    intro s
    rw [SM.bind_apply]
    rcases x s with ⟨r, s'⟩
    cases r with
    | ok v => exact ⟨(hf v).hashed s', (hf v).grows s'⟩
    | err e => exact ⟨fun _ h => h, List.prefix_refl _⟩
    | panic => exact ⟨fun _ h => h, List.prefix_refl _⟩
    | fuel => exact ⟨fun _ h => h, List.prefix_refl _⟩
  refine ⟨fun s y hy => (hstep s).1 y (hx.hashed s y hy), fun s => (hx.grows s).trans (hstep s).2, ?_, ?_⟩
  · intro s t hr hT v hv
    have hT' : ∀ y ∈ (π (x s).2).hashed, T y := fun y hy => hT y ((hstep s).1 y hy)
    have h1 := hx.same s t hr hT'
    rw [SM.bind_apply] at hv hT ⊢
    rw [SM.bind_apply]
    rcases hxs : x s with ⟨r, s'⟩
    rw [hxs] at hv h1 hT
    cases r with
    | ok u =>
      obtain ⟨h2, h3⟩ := h1 u rfl
      rcases hxt : x t with ⟨r', t'⟩
      rw [hxt] at h2 h3
      simp only at h2 h3
      subst h2
      exact (hf u).same s' t' h3 hT v hv
    | err e => cases hv
    | panic => cases hv
    | fuel => cases hv
  · intro s t hr hT hv
    have hT' : ∀ y ∈ (π (x s).2).hashed, T y := fun y hy => hT y ((hstep s).1 y hy)
    have h1 := hx.same s t hr hT'
    have h2 := hx.fails s t hr hT'
    have h3 := (hstep t).2
    rw [SM.bind_apply] at hv hT
    rcases hxs : x s with ⟨r, s'⟩
    have e : ((x >>= f) s) = _ := SM.bind_apply x f s
    rw [hxs] at hv h1 h2 hT e
    rw [e]
    cases r with
    | ok u =>
      obtain ⟨h4, h5⟩ := h1 u rfl
      rw [SM.bind_apply]
      rcases hxt : x t with ⟨r', t'⟩
      rw [hxt] at h4 h5
      simp only at h4 h5
      subst h4
      exact (hf u).fails s' t' h5 hT hv
    | err e => exact (h2 rfl).trans h3
    | panic => exact (h2 rfl).trans h3
    | fuel => exact (h2 rfl).trans h3

theorem up_ite {c : Prop} [Decidable c] {x y : SM σ α} (hx : Up π out T R x) (hy : Up π out T R y) : Up π out T R (if c then x else y) := by split <;> assumption
theorem up_unwrap {x : SM σ α} (h : Up π out T R x) : Up π out T R (SM.unwrap x) := by
  have hn : ∀ s, (SM.unwrap x s).1.isOk = (x s).1.isOk := by intro s; unfold SM.unwrap; cases (x s).1 <;> rfl
  refine ⟨h.hashed, h.grows, fun s t hr hT v hv => ?_, fun s t hr hT hv => h.fails s t hr hT (by rw [← hn]; exact hv)⟩
  have hv' : (x s).1 = .ok v := by unfold SM.unwrap at hv; cases hx : (x s).1 <;> rw [hx] at hv <;> simp [Res.unwrap] at hv; rw [hv]
  obtain ⟨h1, h2⟩ := h.same s t hr hT v hv'
  exact ⟨by unfold SM.unwrap; simp only [h1]; rfl, h2⟩
theorem up_each (ho : ∀ s t, R s t → out s = out t) {f : α → SM σ Unit} (h : ∀ v, Up π out T R (f v)) (l : List α) : Up π out T R (SM.each f l) := by
  induction l with
  | nil => exact up_pure ho _
  | cons v l ih => exact up_bind (h v) fun _ => ih
theorem up_mapSM (ho : ∀ s t, R s t → out s = out t) {f : α → SM σ β} (h : ∀ v, Up π out T R (f v)) (l : List α) : Up π out T R (mapSM f l) := by
  induction l with
  | nil => exact up_pure ho _
  | cons v l ih => exact up_bind (h v) fun _ => up_bind ih fun _ => up_pure ho _
end

section
variable {H : Bytes → Key} {T : Bytes → Prop}

theorem put_same {a b : Db} (hf : a.faults = b.faults) {d : Bytes} {k : Key} (h : (put H d a).1 = .ok k) :
    put H d a = (.ok (H d), { a with hashed := d :: a.hashed, faults := a.faults.tail, data := insertIgnore a.data (H d).asDbKey d }) ∧
    put H d b = (.ok (H d), { b with hashed := d :: b.hashed, faults := b.faults.tail, data := insertIgnore b.data (H d).asDbKey d }) := by
  obtain ⟨da, sa, ra, ha, fa⟩ := a
  obtain ⟨db, sb, rb, hb, fb⟩ := b
  simp only at hf
  subst hf
  match fa with
  | true :: fs => cases h
  | false :: fs => exact ⟨rfl, rfl⟩
  | [] => exact ⟨rfl, rfl⟩

theorem rows_put {data : List (Bytes × Bytes)} (h : ∀ r ∈ data, r.1 = (H r.2).asDbKey ∧ T r.2) {d : Bytes} (hd : T d) :
    ∀ r ∈ insertIgnore data (H d).asDbKey d, r.1 = (H r.2).asDbKey ∧ T r.2 := by
  rcases insertIgnore_cases data (H d).asDbKey d with ⟨_, e⟩ | ⟨_, e⟩ <;> rw [e]
  · exact h
  · intro r hr
    rcases List.mem_append.mp hr with hr | hr
    · exact h r hr
    · simp only [List.mem_singleton] at hr; subst hr; exact ⟨rfl, hd⟩

theorem up_put (hT : ∀ x y, T x → T y → H x = H y → x = y) (d : Bytes) : Up id (fun _ => []) T (Above H T) (put H d) := by
  refine ⟨fun s y hy => ?_, fun _ => List.prefix_refl _, fun s t hr hh v hv => ?_, fun _ _ _ _ _ => List.prefix_refl _⟩
  · rcases put_cases H d s with e | e <;> simp only [id, e, List.mem_cons] <;> exact .inr hy
  · obtain ⟨e1, e2⟩ := put_same hr.faults hv
    have hd : T d := hh d (by simp [e1])
    rw [e1] at hv
    simp only [e1, e2]
    refine ⟨hv, fun k v hk => ?_, hr.state, hr.reflog, by simp only [hr.faults], rows_put hr.left hd, rows_put hr.right hd⟩
    rw [get_eq_ok] at hk ⊢
    simp only [insertIgnore_assoc] at hk ⊢
    cases ha : assoc s.data k.asDbKey with
    | some u =>
      rw [ha] at hk
      simp only [Option.some_or] at hk
      rw [get_eq_ok.mp (hr.incl k u (get_eq_ok.mpr ha))]
      exact hk
    | none =>
      rw [ha] at hk
      simp only [Option.none_or] at hk
      cases hb : assoc t.data k.asDbKey with
      | none => simpa using hk
      | some u =>
        simp only [Option.some_or]
        obtain ⟨r1, r2⟩ := hr.right _ (assoc_some_mem hb)
        simp only at r1 r2
        split at hk
        · rename_i hkd
          have : u = d := hT u d r2 hd (asDbKey_inj (by rw [← r1, hkd]))
          subst this
          exact hk
        · cases hk

theorem up_isPuts (hT : ∀ x y, T x → T y → H x = H y → x = y) {x : M α} (h : IsPuts H x) : Up id (fun _ => []) T (Above H T) x := by
  obtain ⟨ws, r, h⟩ := h
  have e : x = execPuts H ws r := SM.ext' h
  subst e
  clear h
  induction ws with
  | nil => exact up_lift (fun _ _ _ => rfl) _
  | cons w ws ih => exact up_bind (up_put hT w) fun _ => ih

/-! ### compare -/

/-- Databases related by `Above`, the rest equal. -/
def AboveFst (H : Bytes → Key) (T : Bytes → Prop) {τ : Type} (s t : Db × τ) : Prop := Above H T s.1 t.1 ∧ s.2 = t.2

theorem up_fst {τ : Type} {x : M α} (h : Up id (fun _ => []) T (Above H T) x) : Up (Prod.fst : Db × τ → Db) (fun _ => []) T (AboveFst H T) (SM.fst x) :=
  ⟨fun s => h.hashed s.1, fun _ => List.prefix_refl _, fun s t hr hh v hv => ⟨(h.same s.1 t.1 hr.1 hh v hv).1, (h.same s.1 t.1 hr.1 hh v hv).2, hr.2⟩, fun _ _ _ _ _ => List.prefix_refl _⟩

theorem up_snd {τ : Type} (x : SM τ α) : Up (Prod.fst : Db × τ → Db) (fun _ => []) T (AboveFst H T) (SM.snd x) := by
  refine ⟨fun s _ h => h, fun _ => List.prefix_refl _, fun s t hr hh v hv => ?_, fun _ _ _ _ _ => List.prefix_refl _⟩
  obtain ⟨s1, s2⟩ := s
  obtain ⟨t1, t2⟩ := t
  obtain ⟨h1, rfl⟩ := hr
  exact ⟨hv, h1, rfl⟩

theorem up_hashFsItem (E : Env) (hT : ∀ x y, T x → T y → E.H x = E.H y → x = y) (fs : Fs) (path : Path) : Up Prod.fst (fun _ => []) T (AboveFst E.H T) (hashFsItem E fs path) := by
  have ho : ∀ s t : Db × Cache, AboveFst E.H T s t → ([] : List Out) = [] := fun _ _ _ => rfl
  unfold hashFsItem
  refine up_bind (up_lift ho _) fun e => ?_
  cases e with
  | file c md =>
    refine up_bind (up_read ho fun s t h => by rw [h.2]; exact resLeads_refl _) fun o => ?_
    cases o with
    | some h => exact up_pure ho _
    | none => exact up_bind (up_fst (up_isPuts hT (isPuts_putFile E path c))) fun k => up_bind (up_snd _) fun _ => up_pure ho _
  | dir => exact up_throw ho _
  | special => exact up_throw ho _
  | broken => exact up_throw ho _

theorem up_compare (E : Env) (hT : ∀ x y, T x → T y → E.H x = E.H y → x = y) (fs : Fs) (iter : Nat → List Path → List Path) (n : Nat) (source : Target) (to : Option Key) :
    Up Prod.fst (fun _ => []) T (AboveFst E.H T) (compare E fs iter n source to) := by
  have ho : ∀ s t : Db × Cache, AboveFst E.H T s t → ([] : List Out) = [] := fun _ _ _ => rfl
  unfold compare
  refine up_bind ?_ fun m => ?_
  · cases source with
    | fileSystem path glob dbPath => exact up_bind (up_lift ho _) fun m => up_pure ho _
    | database key => exact up_bind (up_read ho fun s t h => incl_walk h.1.incl n key) fun m => up_pure ho _
  refine up_bind ?_ fun B => ?_
  · cases to with
    | none => exact up_pure ho _
    | some t => exact up_read ho fun s u h => incl_walk h.1.incl n t
  refine up_bind (up_mapSM ho (fun x => ?_) _) fun added => up_bind (up_mapSM ho (fun x => up_lift ho _) _) fun deleted => up_bind (up_mapSM ho (fun x => ?_) _) fun modified => up_pure ho _
  · unfold addedOf
    refine up_bind ?_ fun key => up_bind (up_lift ho _) fun d => up_pure ho _
    cases m with
    | left y => exact up_bind (up_lift ho _) fun c => up_ite (up_pure ho _) (up_bind (up_unwrap (up_hashFsItem E hT fs x)) fun _ => up_pure ho _)
    | right y =>
      simp only
      match y.get x with
      | none => exact up_panic ho
      | some v => exact up_pure ho _
  · unfold modifiedOf
    refine up_bind ?_ fun f => ?_
    · cases m with
      | left y =>
        simp only
        match y.get x with
        | none => exact up_panic ho
        | some true => exact up_pure ho _
        | some false => exact up_bind (up_hashFsItem E hT fs _) fun _ => up_pure ho _
      | right y =>
        simp only
        match y.get x with
        | none => exact up_panic ho
        | some v => exact up_pure ho _
    · cases f with
      | none => exact up_pure ho _
      | some f =>
        simp only
        match B.get x with
        | none => exact up_panic ho
        | some t => exact up_pure ho _

end

end Snap
