import Verif.Lemmas.Diff
import Verif.Lemmas.Tree
import Verif.Lemmas.Commit
import Verif.Model.Cli
/-! Computations whose effect on the database is that of a list of calls of the data store. -/
namespace Snap
set_option linter.unusedSectionVars false
variable [Serde] [LawfulSerde]

theorem runCalls_append (H : Bytes → Key) (a b : List Call) (db : Db) : runCalls H (a ++ b) db = runCalls H b (runCalls H a db) := by
  induction a generalizing db with
  | nil => rfl
  | cons c a ih => exact ih _

theorem call_hashed (H : Bytes → Key) (c : Call) (db : Db) : ∀ x ∈ db.hashed, x ∈ (c.run H db).2.hashed := by
  intro x hx
  cases c with
  | put d =>
    simp only [Call.run, SM.bind_apply]
    rcases put_cases H d db with e | e <;> rw [e] <;> exact List.mem_cons_of_mem _ hx
  | rawPut k v =>
    simp only [Call.run, Snap.rawPut]
    rcases write_cases (fun db => { db with data := insertIgnore db.data k v }) db with ⟨fs, _, e⟩ | e <;> rw [e] <;> exact hx
  | putState k v =>
    simp only [Call.run, Snap.rawPutState]
    rcases write_cases (fun db => { db with state := insertReplace db.state k v }) db with ⟨fs, _, e⟩ | e <;> rw [e] <;> exact hx
  | putHead v =>
    simp only [Call.run, Snap.putHead, Snap.rawPutState]
    rcases write_cases (fun db => { db with state := insertReplace db.state sHEAD v }) db with ⟨fs, _, e⟩ | e <;> rw [e] <;> exact hx
  | reflogPush n r k =>
    simp only [Call.run, Snap.reflogPush]
    rcases write_cases (fun db => { db with reflog := db.reflog ++ [⟨n, r, k.asDbKey⟩] }) db with ⟨fs, _, e⟩ | e <;> rw [e] <;> exact hx

theorem calls_hashed (H : Bytes → Key) (cs : List Call) (db : Db) : ∀ x ∈ db.hashed, x ∈ (runCalls H cs db).hashed := by
  induction cs generalizing db with
  | nil => exact fun _ h => h
  | cons c cs ih => exact fun x hx => ih _ x (call_hashed H c db x hx)

theorem prefix_split {γ} {l a b : List γ} (h : l <+: a ++ b) : l <+: a ∨ ∃ e, l = a ++ e ∧ e <+: b := by
  rcases List.prefix_or_prefix_of_prefix h (List.prefix_append a b) with h1 | ⟨e, rfl⟩
  · exact Or.inl h1
  · exact Or.inr ⟨e, rfl, (List.prefix_append_right_inj a).mp h⟩

/-- From every state satisfying `p` and the invariant `I`, the computation performs calls of the kind `C` on the database (`π` of the state) and nothing else; `I` holds
before and after each call, and `Q` in the end if it succeeds. -/
def Steps {σ α} (π : σ → Db) (H : Bytes → Key) (I : Db → Prop) (C : Call → Prop) (p : Db → Prop) (x : SM σ α) (Q : α → Db → Prop) : Prop :=
  ∀ s, I (π s) → p (π s) → ∃ cs : List Call, (∀ c ∈ cs, C c) ∧ π (x s).2 = runCalls H cs (π s) ∧ (∀ cs', cs' <+: cs → I (runCalls H cs' (π s))) ∧
    ∀ a, (x s).1 = .ok a → Q a (π (x s).2)

/-- Only the invariant and the kind of calls. -/
def Keeps {σ α} (π : σ → Db) (H : Bytes → Key) (I : Db → Prop) (C : Call → Prop) (x : SM σ α) : Prop :=
  Steps π H I C (fun _ => True) x (fun _ _ => True)

/-- Only the kind of calls. -/
abbrev Traced {σ α} (π : σ → Db) (H : Bytes → Key) (C : Call → Prop) (x : SM σ α) : Prop := Keeps π H (fun _ => True) C x

/-- Preserved by more objects. -/
def Stable (p : Db → Prop) : Prop := ∀ a b : Db, a.data <+: b.data → (∀ x ∈ a.hashed, x ∈ b.hashed) → p a → p b

variable {σ τ α β : Type} {π : σ → Db} {H : Bytes → Key} {I : Db → Prop} {C : Call → Prop} {p : Db → Prop}

theorem steps_silent {x : SM σ α} {Q : α → Db → Prop} (h : ∀ s, π (x s).2 = π s) (hq : ∀ s, p (π s) → ∀ a, (x s).1 = .ok a → Q a (π s)) : Steps π H I C p x Q := by
  intro s hi hp
  refine ⟨[], by simp, h s, ?_, ?_⟩
  · intro cs' hc
    have := List.prefix_nil.mp hc
    subst this
    exact hi
  · intro a ha
    rw [h s]
    exact hq s hp a ha

theorem steps_pure {a : α} {Q : α → Db → Prop} (h : ∀ d, p d → Q a d) : Steps π H I C p (pure a : SM σ α) Q :=
  steps_silent (fun _ => rfl) (fun s hp b hb => by simp at hb; subst hb; exact h _ hp)
theorem steps_lift {r : Res α} {Q : α → Db → Prop} (h : ∀ d, p d → ∀ a, r = .ok a → Q a d) : Steps π H I C p (SM.lift r : SM σ α) Q :=
  steps_silent (fun _ => rfl) (fun s hp a ha => h _ hp a ha)
theorem steps_throw {e : Err} {Q : α → Db → Prop} : Steps π H I C p (SM.throw e : SM σ α) Q :=
  steps_silent (fun _ => rfl) (fun s hp a ha => by simp at ha)
theorem steps_panic {Q : α → Db → Prop} : Steps π H I C p (SM.panic : SM σ α) Q :=
  steps_silent (fun _ => rfl) (fun s hp a ha => by simp at ha)
theorem steps_read {f : σ → Res α} {Q : α → Db → Prop} (h : ∀ s, p (π s) → ∀ a, f s = .ok a → Q a (π s)) : Steps π H I C p (SM.read f) Q :=
  steps_silent (fun _ => rfl) h

theorem steps_bind {x : SM σ α} {f : α → SM σ β} {Q : α → Db → Prop} {R : β → Db → Prop} (hs : Stable p) (hx : Steps π H I C p x Q)
    (hf : ∀ a, Steps π H I C (fun d => p d ∧ Q a d) (f a) R) : Steps π H I C p (x >>= f) R := by
  intro s hi hp
  obtain ⟨cs, h1, h2, h3, h4⟩ := hx s hi hp
  rw [SM.bind_apply]
  cases hxs : x s with
  | mk r s' =>
    rw [hxs] at h2 h4
    simp only at h2 h4
    cases r with
    | ok a =>
      have hi' : I (π s') := by rw [h2]; exact h3 cs (List.prefix_refl _)
      have hp' : p (π s') := hs _ _ (by rw [h2]; exact runCalls_data_prefix H cs _) (by rw [h2]; exact calls_hashed H cs _) hp
      obtain ⟨ds, g1, g2, g3, g4⟩ := hf a s' hi' ⟨hp', h4 a rfl⟩
      refine ⟨cs ++ ds, ?_, ?_, ?_, g4⟩
      · intro c hc
        rcases List.mem_append.mp hc with hc | hc
        · exact h1 c hc
        · exact g1 c hc
      · rw [runCalls_append, ← h2]; exact g2
      · intro cs' hc
        rcases prefix_split hc with hc | ⟨es, he, hc2⟩
        · exact h3 _ hc
        · subst he
          rw [runCalls_append, ← h2]
          exact g3 _ hc2
    | err e => exact ⟨cs, h1, h2, h3, by simp⟩
    | panic => exact ⟨cs, h1, h2, h3, by simp⟩
    | fuel => exact ⟨cs, h1, h2, h3, by simp⟩

theorem steps_weaken {x : SM σ α} {C' : Call → Prop} {p' : Db → Prop} {Q Q' : α → Db → Prop} (h : Steps π H I C p x Q) (hc : ∀ c, C c → C' c) (hp : ∀ d, p' d → p d)
    (hq : ∀ a d, Q a d → Q' a d) : Steps π H I C' p' x Q' := by
  intro s hi hp'
  obtain ⟨cs, h1, h2, h3, h4⟩ := h s hi (hp _ hp')
  exact ⟨cs, fun c hm => hc c (h1 c hm), h2, h3, fun a ha => hq a _ (h4 a ha)⟩

theorem steps_unwrap {x : SM σ α} {Q : α → Db → Prop} (h : Steps π H I C p x Q) : Steps π H I C p (SM.unwrap x) Q := by
  intro s hi hp
  obtain ⟨cs, h1, h2, h3, h4⟩ := h s hi hp
  refine ⟨cs, h1, h2, h3, fun a ha => h4 a ?_⟩
  unfold SM.unwrap at ha
  cases hx : (x s).1 <;> rw [hx] at ha <;> simp [Res.unwrap] at ha
  rw [ha]

/-- A computation that looks at the state first. -/
theorem steps_self {x : σ → SM σ α} {Q : α → Db → Prop} (h : ∀ s, Steps π H I C p (x s) Q) : Steps π H I C p (fun s => x s s) Q :=
  fun s hi hp => h s s hi hp

theorem steps_each {f : α → SM σ Unit} (hs : Stable p) {l : List α} (h : ∀ a ∈ l, Steps π H I C p (f a) (fun _ _ => True)) : Steps π H I C p (SM.each f l) (fun _ _ => True) := by
  induction l with
  | nil => exact steps_pure (fun _ _ => trivial)
  | cons a l ih =>
    refine steps_bind hs (h a (by simp)) fun _ => ?_
    exact steps_weaken (ih fun b hb => h b (by simp [hb])) (fun _ h => h) (fun _ h => h.1) (fun _ _ h => h)

theorem stable_true : Stable (fun _ => True) := fun _ _ _ _ _ => trivial

/-! Only the kind of calls -/

theorem traced_silent {x : SM σ α} (h : ∀ s, π (x s).2 = π s) : Keeps π H I C x := steps_silent h (fun _ _ _ _ => trivial)
theorem traced_pure (a : α) : Keeps π H I C (pure a : SM σ α) := traced_silent fun _ => rfl
theorem traced_lift (r : Res α) : Keeps π H I C (SM.lift r : SM σ α) := traced_silent fun _ => rfl
theorem traced_throw (e : Err) : Keeps π H I C (SM.throw e : SM σ α) := traced_silent fun _ => rfl
theorem traced_panic : Keeps π H I C (SM.panic : SM σ α) := traced_silent fun _ => rfl
theorem traced_read (f : σ → Res α) : Keeps π H I C (SM.read f) := traced_silent fun _ => rfl
theorem traced_bind {x : SM σ α} {f : α → SM σ β} (hx : Keeps π H I C x) (hf : ∀ a, Keeps π H I C (f a)) : Keeps π H I C (x >>= f) :=
  steps_bind stable_true hx fun a => steps_weaken (hf a) (fun _ h => h) (fun _ _ => trivial) (fun _ _ h => h)
theorem traced_unwrap {x : SM σ α} (h : Keeps π H I C x) : Keeps π H I C (SM.unwrap x) := steps_unwrap h
theorem traced_self {x : σ → SM σ α} (h : ∀ s, Keeps π H I C (x s)) : Keeps π H I C (fun s => x s s) := steps_self h
theorem traced_each {f : α → SM σ Unit} (h : ∀ a, Keeps π H I C (f a)) (l : List α) : Keeps π H I C (SM.each f l) := steps_each stable_true fun a _ => h a
theorem traced_mono {C' : Call → Prop} {x : SM σ α} (h : Keeps π H I C x) (hc : ∀ c, C c → C' c) : Keeps π H I C' x := steps_weaken h hc (fun _ h => h) (fun _ _ h => h)
theorem traced_mapSM {f : α → SM σ β} (h : ∀ a, Keeps π H I C (f a)) (l : List α) : Keeps π H I C (mapSM f l) := by
  induction l with
  | nil => exact traced_pure _
  | cons a l ih => exact traced_bind (h a) fun b => traced_bind ih fun r => traced_pure _
theorem traced_eq {x : SM σ α} (h : Traced π H (fun _ => False) x) (s : σ) : π (x s).2 = π s := by
  obtain ⟨cs, h1, h2, _⟩ := h s trivial trivial
  cases cs with
  | nil => exact h2
  | cons c cs => exact (h1 c (by simp)).elim

/-- Lifting to a state with more components. -/
theorem steps_on {get : σ → τ} {set : τ → σ → σ} {x : SM τ α} {Q : α → Db → Prop} {ρ : τ → Db} (h : Steps ρ H I C p x Q) (h1 : ∀ s, ρ (get s) = π s)
    (h2 : ∀ t s, π (set t s) = ρ t) : Steps π H I C p (SM.on get set x) Q := by
  intro s hi hp
  rw [← h1] at hi hp
  obtain ⟨cs, g1, g2, g3, g4⟩ := h (get s) hi hp
  rw [h1] at g2 g3
  refine ⟨cs, g1, ?_, g3, ?_⟩
  · show π (set (x (get s)).2 s) = _
    rw [h2, g2]
  · intro a ha
    show Q a (π (set (x (get s)).2 s))
    rw [h2]
    exact g4 a ha

/-! Calls -/

theorem call_put_result (H : Bytes → Key) (d : Bytes) (db : Db) : ((Call.put d).run H db).2 = (put H d db).2 := by
  simp only [Call.run, SM.bind_apply]
  rcases put_cases H d db with e | e <;> rw [e] <;> rfl

/-- A `put` call. -/
def Call.isPut : Call → Prop
  | .put _ => True
  | _ => False

theorem traced_put (d : Bytes) : Traced id H Call.isPut (put H d) := by
  intro s _ _
  refine ⟨[.put d], by simp [Call.isPut], (call_put_result H d s).symm, fun _ _ => trivial, fun _ _ => trivial⟩

theorem traced_isPuts {x : M α} (h : IsPuts H x) : Traced id H Call.isPut x := by
  obtain ⟨ws, r, h⟩ := h
  have e : x = execPuts H ws r := SM.ext' h
  subst e
  clear h
  induction ws with
  | nil => exact traced_lift _
  | cons w ws ih => exact traced_bind (traced_put w) fun _ => ih

theorem traced_fst {x : SM Db α} (h : Keeps id H I C x) : Keeps (Prod.fst : Db × τ → Db) H I C (SM.fst x) := by
  intro s hi hp
  obtain ⟨cs, g1, g2, g3, g4⟩ := h s.1 hi hp
  exact ⟨cs, g1, g2, g3, g4⟩

theorem keeps_hashFsItem (E : Env) (fs : Fs) (hp : ∀ path c, Keeps id E.H I Call.isPut (putFile E path c)) (path : Path) : Keeps Prod.fst E.H I Call.isPut (hashFsItem E fs path) := by
  unfold hashFsItem
  refine traced_bind (traced_lift _) fun e => ?_
  cases e with
  | file c md =>
    refine traced_bind (traced_read _) fun o => ?_
    cases o with
    | some h => exact traced_pure _
    | none => exact traced_bind (traced_fst (hp path c)) fun k => traced_bind (traced_silent fun _ => rfl) fun _ => traced_pure _
  | dir => exact traced_throw _
  | special => exact traced_throw _
  | broken => exact traced_throw _

theorem traced_ite {c : Prop} [Decidable c] {x y : SM σ α} (hx : Keeps π H I C x) (hy : Keeps π H I C y) : Keeps π H I C (if c then x else y) := by split <;> assumption

theorem keeps_compare (E : Env) (fs : Fs) (hp : ∀ path c, Keeps id E.H I Call.isPut (putFile E path c)) (iter : Nat → List Path → List Path) (n : Nat) (source : Target) (to : Option Key) :
    Keeps Prod.fst E.H I Call.isPut (compare E fs iter n source to) := by
  unfold compare
  refine traced_bind ?_ fun m => traced_bind ?_ fun B => ?_
  · cases source with
    | fileSystem path glob dbPath => exact traced_bind (traced_lift _) fun _ => traced_pure _
    | database key => exact traced_bind (traced_read _) fun _ => traced_pure _
  · cases to with
    | none => exact traced_pure _
    | some t => exact traced_read _
  · refine traced_bind (traced_mapSM (fun x => ?_) _) fun a => traced_bind (traced_mapSM (fun x => traced_lift _) _) fun d => traced_bind (traced_mapSM (fun x => ?_) _) fun mo => traced_pure _
    · unfold addedOf
      refine traced_bind ?_ fun _ => traced_bind (traced_lift _) fun _ => traced_pure _
      cases m with
      | left y =>
        refine traced_bind (traced_lift _) fun b => traced_ite (traced_pure _) (traced_bind (traced_unwrap (keeps_hashFsItem E fs hp x)) fun _ => traced_pure _)
      | right y => simp only; cases y.get x with
        | some b => exact traced_pure _
        | none => exact traced_panic
    · unfold modifiedOf
      refine traced_bind ?_ fun f => ?_
      · cases m with
        | left y =>
          simp only
          cases hy : y.get x with
          | none => exact traced_panic
          | some b =>
            cases b with
            | true => exact traced_pure _
            | false => exact traced_bind (keeps_hashFsItem E fs hp _) fun _ => traced_pure _
        | right y => simp only; cases y.get x with
          | some b => exact traced_pure _
          | none => exact traced_panic
      · cases f with
        | none => exact traced_pure _
        | some f =>
          simp only
          cases B.get x with
          | none => exact traced_panic
          | some t => exact traced_pure _

theorem traced_compare (E : Env) (fs : Fs) (iter : Nat → List Path → List Path) (n : Nat) (source : Target) (to : Option Key) :
    Traced Prod.fst E.H Call.isPut (compare E fs iter n source to) := keeps_compare E fs (fun _ _ => traced_isPuts (isPuts_putFile E _ _)) iter n source to

/-- Comparing stored trees changes nothing. -/
theorem compare_database_state (E : Env) (fs : Fs) (iter : Nat → List Path → List Path) (n : Nat) (k : Key) (to : Option Key) (s : Db × Cache) :
    (compare E fs iter n (.database k) to s).2 = s := by
  have h : Pres (fun s' => s' = s) (compare E fs iter n (.database k) to) (fun _ => True) := by
    have hr : ∀ {γ} (f : Db × Cache → Res γ), Pres (fun s' => s' = s) (SM.read f) (fun _ => True) := fun f s' hs => ⟨hs, fun _ _ => trivial⟩
    have hl : ∀ {γ} (f : Res γ), Pres (fun s' => s' = s) (SM.lift f) (fun _ => True) := fun f s' hs => ⟨hs, fun _ _ => trivial⟩
    have hp : ∀ {γ} (a : γ), Pres (fun s' => s' = s) (pure a) (fun _ => True) := fun f s' hs => ⟨hs, fun _ _ => trivial⟩
    have hpa : ∀ {γ}, Pres (fun s' => s' = s) (SM.panic : SM (Db × Cache) γ) (fun _ => True) := fun s' hs => ⟨hs, fun _ _ => trivial⟩
    have hm : ∀ {γ δ} (f : γ → SM (Db × Cache) δ) (l : List γ), (∀ a, Pres (fun s' => s' = s) (f a) (fun _ => True)) → Pres (fun s' => s' = s) (mapSM f l) (fun _ => True) := by
      intro γ δ f l h
      induction l with
      | nil => exact hp _
      | cons a l ih => exact Pres.bind (h a) fun b _ => Pres.bind ih fun r _ => hp _
    unfold compare
    refine Pres.bind (Q := fun m => ∃ y, m = FromMap.right y) (Pres.bind (hr _) fun m _ => fun s' hs => ⟨hs, fun a ha => ⟨m, by simpa using ha.symm⟩⟩) ?_
    rintro _ ⟨y, rfl⟩
    refine Pres.bind (Q := fun _ => True) ?_ fun B _ => ?_
    · cases to with
      | none => exact hp _
      | some t => exact hr _
    · refine Pres.bind (hm _ _ fun x => ?_) fun a _ => Pres.bind (hm _ _ fun x => hl _) fun d _ => Pres.bind (hm _ _ fun x => ?_) fun mo _ => hp _
      · unfold addedOf
        refine Pres.bind (Q := fun _ => True) ?_ fun _ _ => Pres.bind (hl _) fun _ _ => hp _
        simp only
        cases y.get x with
        | some b => exact hp _
        | none => exact hpa
      · unfold modifiedOf
        refine Pres.bind (Q := fun _ => True) ?_ fun f _ => ?_
        · simp only
          cases y.get x with
          | some b => exact hp _
          | none => exact hpa
        · cases f with
          | none => exact hp _
          | some f =>
            simp only
            cases B.get x with
            | none => exact hpa
            | some t => exact hp _
  exact (h s rfl).1

end Snap
