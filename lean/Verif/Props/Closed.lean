import Verif.Lemmas.StepsPut
import Verif.Props.Commands
/-! No dangling references: C40. -/
namespace Snap.Props
open Snap
set_option linter.unusedSectionVars false
variable [Serde] [LawfulSerde]

/-- The objects that are ever stored: data without keys, lists of keys, items of files with one key, items of directories with as many names as keys, commits with sorted
parents and only a message. -/
inductive Shape : Object → Prop where
  | blob (d : Bytes) : Shape ⟨d, [], .fileBlob⟩
  | blobTree (ks : List Key) : Shape ⟨[], ks, .fileBlobTree⟩
  | file (n : Nat) (k : Key) {o : Object} (h : FsItem.toObject ⟨n, .file, [], [k]⟩ = .ok o) : Shape o
  | dir (r : List (Path × Key)) {o : Object} (h : FsItem.toObject ⟨r.length, .dir, r.map (·.1), r.map (·.2)⟩ = .ok o) : Shape o
  | commit (tree : Key) (ps : List Key) (hs : ps.Pairwise fun a b => a.hash ≤ b.hash) (m : Bytes) {o : Object} (h : Commit.toObject ⟨tree, ps, { message := m }⟩ = .ok o) : Shape o

/-- The tables refer to nothing that is missing: every value is an encoded object of one of these shapes, whose keys are those of earlier rows, and every reflog entry is
a stored key. -/
structure Closed (db : Db) : Prop where
  order : ∀ pre r post, db.data = pre ++ r :: post → ∃ o : Object, o.encode = .ok r.2 ∧ Shape o ∧ ∀ k ∈ o.keys, ∃ r' ∈ pre, r'.1 = k.asDbKey
  refs : ∀ r ∈ db.reflog, ∃ k, r.key = k.asDbKey ∧ Stored db k

theorem Closed.rows {db : Db} (h : Closed db) : ∀ r ∈ db.data, ∃ o : Object, o.encode = .ok r.2 ∧ Shape o ∧ ∀ k ∈ o.keys, Stored db k := by
  intro r hr
  obtain ⟨pre, post, e⟩ := List.append_of_mem hr
  obtain ⟨o, h1, h2, h3⟩ := h.order pre r post e
  refine ⟨o, h1, h2, fun k hk => stored_iff.mpr ?_⟩
  obtain ⟨r', h4, h5⟩ := h3 k hk
  exact ⟨r', by rw [e]; simp [h4], h5⟩

theorem Stored.mono {a b : Db} (h : a.data <+: b.data) {k : Key} (hs : Stored a k) : Stored b k := by
  rw [stored_iff] at hs ⊢
  obtain ⟨r, h1, h2⟩ := hs
  exact ⟨r, h.subset h1, h2⟩

theorem stable_stored (k : Key) : Stable fun d => Stored d k := fun _ _ h _ hs => Stored.mono h hs
theorem stable_all (l : List Key) : Stable fun d => ∀ k ∈ l, Stored d k := fun _ _ h _ hs k hk => Stored.mono h (hs k hk)

theorem Closed.same {a b : Db} (h : SameTables a b) (hb : Closed b) : Closed a := by
  have hs : ∀ k, Stored b k → Stored a k := fun k hk => Stored.mono (by rw [h.1]; exact List.prefix_refl _) hk
  refine ⟨fun pre r post e => hb.order pre r post (by rw [← h.1, e]), fun r hr => ?_⟩
  · rw [h.2.2] at hr
    obtain ⟨k, h1, h2⟩ := hb.refs r hr
    exact ⟨k, h1, hs k h2⟩

theorem mem_insertIgnore {l : List (Bytes × Bytes)} {k v : Bytes} {r : Bytes × Bytes} (h : r ∈ insertIgnore l k v) : r ∈ l ∨ r = (k, v) := by
  unfold insertIgnore at h
  split at h
  · exact Or.inl h
  · rcases List.mem_append.mp h with h | h
    · exact Or.inl h
    · exact Or.inr (by simpa using h)

variable {H : Bytes → Key}

/-- Storing an object whose keys are stored. -/
theorem steps_putObj (o : Object) (ho : Shape o) : Steps id H Closed Call.isPut (fun d => ∀ k ∈ o.keys, Stored d k) (putObj H o) (fun k d => Stored d k) := by
  intro s hi hp
  rcases putObj_cases H o s with ⟨_, e⟩ | ⟨b, hb, hcase⟩
  · rw [e]
    refine ⟨[], by simp, rfl, ?_, by simp⟩
    intro cs hc
    have := List.prefix_nil.mp hc
    subst this
    exact hi
  · have hrun : (putObj H o s).2 = ((Call.put b).run H s).2 := by
      rw [call_put_result]
      unfold putObj
      rw [SM.bind_apply, SM.lift_apply, hb]
    have hafter : Closed (putObj H o s).2 := by
      rcases hcase with e | e
      · rw [e]; exact Closed.same (b := s) ⟨rfl, rfl, rfl⟩ hi
      · rw [e]
        have hpre : s.data <+: insertIgnore s.data (H b).asDbKey b := insertIgnore_prefix _ _ _
        refine ⟨fun pre r post e => ?_, fun r hr => ?_⟩
        · unfold insertIgnore at e
          split at e
          · exact hi.order pre r post e
          · rcases List.append_eq_append_iff.mp e with ⟨l, e1, e2⟩ | ⟨l, e1, e2⟩
            · cases l with
              | nil =>
                simp only [List.nil_append, List.append_nil, List.cons.injEq] at e1 e2
                obtain ⟨rfl, _⟩ := e2
                refine ⟨o, hb, ho, fun k hk => ?_⟩
                rw [e1]
                exact stored_iff.mp (hp k hk)
              | cons x l => simp at e2
            · cases l with
              | nil =>
                simp only [List.nil_append, List.append_nil, List.cons.injEq] at e1 e2
                obtain ⟨rfl, _⟩ := e2
                refine ⟨o, hb, ho, fun k hk => ?_⟩
                rw [← e1]
                exact stored_iff.mp (hp k hk)
              | cons x l =>
                simp only [List.cons_append, List.cons.injEq] at e2
                obtain ⟨rfl, _⟩ := e2
                exact hi.order pre r l e1
        · obtain ⟨k, h1, h2⟩ := hi.refs r hr
          exact ⟨k, h1, Stored.mono hpre h2⟩
    refine ⟨[.put b], by simp [Call.isPut], hrun, ?_, ?_⟩
    · intro cs hc
      cases cs with
      | nil => exact hi
      | cons c cs =>
        obtain ⟨t, ht⟩ := hc
        simp only [List.cons_append, List.cons.injEq] at ht
        obtain ⟨rfl, ht⟩ := ht
        obtain ⟨rfl, _⟩ := List.append_eq_nil_iff.mp ht
        show Closed ((Call.put b).run H s).2
        rw [← hrun]
        exact hafter
    · intro k hk
      rcases hcase with e | e
      · rw [e] at hk; simp at hk
      · rw [e] at hk ⊢
        simp only [Res.ok.injEq] at hk
        subst hk
        rw [stored_iff]
        by_cases hm : ∃ r ∈ s.data, r.1 = (H b).asDbKey
        · obtain ⟨r, h1, h2⟩ := hm
          exact ⟨r, (insertIgnore_prefix _ _ _).subset h1, h2⟩
        · refine ⟨((H b).asDbKey, b), ?_, rfl⟩
          simp only [id, insertIgnore]
          rw [if_neg]
          · simp
          · simpa using hm

theorem closed_rules : PutRules H Closed (fun _ k d => Stored d k) (fun k d => Stored d k) (fun _ => True) where
  stableD _ := stable_stored
  stableF := stable_stored
  blob c := steps_weaken (steps_putObj (blobObj c) (.blob c)) (fun _ h => h) (fun d _ k hk => by simp [blobObj] at hk) (fun _ _ h => h)
  tree _ _ ks := steps_putObj _ (.blobTree ks)
  file n k o ho := by
    refine steps_weaken (steps_putObj o (.file n k ho)) (fun _ h => h) (fun d h => ?_) (fun _ _ h => h)
    obtain ⟨_, rfl⟩ := FsItem.toObject_ok ho
    simpa using h.choose_spec.2
  dir r o _ ho := by
    refine steps_weaken (steps_putObj o (.dir r ho)) (fun _ h => h) (fun d h => ?_) (fun _ _ h => h)
    obtain ⟨_, rfl⟩ := FsItem.toObject_ok ho
    exact h

theorem steps_putFile (E : Env) (path : Path) (c : Bytes) : Steps id E.H Closed Call.isPut (fun _ => True) (putFile E path c) (fun k d => Stored d k) := gen_putFile closed_rules path c

theorem steps_putFsItem (E : Env) (fs : Fs) (filter : Filter) (n : Nat) (path : Path) :
    Steps id E.H Closed Call.isPut (fun _ => True) (putFsItem E fs filter n path) (fun k d => Stored d k) := gen_putFsItem closed_rules (fun _ _ _ _ _ => trivial) filter n path

theorem steps_commitTree (tree : Key) (ps : List Key) (m : Bytes) :
    Steps id H Closed Call.isPut (fun d => ∀ k ∈ tree :: ps, Stored d k) (commitTree H tree ps { message := m }) (fun k d => Stored d k) := by
  unfold commitTree
  refine steps_liftBind fun o ho => steps_weaken (steps_putObj o (.commit tree (sortBy Key.le ps) ?_ m ho)) (fun _ h => h) (fun d hd => ?_) (fun _ _ h => h)
  · exact (sortBy_sorted key_total.toTotalPre ps).imp fun h => by simpa [Key.le] using h
  · obtain ⟨_, rfl⟩ := Commit.toObject_ok ho
    intro k hk
    simp only [List.mem_cons, (sortBy_perm Key.le ps).mem_iff] at hk
    exact hd k (by simpa using hk)

/-! ### What lookups return is stored -/

theorem reflogGet_stored {db : Db} (h : Closed db) {n : Bytes} {r : Option Bytes} {k : Key} (hg : reflogGet db n r = .ok k) : Stored db k := by
  unfold reflogGet at hg
  cases hl : (refRows db n r).getLast? with
  | none => rw [hl] at hg; simp at hg
  | some row =>
    rw [hl] at hg
    simp only at hg
    have hm : row ∈ db.reflog := (List.mem_filter.mp (List.mem_of_getLast? hl)).1
    obtain ⟨k', h1, h2⟩ := h.refs row hm
    rw [h1, fromDbKey_asDbKey] at hg
    simp only [Res.ok.injEq] at hg
    rw [← hg]; exact h2

theorem canonicalize_stored {db : Db} (h : Closed db) {s : Keyish} {k : Key} (hg : canonicalize db s = .ok k) : Stored db k := by
  cases s with
  | key s key =>
    simp only [canonicalize] at hg
    obtain ⟨v, h1, h2⟩ := Res.bind_eq_ok hg
    cases hr : rawGet db key with
    | ok v' =>
      rw [hr] at h1
      simp only [Res.unwrap, Res.ok.injEq] at h1
      subst h1
      have : ∃ r ∈ db.data, r.2 = v' := ⟨_, assoc_some_mem (rawGet_ok.mp hr), rfl⟩
      obtain ⟨r, hr1, rfl⟩ := this
      obtain ⟨o, ho, _⟩ := h.rows r hr1
      obtain ⟨t, ht⟩ := Object.encode_head ho
      rw [ht] at h2
      simp [fromDbKey] at h2
    | err e => rw [hr] at h1; simp [Res.unwrap] at h1
    | panic => rw [hr] at h1; simp [Res.unwrap] at h1
    | fuel => rw [hr] at h1; simp [Res.unwrap] at h1
  | range s start stop =>
    simp only [canonicalize] at hg
    obtain ⟨l, h1, h2⟩ := Res.bind_eq_ok hg
    have hl : ∀ x ∈ l, ∃ r ∈ db.data, r.1 = x := by
      intro x hx
      cases stop <;>
      · simp only [rawBetween, Res.unwrap, Res.ok.injEq] at h1
        subst h1
        obtain ⟨r, hr, rfl⟩ := List.mem_map.mp hx
        exact ⟨r, (List.mem_filter.mp hr).1, rfl⟩
    cases l with
    | nil => simp at h2
    | cons x l =>
      cases l with
      | nil =>
        simp only at h2
        rw [stored_iff, asDbKey_of_fromDbKey h2]
        exact hl x (by simp)
      | cons y l =>
        simp only at h2
        obtain ⟨_, _, h3⟩ := Res.bind_eq_ok h2
        simp at h3
  | reflog orig remote keyname =>
    simp only [canonicalize] at hg
    cases hr : reflogGet db keyname remote with
    | ok k' => rw [hr] at hg; simp only [Res.ok.injEq] at hg; subst hg; exact reflogGet_stored h hr
    | err e => rw [hr] at hg; cases e <;> simp at hg
    | panic => rw [hr] at hg; simp at hg
    | fuel => rw [hr] at hg; simp at hg

theorem steps_readI {σ α : Type} {π : σ → Db} {I : Db → Prop} {K : Call → Prop} {p : Db → Prop} {f : σ → Res α} {Q : α → Db → Prop}
    (h : ∀ s, I (π s) → p (π s) → ∀ a, f s = .ok a → Q a (π s)) : Steps π H I K p (SM.read f) Q := by
  intro s hi hp
  refine ⟨[], by simp, rfl, ?_, fun a ha => h s hi hp a ha⟩
  intro cs hc
  have := List.prefix_nil.mp hc
  subst this
  exact hi

/-- `canonicalize` in a command. -/
theorem steps_canonicalize (s : Keyish) {K : Call → Prop} : Steps Sys.db H Closed K (fun _ => True) (readDb fun db => canonicalize db s) (fun k d => Stored d k) :=
  steps_readI fun _ hi _ _ ha => canonicalize_stored hi ha

theorem steps_onDb {α : Type} {I : Db → Prop} {K : Call → Prop} {p : Db → Prop} {x : M α} {Q : α → Db → Prop} (h : Steps id H I K p x Q) : Steps Sys.db H I K p (onDb x) Q :=
  steps_on h (fun _ => rfl) (fun _ _ => rfl)

theorem closed_single {I : Db → Prop} {c : Call} {d : Db} {x : M Unit} (hx : (x d).2 = (c.run H d).2) (hi : I d) (ha : I (x d).2) {K : Call → Prop} (hc : K c) :
    ∃ cs : List Call, (∀ c ∈ cs, K c) ∧ (x d).2 = runCalls H cs d ∧ (∀ cs', cs' <+: cs → I (runCalls H cs' d)) ∧ ∀ a, (x d).1 = .ok a → True := by
  refine ⟨[c], by simpa using hc, hx, ?_, fun _ _ => trivial⟩
  intro cs hcs
  cases cs with
  | nil => exact hi
  | cons e cs =>
    obtain ⟨t, ht⟩ := hcs
    simp only [List.cons_append, List.cons.injEq] at ht
    obtain ⟨rfl, ht⟩ := ht
    obtain ⟨rfl, _⟩ := List.append_eq_nil_iff.mp ht
    show I (e.run H d).2
    rw [← hx]
    exact ha

theorem steps_reflogPush (n : Bytes) (r : Option Bytes) (k : Key) :
    Steps id H Closed (fun c => c = .reflogPush n r k) (fun d => Stored d k) (reflogPush n r k) (fun _ _ => True) := by
  intro d hi hp
  refine closed_single (c := .reflogPush n r k) rfl hi ?_ rfl
  show Closed (reflogPush n r k d).2
  unfold reflogPush
  rcases write_cases (fun db => { db with reflog := db.reflog ++ [⟨n, r, k.asDbKey⟩] }) d with ⟨fs, _, e⟩ | e <;> rw [e]
  · exact Closed.same (b := d) ⟨rfl, rfl, rfl⟩ hi
  · refine ⟨hi.order, fun row hr => ?_⟩
    rcases List.mem_append.mp hr with hr | hr
    · exact hi.refs row hr
    · simp only [List.mem_singleton] at hr
      subst hr
      exact ⟨k, rfl, hp⟩

theorem steps_putHead (n : Bytes) : Keeps id H Closed (fun c => c = .putHead n) (putHead n) := by
  intro d hi hp
  refine closed_single (c := .putHead n) rfl hi ?_ rfl
  show Closed (putHead n d).2
  unfold putHead rawPutState
  rcases write_cases (fun db => { db with state := insertReplace db.state sHEAD n }) d with ⟨fs, _, e⟩ | e <;> rw [e]
  · exact Closed.same (b := d) ⟨rfl, rfl, rfl⟩ hi
  · exact ⟨hi.order, hi.refs⟩

theorem keeps_of_silent {σ α : Type} {π : σ → Db} {I : Db → Prop} {x : SM σ α} (h : Traced π H (fun _ => False) x) {K : Call → Prop} : Keeps π H I K x :=
  steps_silent (fun s => traced_eq h s) fun _ _ _ _ => trivial

theorem keeps_compareWork (X : Ctx) (R : Repo) (path : Path) (to : Option Key) : Keeps Sys.db X.E.H Closed Call.isPut (compareWork X R path to) := by
  unfold compareWork
  exact traced_self fun s => traced_onDbCache (keeps_compare X.E s.fs (fun p c => steps_weaken (steps_putFile X.E p c) (fun _ h => h) (fun _ h => h) (fun _ _ _ => trivial)) _ _ _ _)

theorem steps_put_onDb (X : Ctx) (R : Repo) (path : Path) : Steps Sys.db X.E.H Closed Call.isPut (fun _ => True)
    (fun s => onDb (putFsItem X.E s.fs (makeFilter X.glob R.folder) X.depth path) s : C Key) (fun k d => Stored d k) :=
  steps_self fun s => steps_onDb (steps_putFsItem X.E s.fs _ _ _)

theorem mapRes_mem {α β : Type} {f : α → Res β} {l : List α} {r : List β} (h : mapRes f l = .ok r) : ∀ b ∈ r, ∃ a ∈ l, f a = .ok b := by
  induction l generalizing r with
  | nil => simp only [mapRes, Res.ok.injEq] at h; subst h; simp
  | cons a l ih =>
    simp only [mapRes] at h
    obtain ⟨b, hb, h1⟩ := Res.bind_eq_ok h
    obtain ⟨bs, hbs, h2⟩ := Res.bind_eq_ok h1
    simp only [pure, Res.ok.injEq] at h2
    subst h2
    intro c hc
    simp only [List.mem_cons] at hc
    rcases hc with rfl | hc
    · exact ⟨a, by simp, hb⟩
    · obtain ⟨a', h1, h2⟩ := ih hbs c hc
      exact ⟨a', by simp [h1], h2⟩

theorem keeps_commit (X : Ctx) (R : Repo) (path : Option Path) (message : Bytes) (refname : Option Bytes) :
    Keeps Sys.db X.E.H Closed (Command.commit path message refname).mayCall (cmdCommit X R path message refname) := by
  unfold cmdCommit
  refine steps_bind (Q := fun _ _ => True) stable_true (steps_read fun _ _ _ _ => trivial) fun r => ?_
  refine steps_weaken (p := fun _ => True) ?_ (fun _ h => h) (fun _ _ => trivial) (fun _ _ h => h)
  refine steps_bind (Q := fun ps d => ∀ k ∈ ps, Stored d k) stable_true (steps_readI fun s hi _ ps hps k hk => ?_) fun ps => ?_
  · rcases parentsOf_ok hps with ⟨k', h1, rfl⟩ | ⟨_, rfl⟩
    · simp only [List.mem_singleton] at hk
      subst hk
      exact reflogGet_stored hi h1
    · simp at hk
  refine steps_weaken (p := fun d => ∀ k ∈ ps, Stored d k) ?_ (fun _ h => h) (fun _ h => h.2) (fun _ _ h => h)
  refine steps_bind (stable_all ps) (steps_weaken (steps_put_onDb X R _) (fun _ h => Or.inl h) (fun _ _ => trivial) (fun _ _ h => h)) fun key => ?_
  refine steps_bind (Q := fun k d => Stored d k) (stable_and (stable_all ps) (stable_stored key))
    (steps_weaken (steps_onDb (steps_commitTree key ps message)) (fun _ h => Or.inl h) (fun d hd k hk => ?_) (fun _ _ h => h)) fun ck => ?_
  · simp only [List.mem_cons] at hk
    rcases hk with rfl | hk
    · exact hd.2
    · exact hd.1 k hk
  · exact steps_weaken (steps_onDb (steps_reflogPush r none ck)) (fun c h => Or.inr ⟨_, _, h⟩) (fun d hd => hd.2) (fun _ _ h => h)

theorem keeps_command (X : Ctx) (R : Repo) (cmd : Command) : Keeps Sys.db X.E.H Closed cmd.mayCall (cmd.inRepo X R) := by
  have ht := traced_command X R cmd
  cases cmd with
  | insert path => exact traced_bind (steps_weaken (steps_put_onDb X R path) (fun _ h => h) (fun _ h => h) (fun _ _ _ => trivial)) fun _ => traced_emit _
  | commit path message refname => exact keeps_commit X R path message refname
  | fetch key dest => exact keeps_of_silent ht
  | init => exact keeps_of_silent ht
  | «show» key => exact keeps_of_silent ht
  | log key => exact keeps_of_silent ht
  | compare path key stat =>
    exact traced_bind (traced_readDb _) fun k => traced_bind (keeps_compareWork X R _ _) fun r => traced_ite (traced_bind (traced_readDb _) fun l => traced_emit _) (traced_emit _)
  | status =>
    refine traced_bind (traced_readDb _) fun h => traced_bind (traced_read _) fun o => ?_
    cases o with
    | none => exact traced_emit _
    | some k => exact traced_bind (traced_emit _) fun _ => traced_bind (traced_readDb _) fun c => traced_bind (keeps_compareWork X R _ _) fun r => traced_emit _
  | checkout => exact keeps_of_silent ht
  | checkoutHead refname =>
    refine traced_bind (traced_readDb _) fun h => traced_bind (traced_read _) fun o => traced_bind (traced_readDb _) fun t =>
      traced_bind (traced_mono (keeps_compareWork X R _ _) fun _ h => Or.inl h) fun r =>
      traced_ite (traced_bind (traced_onDb (traced_mono (steps_putHead _) fun _ h => Or.inr h)) fun _ => traced_emit _) (traced_bind (traced_emit _) fun _ => traced_emit _)
  | refLog refname remote => exact keeps_of_silent ht
  | refUpdate key refname =>
    refine steps_bind stable_true (steps_canonicalize key) fun k => ?_
    refine steps_bind (Q := fun _ _ => True) (stable_and stable_true (stable_stored k)) (steps_read fun _ _ _ _ => trivial) fun r => ?_
    exact steps_weaken (steps_onDb (steps_reflogPush r none k)) (fun c h => ⟨_, _, h⟩) (fun d h => h.1.2) (fun _ _ h => h)
  | prettyPrint key => exact keeps_of_silent ht
  | commitTree tree parents =>
    refine steps_bind stable_true (steps_canonicalize tree) fun t => ?_
    refine steps_weaken (p := fun d => Stored d t) ?_ (fun _ h => h) (fun _ h => h.2) (fun _ _ h => h)
    refine steps_bind (Q := fun ps d => ∀ k ∈ ps, Stored d k) (stable_stored t) (steps_readI fun s hi _ ps hps k hk => ?_) fun ps => ?_
    · obtain ⟨a, _, ha⟩ := mapRes_mem hps k hk
      exact canonicalize_stored hi ha
    refine steps_bind (Q := fun _ _ => True) (stable_and (stable_stored t) (stable_all ps)) (steps_weaken (steps_onDb (steps_commitTree t ps [])) (fun _ h => h) (fun d hd k hk => ?_) (fun _ _ _ => trivial)) fun ck => ?_
    · simp only [List.mem_cons] at hk
      rcases hk with rfl | hk
      · exact hd.1
      · exact hd.2 k hk
    · exact steps_weaken (traced_emit _) (fun _ h => h) (fun _ _ => trivial) (fun _ _ h => h)
  | reflogGet refname remote => exact keeps_of_silent ht
  | reflogPush key refname remote =>
    refine steps_bind stable_true (steps_canonicalize key) fun k => ?_
    exact steps_weaken (steps_onDb (steps_reflogPush refname remote k)) (fun c h => ⟨_, h⟩) (fun d h => h.2) (fun _ _ h => h)
  | walkTree key => exact keeps_of_silent ht
  | walkFsTree path => exact keeps_of_silent ht
  | setHead refname => exact traced_onDb (steps_putHead _)
  | getHead => exact keeps_of_silent ht

/-! ### Worlds -/

theorem SameDb.closed {a b : Db} (h : SameDb a b) (hc : Closed b) : Closed a := Closed.same (b := b) h.1 hc

/-- `main` on a closed database, with any command. -/
theorem main_closed (X : Ctx) (cmd : Command) (w : World) (q : List Bytes) (h : Closed (w.dbs q)) : Closed ((mainRun X cmd w).2.2.dbs q) := by
  by_cases hi : cmd = .init
  · subst hi
    rcases init_main X w with ⟨e, _⟩ | ⟨e, _, _⟩
    · rw [e]; exact h
    · rcases runInit_cases X w with ⟨e', _⟩ | ⟨q', _, e', _⟩
      · rw [e, e']; exact h
      · rw [e, e']
        by_cases hq : q = q'
        · subst hq
          simp only [World.setDb, if_true]
          obtain ⟨cs, _, g2, g3, _⟩ := steps_putHead (H := X.E.H) sMaster (w.dbs q) h trivial
          have g2' : (putHead sMaster (w.dbs q)).2 = _ := g2
          rw [g2']
          exact g3 cs (List.prefix_refl _)
        · simp [World.setDb, hq]; exact h
  · rcases mainRun_cases X cmd hi w with ⟨R, q', _, e⟩ | e
    · rw [e]
      by_cases hq : q = q'
      · subst hq
        by_cases hr : (∃ u, (cmd.inRepo X R (startOf w q)).1 = .ok u) ∧ commitOk (cmd.inRepo X R (startOf w q)).2.db
        · obtain ⟨⟨u, h1⟩, h2⟩ := hr
          obtain ⟨cs, _, g2, g3, _⟩ := keeps_command X R cmd (startOf w q) h trivial
          have := g3 cs (List.prefix_refl _)
          rw [← g2] at this
          exact (runIn_committed X R q cmd w u h1 h2).closed this
        · refine (runIn_lost X R q cmd w ?_).closed h
          by_cases h1 : ∃ u, (cmd.inRepo X R (startOf w q)).1 = .ok u
          · exact Or.inr fun h2 => hr ⟨h1, h2⟩
          · exact Or.inl fun u hu => h1 ⟨u, hu⟩
      · rw [runIn_dbs X R q' cmd w q hq]; exact h
    · rw [e]; exact h

theorem start_closed (st : Starts) (X : Ctx) (cmd : Command) (w : World) (q : List Bytes) (h : Closed (w.dbs q)) : Closed ((mainStart st X cmd w).2.2.dbs q) := by
  rcases mainStart_dbs st X cmd w q with e | e | ⟨R, _, e⟩
  · rw [e]; exact h
  · rw [e]; exact main_closed X cmd _ q h
  · obtain ⟨cs, _, g2, g3, _⟩ := keeps_command X R cmd (startOf w q) h trivial
    rw [e, g2]
    exact g3 cs (List.prefix_refl _)

theorem World.Reachable.closed {H : Bytes → Key} {w : World} (h : w.Reachable H) (q : List Bytes) : Closed (w.dbs q) := by
  obtain ⟨w₀, h0, hs⟩ := h
  induction hs with
  | refl => exact ⟨by simp [(h0 q).1], by simp [(h0 q).2.2]⟩
  | tail _ s ih =>
    cases s with
    | run X hX cmd w => exact main_closed X cmd _ q ih
    | killed X hX cmd w w' h =>
      rcases h q with h | h
      · exact h.closed ih
      · exact h.closed (main_closed X cmd _ q ih)
    | edit w w' h => exact (h q).closed ih
    | started st X hX cmd w w' h => exact (h q).closed (start_closed st X cmd _ q ih)

/-! ### C40 -/

/-- Nothing dangles: of every object that can be read, all the objects whose keys it contains can be read, and so can the object of every entry of every ref. -/
structure Spec.NoDangling (db : Db) : Prop where
  objects : ∀ k o, getObj db k = .ok o → ∀ k' ∈ o.keys, ∃ o', getObj db k' = .ok o'
  ref : ∀ n r k, reflogGet db n r = .ok k → ∃ o, getObj db k = .ok o
  refs : ∀ n r ks, reflogWalk db n r = .ok ks → ∀ k ∈ ks, ∃ o, getObj db k = .ok o

theorem Closed.getObj {db : Db} (h : Closed db) {k : Key} (hs : Stored db k) : ∃ o, Snap.getObj db k = .ok o := by
  obtain ⟨v, hv⟩ := hs
  obtain ⟨o, ho, _⟩ := h.rows _ (assoc_some_mem (get_eq_ok.mp hv))
  exact ⟨o, by simp only [Snap.getObj]; rw [hv, Res.ok_bind]; exact Object.decode_encode ho⟩

theorem Closed.noDangling {db : Db} (h : Closed db) : Spec.NoDangling db := by
  refine ⟨fun k o ho k' hk => ?_, fun n r k hk => h.getObj (reflogGet_stored h hk), fun n r ks hks k hk => ?_⟩
  · simp only [Snap.getObj] at ho
    obtain ⟨v, hv, hd⟩ := Res.bind_eq_ok ho
    obtain ⟨o', ho', _, hs⟩ := h.rows _ (assoc_some_mem (get_eq_ok.mp hv))
    have : o' = o := by
      have := Object.decode_encode ho'
      rw [this] at hd
      exact Res.ok.inj hd
    subst this
    exact h.getObj (hs k' hk)
  · unfold reflogWalk at hks
    obtain ⟨row, hr, he⟩ := mapRes_mem hks k hk
    obtain ⟨k', h1, h2⟩ := h.refs row (List.mem_filter.mp (List.mem_reverse.mp hr)).1
    rw [h1, fromDbKey_asDbKey] at he
    simp only [Res.ok.injEq] at he
    subst he
    exact h.getObj h2

theorem Closed.shape {db : Db} (h : Closed db) {k : Key} {o : Object} (ho : Snap.getObj db k = .ok o) : Shape o := by
  simp only [Snap.getObj] at ho
  obtain ⟨v, hv, hd⟩ := Res.bind_eq_ok ho
  obtain ⟨o', ho', hs, _⟩ := h.rows _ (assoc_some_mem (get_eq_ok.mp hv))
  rw [Object.decode_encode ho'] at hd
  rw [← Res.ok.inj hd]
  exact hs

/-- **C40**: in every reachable world no database has a dangling reference. -/
theorem C40_no_dangling {H : Bytes → Key} {w : World} (h : w.Reachable H) (q : List Bytes) : Spec.NoDangling (w.dbs q) := (World.Reachable.closed h q).noDangling

/-- **C40** at every moment: from a reachable world, what a command does to the database is a list of calls, and after each of them (so also if they were not in one
transaction) there is no dangling reference. -/
theorem C40_every_moment (X : Ctx) (R : Repo) (cmd : Command) {w : World} (h : w.Reachable X.E.H) (q : List Bytes) :
    ∃ cs : List Call, (∀ c ∈ cs, cmd.mayCall c) ∧ (cmd.inRepo X R (startOf w q)).2.db = runCalls X.E.H cs (w.dbs q) ∧
      ∀ cs', cs' <+: cs → Spec.NoDangling (runCalls X.E.H cs' (w.dbs q)) := by
  obtain ⟨cs, g1, g2, g3, _⟩ := keeps_command X R cmd (startOf w q) (World.Reachable.closed h q) trivial
  exact ⟨cs, g1, g2, fun cs' hc => (g3 cs' hc).noDangling⟩

/-! ### C59 -/

/-- Not a commit: reading it as one fails. -/
theorem Shape.commit_iff {o : Object} (h : Shape o) : (∃ c, Commit.ofObject o = .ok c) ↔ o.objtype = .commit := by
  have hitem : ∀ i : FsItem, i.toObject = .ok o → ¬ ∃ c, Commit.ofObject o = .ok c := by
    rintro i hi ⟨c, hc⟩
    obtain ⟨hs, rfl⟩ := FsItem.toObject_ok hi
    have he := LawfulSerde.attrs_item i ((FsItem.toCbor_wf i).mpr hs)
    unfold Commit.ofObject at hc
    rw [he] at hc
    simp at hc
  have hty : ∀ i : FsItem, i.toObject = .ok o → o.objtype ≠ .commit := by
    intro i hi
    obtain ⟨_, rfl⟩ := FsItem.toObject_ok hi
    cases i.itemtype <;> simp [ItemType.objType]
  cases h with
  | blob d =>
    refine ⟨?_, by simp⟩
    rintro ⟨c, hc⟩
    have := Commit.ofObject_keys hc
    simp at this
  | blobTree ks =>
    refine ⟨?_, by simp⟩
    rintro ⟨c, hc⟩
    have he := LawfulSerde.attrs_nil
    unfold Commit.ofObject at hc
    rw [he] at hc
    simp at hc
  | file n k h => exact ⟨fun hc => (hitem _ h hc).elim, fun he => (hty _ h he).elim⟩
  | dir r h => exact ⟨fun hc => (hitem _ h hc).elim, fun he => (hty _ h he).elim⟩
  | commit tree ps hs m h =>
    refine ⟨fun _ => ?_, fun _ => ⟨_, Commit.ofObject_toObject h (by simp)⟩⟩
    obtain ⟨_, rfl⟩ := Commit.toObject_ok h
    rfl

/-- What can be read is what its type says: contents have no keys, lists of keys no data; an item of a file has one key, an item of a directory as many keys as names; a
commit has a tree, sorted parents and no attribute but the message. -/
def Spec.Sound (o : Object) : Prop :=
  match o.objtype with
  | .fileBlob => o.keys = []
  | .fileBlobTree => o.data = []
  | .fsItemFile => ∃ n k, FsItem.ofObject o = .ok ⟨n, .file, [], [k]⟩
  | .fsItemDir => ∃ r : List (Path × Key), FsItem.ofObject o = .ok ⟨r.length, .dir, r.map (·.1), r.map (·.2)⟩
  | .commit => ∃ tree ps m, Commit.ofObject o = .ok ⟨tree, ps, ⟨m, []⟩⟩ ∧ (ps.Pairwise fun a b => a.hash ≤ b.hash)
  | .unknown => False

/-- **C59**: in every reachable world each object of each database is sound, and only objects of type commit can be read as commits. -/
theorem C59_sound {H : Bytes → Key} {w : World} (h : w.Reachable H) (q : List Bytes) (k : Key) (o : Object) (ho : Snap.getObj (w.dbs q) k = .ok o) :
    Spec.Sound o ∧ ((∃ c, Commit.fromKey (w.dbs q) k = .ok c) ↔ o.objtype = .commit) := by
  have hs := (World.Reachable.closed h q).shape ho
  constructor
  · cases hs with
    | blob d => rfl
    | blobTree ks => rfl
    | file n k h =>
      have := FsItem.ofObject_toObject h
      obtain ⟨_, rfl⟩ := FsItem.toObject_ok h
      exact ⟨n, k, this⟩
    | dir r h =>
      have := FsItem.ofObject_toObject h
      obtain ⟨_, rfl⟩ := FsItem.toObject_ok h
      exact ⟨r, this⟩
    | commit tree ps hs m h =>
      have := Commit.ofObject_toObject h (by simp)
      obtain ⟨_, rfl⟩ := Commit.toObject_ok h
      exact ⟨tree, ps, m, this, hs⟩
  · rw [← hs.commit_iff]
    constructor
    · rintro ⟨c, hc⟩
      obtain ⟨o', h1, h2⟩ := fromKey_eq_ok.mp hc
      rw [ho] at h1
      rw [Res.ok.inj h1]
      exact ⟨c, h2⟩
    · rintro ⟨c, hc⟩
      exact ⟨c, fromKey_eq_ok.mpr ⟨o, ho, hc⟩⟩

end Snap.Props
