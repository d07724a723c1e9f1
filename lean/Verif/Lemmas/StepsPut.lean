import Verif.Lemmas.Steps
/-! What storing files and directories establishes about keys, given what storing one object does. -/
namespace Snap

/-- Putting objects keeps `I` and establishes properties of the keys: `D i` of keys of contents (`i` levels deep), `F` of keys of files and directories, if `N` holds of the
names in a directory. -/
structure PutRules (H : Bytes → Key) (I : Db → Prop) (D : Nat → Key → Db → Prop) (F : Key → Db → Prop) (N : List Path → Prop) : Prop where
  stableD : ∀ i k, Stable (D i k)
  stableF : ∀ k, Stable (F k)
  blob : ∀ c, Steps id H I Call.isPut (fun _ => True) (putObj H (blobObj c)) (D 0)
  tree : ∀ i, i < 5 → ∀ ks, Steps id H I Call.isPut (fun d => ∀ k ∈ ks, D i k d) (putObj H (treeObj ks)) (D (i + 1))
  file : ∀ n k o, FsItem.toObject ⟨n, .file, [], [k]⟩ = .ok o → Steps id H I Call.isPut (fun d => ∃ i, i ≤ 5 ∧ D i k d) (putObj H o) F
  dir : ∀ (r : List (Path × Key)) o, N (r.map (·.1)) → FsItem.toObject ⟨r.length, .dir, r.map (·.1), r.map (·.2)⟩ = .ok o →
    Steps id H I Call.isPut (fun d => ∀ k ∈ r.map (·.2), F k d) (putObj H o) F

theorem stable_and {p q : Db → Prop} (hp : Stable p) (hq : Stable q) : Stable fun d => p d ∧ q d := fun a b h h' hs => ⟨hp a b h h' hs.1, hq a b h h' hs.2⟩
theorem stable_forall {ι : Type} {p : ι → Db → Prop} (h : ∀ i, Stable (p i)) : Stable fun d => ∀ i, p i d := fun a b h1 h2 hs i => h i a b h1 h2 (hs i)
theorem stable_imp {q : Prop} {p : Db → Prop} (h : Stable p) : Stable fun d => q → p d := fun a b h1 h2 hs hq => h a b h1 h2 (hs hq)

/-- First a computation that does not look at the state. -/
theorem steps_liftBind {α β : Type} {H : Bytes → Key} {I : Db → Prop} {K : Call → Prop} {p : Db → Prop} {r : Res α} {f : α → M β} {Q : β → Db → Prop} (h : ∀ a, r = .ok a → Steps id H I K p (f a) Q) :
    Steps id H I K p (SM.lift r >>= f) Q := by
  intro s hi hp
  cases r with
  | ok a => exact h a rfl s hi hp
  | err e => exact steps_throw (e := e) s hi hp
  | panic => exact steps_panic s hi hp
  | fuel => exact steps_lift (r := Res.fuel) (fun d _ a ha => by simp at ha) s hi hp

theorem stable_exists {ι : Type} {p : ι → Db → Prop} (h : ∀ i, Stable (p i)) : Stable fun d => ∃ i, p i d := fun a b h1 h2 ⟨i, hi⟩ => ⟨i, h i a b h1 h2 hi⟩
theorem stable_const (q : Prop) : Stable fun _ => q := fun _ _ _ _ h => h

variable {H : Bytes → Key} {I : Db → Prop} {D : Nat → Key → Db → Prop} {F : Key → Db → Prop} {N : List Path → Prop} (hr : PutRules H I D F N)

/-- Of all keys in the buffers. -/
def BufsHave (D : Nat → Key → Db → Prop) (kb : KeyBufs) (d : Db) : Prop := ∀ i, ∀ k ∈ kb i, D i k d

include hr in
theorem stable_have (kb : KeyBufs) : Stable (BufsHave D kb) := fun a b h h' hs i k hk => hr.stableD i k a b h h' (hs i k hk)

theorem have_set {kb : KeyBufs} {d : Db} (h : BufsHave D kb d) (i : Nat) {v : List Key} (hv : ∀ k ∈ v, D i k d) : BufsHave D (kb.set i v) d := by
  intro j k hk
  unfold KeyBufs.set at hk
  split at hk
  · rename_i e; subst e; exact hv k hk
  · exact h j k hk

include hr in
theorem gen_cascade (z : Nat) (os : List Nat) (ho : ∀ o ∈ os, o < 4) (kb : KeyBufs) : Steps id H I Call.isPut (BufsHave D kb) (cascade H z os kb) (BufsHave D) := by
  induction os generalizing kb with
  | nil => exact steps_pure fun d h => h
  | cons o os ih =>
    have h4 := ho o (by simp)
    unfold cascade
    split
    · refine steps_bind (stable_have hr kb) (steps_weaken (hr.tree o (by omega) _) (fun _ h => h) (fun d h k hk => h o k hk) (fun _ _ h => h)) fun key => ?_
      refine steps_weaken (ih (fun x hx => ho x (by simp [hx])) _) (fun _ h => h) (fun d h => ?_) (fun _ _ h => h)
      refine have_set (have_set h.1 o (by simp)) (o + 1) fun k hk => ?_
      rcases List.mem_append.mp hk with hk | hk
      · exact h.1 (o + 1) k hk
      · simp only [List.mem_singleton] at hk; subst hk; exact h.2
    · exact steps_pure fun d h => h

include hr in
theorem gen_addChunks (cs : List (Bytes × BitVec 64)) (kb : KeyBufs) : Steps id H I Call.isPut (BufsHave D kb) (addChunks H cs kb) (BufsHave D) := by
  induction cs generalizing kb with
  | nil => exact steps_pure fun d h => h
  | cons c cs ih =>
    obtain ⟨c, h⟩ := c
    refine steps_bind (stable_have hr kb) (steps_weaken (hr.blob c) (fun _ h => h) (fun d _ => trivial) (fun _ _ h => h)) fun key => ?_
    refine steps_bind (stable_and (stable_have hr kb) (hr.stableD 0 key)) (steps_weaken (gen_cascade hr _ _ (by decide) _) (fun _ h => h) (fun d h => ?_) (fun _ _ h => h)) fun kb' => ?_
    · refine have_set h.1 0 fun k hk => ?_
      rcases List.mem_append.mp hk with hk | hk
      · exact h.1 0 k hk
      · simp only [List.mem_singleton] at hk; subst hk; exact h.2
    · exact steps_weaken (ih _) (fun _ h => h) (fun d h => h.2) (fun _ _ h => h)

include hr in
theorem gen_finishTree (os : List Nat) (ho : ∀ o ∈ os, o < 4) (kb : KeyBufs) : Steps id H I Call.isPut (BufsHave D kb) (finishTree H os kb) (fun k d => ∃ i, i ≤ 5 ∧ D i k d) := by
  induction os generalizing kb with
  | nil => exact steps_weaken (hr.tree 4 (by omega) _) (fun _ h => h) (fun d h k hk => h 4 k hk) (fun k _ h => ⟨5, by omega, h⟩)
  | cons o os ih =>
    have h4 := ho o (by simp)
    unfold finishTree
    refine steps_bind (stable_have hr kb) (steps_weaken (hr.tree o (by omega) _) (fun _ h => h) (fun d h k hk => h o k hk) (fun _ _ h => h)) fun key => ?_
    split
    · cases hg : (kb o).getLast? with
      | none => exact steps_panic
      | some k => exact steps_pure fun d h => ⟨o, by omega, h.1 o k (List.mem_of_getLast? hg)⟩
    · refine steps_weaken (ih (fun x hx => ho x (by simp [hx])) _) (fun _ h => h) (fun d h => ?_) (fun _ _ h => h)
      refine have_set h.1 (o + 1) fun k hk => ?_
      rcases List.mem_append.mp hk with hk | hk
      · exact h.1 (o + 1) k hk
      · simp only [List.mem_singleton] at hk; subst hk; exact h.2

include hr in
theorem gen_putFinish (cur : Bytes) (kb : KeyBufs) : Steps id H I Call.isPut (BufsHave D kb) (putFinish H cur kb) (fun k d => ∃ i, i ≤ 5 ∧ D i k d) := by
  unfold putFinish
  split
  · exact steps_weaken (hr.blob cur) (fun _ h => h) (fun d _ => trivial) (fun k _ h => ⟨0, by omega, h⟩)
  · refine steps_bind (Q := BufsHave D) (stable_have hr kb) ?_ fun kb' => steps_weaken (gen_finishTree hr _ (by decide) kb') (fun _ h => h) (fun d h => h.2) (fun _ _ h => h)
    split
    · exact steps_pure fun d h => h
    · refine steps_bind (stable_have hr kb) (steps_weaken (hr.blob cur) (fun _ h => h) (fun d _ => trivial) (fun _ _ h => h)) fun key => ?_
      refine steps_pure fun d h => ?_
      refine have_set h.1 0 fun k hk => ?_
      rcases List.mem_append.mp hk with hk | hk
      · exact h.1 0 k hk
      · simp only [List.mem_singleton] at hk; subst hk; exact h.2

include hr in
theorem gen_putData (table : UInt8 → BitVec 64) (evs : List ReadEv) : Steps id H I Call.isPut (fun _ => True) (putData table H evs) (fun k d => ∃ i, i ≤ 5 ∧ D i k d) := by
  rw [putData_eq]
  refine steps_bind stable_true (steps_weaken (gen_addChunks hr _ _) (fun _ h => h) (fun d _ i k hk => by simp at hk) (fun _ _ h => h)) fun kb => ?_
  split
  · exact steps_throw
  · exact steps_weaken (gen_putFinish hr _ _) (fun _ h => h) (fun d h => h.2) (fun _ _ h => h)

theorem gen_putFile {E : Env} (hr : PutRules E.H I D F N) (path : Path) (c : Bytes) : Steps id E.H I Call.isPut (fun _ => True) (putFile E path c) F := by
  unfold putFile
  refine steps_bind stable_true (gen_putData hr _ _) fun k => steps_liftBind fun o ho => steps_weaken (hr.file _ k o ho) (fun _ h => h) (fun d h => h.2) (fun _ _ h => h)

theorem gen_putEntries {E : Env} (hr : PutRules E.H I D F N) (fs : Fs) (filter : Filter) {rec : Path → M Key} (h : ∀ p, Steps id E.H I Call.isPut (fun _ => True) (rec p) F)
    (path : Path) (l : List Bytes) : Steps id E.H I Call.isPut (fun _ => True) (putEntries fs filter rec path l) (fun r d => (∀ k ∈ r.map (·.2), F k d) ∧ (r.map (·.1)).Sublist l) := by
  induction l with
  | nil => exact steps_pure fun d _ => ⟨fun k hk => by simp at hk, by simp⟩
  | cons n ns ih =>
    unfold putEntries
    refine steps_bind (Q := fun _ _ => True) stable_true (steps_lift fun _ _ _ _ => trivial) fun b => ?_
    cases b with
    | true =>
      refine steps_bind (stable_and stable_true stable_true) (steps_weaken (h _) (fun _ h => h) (fun _ _ => trivial) (fun _ _ h => h)) fun k => ?_
      refine steps_bind (stable_and (stable_and stable_true stable_true) (hr.stableF k)) (steps_weaken ih (fun _ h => h) (fun _ _ => trivial) (fun _ _ h => h)) fun r => ?_
      refine steps_pure fun d hd => ⟨fun k' hk => ?_, by simpa using hd.2.2⟩
      simp only [List.map_cons, List.mem_cons] at hk
      rcases hk with rfl | hk
      · exact hd.1.2
      · exact hd.2.1 k' hk
    | false => exact steps_weaken ih (fun _ h => h) (fun _ _ => trivial) (fun _ _ h => ⟨h.1, h.2.cons _⟩)

/-- The names listed are such that `N` holds of any of them. -/
def NamesOk (N : List Path → Prop) (fs : Fs) : Prop := ∀ p l, fs.readDir p = .ok l → ∀ l', l'.Sublist l → N l'

theorem gen_putDir {E : Env} (hr : PutRules E.H I D F N) {fs : Fs} (hn : NamesOk N fs) (filter : Filter) {rec : Path → M Key} (h : ∀ p, Steps id E.H I Call.isPut (fun _ => True) (rec p) F) (path : Path) :
    Steps id E.H I Call.isPut (fun _ => True) (do
      let names ← SM.lift (fs.readDir path)
      let r ← putEntries fs filter rec path names
      let obj ← SM.lift (FsItem.toObject ⟨r.length, .dir, r.map (·.1), r.map (·.2)⟩)
      putObj E.H obj : M Key) F := by
  refine steps_liftBind fun names hnames => ?_
  refine steps_bind (Q := fun r d => (∀ k ∈ r.map (·.2), F k d) ∧ (r.map (·.1)).Sublist names) stable_true (gen_putEntries hr fs filter h path names) fun r => ?_
  refine steps_liftBind fun o ho => ?_
  intro s hi hp
  exact hr.dir r o (hn path names hnames _ hp.2.2) ho s hi hp.2.1

theorem gen_putFsItem {E : Env} (hr : PutRules E.H I D F N) {fs : Fs} (hn : NamesOk N fs) (filter : Filter) (n : Nat) (path : Path) :
    Steps id E.H I Call.isPut (fun _ => True) (putFsItem E fs filter n path) F := by
  induction n generalizing path with
  | zero => exact steps_lift fun d _ a ha => by simp at ha
  | succ n ih =>
    unfold putFsItem
    refine steps_bind (Q := fun _ _ => True) stable_true (steps_lift fun _ _ _ _ => trivial) fun e => ?_
    cases e with
    | dir => exact steps_weaken (gen_putDir hr hn filter ih path) (fun _ h => h) (fun _ _ => trivial) (fun _ _ h => h)
    | file c md => exact steps_weaken (gen_putFile hr path c) (fun _ h => h) (fun _ _ => trivial) (fun _ _ h => h)
    | special => exact steps_panic
    | broken => exact steps_panic

end Snap
