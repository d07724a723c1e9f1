import Verif.Props.LiveHash
/-!
C109: what the cache holds makes no difference to what is printed, nor to what becomes of HEAD and the refs.
-/
namespace Snap.Props
open Snap
set_option linter.unusedSectionVars false
variable [Serde] [LawfulSerde]

/-- The same result on related states, and related states after that. -/
def Unseen {σ α : Type} (A B : σ → σ → Prop) (f : SM σ α) : Prop := ∀ s t, A s t → (f s).1 = (f t).1 ∧ B (f s).2 (f t).2

theorem unseen_bind {σ α β : Type} {A B C : σ → σ → Prop} {f : SM σ α} {g : α → SM σ β} (hf : Unseen A B f) (hg : ∀ a, Unseen B C (g a)) (hBC : ∀ s t, B s t → C s t) : Unseen A C (f >>= g) := by
  intro s t h
  obtain ⟨h1, h2⟩ := hf s t h
  rw [SM.bind_apply, SM.bind_apply]
  cases hs : f s with
  | mk r s' =>
    cases ht : f t with
    | mk r' t' =>
      rw [hs, ht] at h1 h2
      simp only at h1 h2
      subst h1
      cases r with
      | ok a => exact hg a s' t' h2
      | _ => exact ⟨rfl, hBC _ _ h2⟩

theorem unseen_pure {σ α : Type} {A : σ → σ → Prop} (a : α) : Unseen A A (pure a : SM σ α) := fun _ _ h => ⟨rfl, h⟩

theorem unseen_lift {σ α : Type} {A : σ → σ → Prop} (r : Res α) : Unseen A A (SM.lift r : SM σ α) := fun _ _ h => ⟨rfl, h⟩

theorem unseen_read {σ α : Type} {A : σ → σ → Prop} {f : σ → Res α} (hf : ∀ s t, A s t → f s = f t) : Unseen A A (SM.read f) := fun s t h => ⟨hf s t h, h⟩

theorem unseen_map {σ α β : Type} {A : σ → σ → Prop} {f : α → SM σ β} (hf : ∀ x, Unseen A A (f x)) (l : List α) : Unseen A A (mapSM f l) := by
  induction l with
  | nil => exact unseen_pure _
  | cons x l ih => exact unseen_bind (hf x) (fun _ => unseen_bind ih (fun _ => unseen_pure _) fun _ _ h => h) fun _ _ h => h

/-- Databases with the same HEAD and refs, and caches that are right, for these file trees. -/
structure SameButCache (E : Env) (l : List Fs) (s t : Db × Cache) : Prop where
  left : RightFor E l s.2
  right : RightFor E l t.2
  healthy : s.1.faults = [] ∧ t.1.faults = []
  state : s.1.state = t.1.state
  reflog : s.1.reflog = t.1.reflog

/-- The key of a file, or what goes wrong. -/
def hashOf (E : Env) (fs : Fs) (p : Path) : Res Key :=
  match fs.metadata p with
  | .ok (.file c _) => fileKey E p c
  | .ok _ => .err .nonFile
  | .err e => .err e
  | .panic => .panic
  | .fuel => .fuel

theorem hash_only {E : Env} {l : List Fs} {fs : Fs} (hl : fs ∈ l) (hfa : FaithfulFs E l) (p : Path) {s : Db × Cache} (hr : RightFor E l s.2) (hf : s.1.faults = []) :
    (hashFsItem E fs p s).1 = hashOf E fs p ∧ RightFor E l (hashFsItem E fs p s).2.2 ∧ (hashFsItem E fs p s).2.1.faults = [] ∧ (hashFsItem E fs p s).2.1.state = s.1.state ∧
      (hashFsItem E fs p s).2.1.reflog = s.1.reflog := by
  obtain ⟨L, hL, hcr⟩ := hr
  have hfa' : Faithful E (L ++ [(fs, p)]) := hfa.faithful fun x hx => by
    rcases List.mem_append.mp hx with hx | hx
    · exact hL x hx
    · rw [List.mem_singleton.mp hx]; exact hl
  have right : RightFor E l (hashFsItem E fs p s).2.2 := ⟨L ++ [(fs, p)], fun x hx => by
    rcases List.mem_append.mp hx with hx | hx
    · exact hL x hx
    · rw [List.mem_singleton.mp hx]; exact hl, right_hash hcr (r := (hashFsItem E fs p s).1) rfl⟩
  refine ⟨?_, right, ?_⟩
  · unfold hashOf
    cases hm : fs.metadata p with
    | ok e =>
      cases e with
      | file c md =>
        simp only
        rcases hcr (tripleOf c md) with hg | ⟨k, hg, _⟩
        · rw [hashFsItem_file hm, hg]
          simp only
          have := (putFile_healthy E p c s.1 hf).1
          rw [← this]
          cases hp : putFile E p c s.1 with
          | mk r d => cases r <;> rfl
        · have hh : hashFsItem E fs p s = (.ok k, s) := by rw [hashFsItem_file hm, hg]
          rw [hash_key hcr hm hh hfa', hh]
      | _ => rw [C57_non_file E fs p s _ hm (by simp)]
    | _ => unfold hashFsItem; simp only [SM.bind_apply, SM.lift_apply, hm]
  · cases hm : fs.metadata p with
    | ok e =>
      cases e with
      | file c md =>
        rw [hashFsItem_file hm]
        rcases hcr (tripleOf c md) with hg | ⟨k, hg, _⟩
        · rw [hg]
          simp only
          have h1 := (putFile_healthy E p c s.1 hf).2
          have h2 := (isPuts_putFile E p c).grow s.1
          cases hp : putFile E p c s.1 with
          | mk r d => rw [hp] at h1 h2; cases r <;> exact ⟨h1, h2.state, h2.reflog⟩
        · rw [hg]; exact ⟨hf, rfl, rfl⟩
      | _ => rw [C57_non_file E fs p s _ hm (by simp)]; exact ⟨hf, rfl, rfl⟩
    | _ => unfold hashFsItem; simp only [SM.bind_apply, SM.lift_apply, hm]; exact ⟨hf, trivial, trivial⟩

theorem unseen_hash {E : Env} {l : List Fs} {fs : Fs} (hl : fs ∈ l) (hfa : FaithfulFs E l) (p : Path) : Unseen (SameButCache E l) (SameButCache E l) (hashFsItem E fs p) := by
  intro s t h
  obtain ⟨a1, a2, a3, a4, a5⟩ := hash_only hl hfa p h.left h.healthy.1
  obtain ⟨b1, b2, b3, b4, b5⟩ := hash_only hl hfa p h.right h.healthy.2
  exact ⟨by rw [a1, b1], a2, b2, ⟨a3, b3⟩, by rw [a4, b4, h.state], by rw [a5, b5, h.reflog]⟩

theorem unseen_unwrap {σ α : Type} {A B : σ → σ → Prop} {f : SM σ α} (hf : Unseen A B f) : Unseen A B (SM.unwrap f) := by
  intro s t h
  obtain ⟨h1, h2⟩ := hf s t h
  unfold SM.unwrap
  exact ⟨by simp only [h1], h2⟩

/-- Comparing a directory, from one database and two right caches. -/
theorem unseen_compare {E : Env} {l : List Fs} {fs : Fs} (hl : fs ∈ l) (hfa : FaithfulFs E l) (iter : Nat → List Path → List Path) (n : Nat) (path : Path) (glob : Path → Bool) (dbPath : Path) (to : Option Key) :
    Unseen (fun s t => SameButCache E l s t ∧ s.1 = t.1) (SameButCache E l) (Snap.compare E fs iter n (.fileSystem path glob dbPath) to) := by
  unfold Snap.compare
  refine unseen_bind (B := fun s t => SameButCache E l s t ∧ s.1 = t.1) (unseen_bind (unseen_lift _) (fun _ => unseen_pure _) fun _ _ h => h) (fun m => ?_) fun _ _ h => h.1
  refine unseen_bind (B := fun s t => SameButCache E l s t ∧ s.1 = t.1) ?_ (fun toMap => ?_) fun _ _ h => h.1
  · cases to with
    | none => exact unseen_pure _
    | some t => exact unseen_read fun s t h => by rw [h.2]
  · intro s t h
    revert s t
    have key : Unseen (SameButCache E l) (SameButCache E l) _ := unseen_bind (unseen_map (f := addedOf E fs m) (fun x => ?_) (iter 0 (m.keys.filter fun x => !(toMap.map (·.1)).contains x))) (fun added =>
      unseen_bind (unseen_map (fun x => unseen_lift (deletedOf m toMap x)) (iter 1 ((toMap.map (·.1)).filter fun x => !m.keys.contains x))) (fun deleted =>
      unseen_bind (unseen_map (f := modifiedOf E fs m path toMap) (fun x => ?_) (iter 2 (m.keys.filter fun x => (toMap.map (·.1)).contains x))) (fun modified =>
      unseen_pure (⟨sortBy Deleted.le deleted, sortBy Added.le added, sortBy Modified.le (modified.filterMap id)⟩ : DiffResult)) fun _ _ h => h) fun _ _ h => h) fun _ _ h => h
    · exact fun s t h => key s t h.1
    · unfold addedOf
      refine unseen_bind ?_ (fun _ => unseen_bind (unseen_lift _) (fun _ => unseen_pure _) fun _ _ h => h) fun _ _ h => h
      cases m with
      | left y =>
        refine unseen_bind (unseen_lift _) (fun b => ?_) fun _ _ h => h
        cases b
        · exact unseen_bind (unseen_unwrap (unseen_hash hl hfa x)) (fun _ => unseen_pure _) fun _ _ h => h
        · exact unseen_pure _
      | right y =>
        simp only
        cases y.get x with
        | some b => exact unseen_pure _
        | none => exact fun _ _ h => ⟨rfl, h⟩
    · unfold modifiedOf
      refine unseen_bind ?_ (fun f => ?_) fun _ _ h => h
      · cases m with
        | left y =>
          simp only
          cases y.get x with
          | some b =>
            cases b
            · exact unseen_bind (unseen_hash hl hfa _) (fun _ => unseen_pure _) fun _ _ h => h
            · exact unseen_pure _
          | none => exact fun _ _ h => ⟨rfl, h⟩
        | right y =>
          simp only
          cases y.get x with
          | some b => exact unseen_pure _
          | none => exact fun _ _ h => ⟨rfl, h⟩
      · cases f with
        | none => exact unseen_pure _
        | some f =>
          simp only
          cases toMap.get x with
          | some b => exact unseen_pure _
          | none => exact fun _ _ h => ⟨rfl, h⟩

/-! ### Commands -/

/-- The same for whole states of a command, with the same files and output. -/
def SysSame (E : Env) (l : List Fs) (s t : Sys) : Prop := SameButCache E l (s.db, s.cache) (t.db, t.cache) ∧ s.fs = t.fs ∧ s.out = t.out ∧ s.fs ∈ l

/-- The same database, too. -/
def SysSame₀ (E : Env) (l : List Fs) (s t : Sys) : Prop := SysSame E l s t ∧ s.db = t.db

theorem unseen_work {X : Ctx} {l : List Fs} (hfa : FaithfulFs X.E l) (R : Repo) (path : Path) (to : Option Key) : Unseen (SysSame₀ X.E l) (SysSame X.E l) (compareWork X R path to) := by
  intro s t h
  obtain ⟨⟨h1, h2, h3, h4⟩, h5⟩ := h
  obtain ⟨g1, g2⟩ := unseen_compare h4 hfa X.iter X.depth path X.glob R.folder to (s.db, s.cache) (t.db, t.cache) ⟨h1, h5⟩
  unfold compareWork onDbCache SM.on
  rw [← h2]
  exact ⟨g1, g2, h2, h3, h4⟩

theorem unseen_emit {E : Env} {l : List Fs} (o : Out) : Unseen (SysSame E l) (SysSame E l) (emit o) := fun s t h => ⟨rfl, h.1, h.2.1, by show s.out ++ [o] = t.out ++ [o]; rw [h.2.2.1], h.2.2.2⟩

theorem unseen_emit₀ {E : Env} {l : List Fs} (o : Out) : Unseen (SysSame₀ E l) (SysSame₀ E l) (emit o) := fun s t h => ⟨rfl, (unseen_emit o s t h.1).2, h.2⟩

theorem unseen_head {E : Env} {l : List Fs} (n : Bytes) : Unseen (SysSame E l) (SysSame E l) (onDb (putHead n)) := by
  intro s t h
  obtain ⟨⟨a1, a2, ⟨a3, a4⟩, a5, a6⟩, h2⟩ := h
  simp only at a1 a2 a3 a4 a5 a6
  unfold onDb SM.on putHead rawPutState write
  simp only [a3, a4]
  exact ⟨trivial, ⟨a1, a2, ⟨rfl, rfl⟩, by simp only [a5], a6⟩, h2⟩

theorem unseen_command {X : Ctx} {l : List Fs} (hfa : FaithfulFs X.E l) (R : Repo) (cmd : Command) (hc : cmd.compares = true) (hs : ∀ p k, cmd ≠ .compare p k true) :
    Unseen (SysSame₀ X.E l) (SysSame X.E l) (cmd.inRepo X R) := by
  have hr : ∀ {α} (f : Db → Res α), Unseen (SysSame₀ X.E l) (SysSame₀ X.E l) (readDb f) := fun f => unseen_read fun s t h => by rw [h.2]
  have up : ∀ s t, SysSame₀ X.E l s t → SysSame X.E l s t := fun _ _ h => h.1
  have id : ∀ s t, SysSame X.E l s t → SysSame X.E l s t := fun _ _ h => h
  cases cmd with
  | compare path key stat =>
    refine unseen_bind (hr _) (fun k => unseen_bind (unseen_work hfa R _ _) (fun r => ?_) id) up
    cases stat with
    | true => exact (hs path key rfl).elim
    | false => exact unseen_emit _
  | status =>
    refine unseen_bind (hr _) (fun h => unseen_bind (unseen_read fun s t h => by rw [h.2]) (fun k => ?_) up) up
    cases k with
    | none => exact fun s t h => unseen_emit _ s t h.1
    | some k => exact unseen_bind (unseen_emit₀ _) (fun _ => unseen_bind (hr _) (fun c => unseen_bind (unseen_work hfa R _ _) (fun r => unseen_emit _) id) up) up
  | checkoutHead refname =>
    refine unseen_bind (hr _) (fun h => unseen_bind (unseen_read fun s t h => by rw [h.2]) (fun k => unseen_bind (hr _) (fun t => unseen_bind (unseen_work hfa R _ _) (fun r => ?_) id) up) up) up
    cases r.isEmpty with
    | true => exact unseen_bind (unseen_head _) (fun _ => unseen_emit _) id
    | false => exact unseen_bind (unseen_emit _) (fun _ => unseen_emit _) id
  | _ => simp [Command.compares] at hc

/-- **C109**: with two caches, both filled by earlier commands in any way (some of their entries or all may be lost), `status`, `checkout-head` and `compare` (without `--stat`) print the same, leave the same
files, HEAD and refs, and end in the same way, but that the COMMIT on the cache may fail for one of them. -/
theorem C109_same (X : Ctx) (w : World) (R : Repo) (q : List Bytes) (ho : Opens X w R q) (l : List Fs) (ca : Cache) (hu : World.Uses X.E l w) (hu' : World.Uses X.E l { w with cache := ca })
    (hfa : FaithfulFs X.E (w.fs :: l)) (hf : (w.dbs q).faults = []) (cmd : Command) (hc : cmd.compares = true) (hs : ∀ p k, cmd ≠ .compare p k true) :
    (mainRun X cmd w).2.1 = (mainRun X cmd { w with cache := ca }).2.1 ∧ (mainRun X cmd w).2.2.fs = (mainRun X cmd { w with cache := ca }).2.2.fs ∧
    (∀ q', ((mainRun X cmd w).2.2.dbs q').state = ((mainRun X cmd { w with cache := ca }).2.2.dbs q').state ∧
      ((mainRun X cmd w).2.2.dbs q').reflog = ((mainRun X cmd { w with cache := ca }).2.2.dbs q').reflog) ∧
    ((mainRun X cmd w).1 = (mainRun X cmd { w with cache := ca }).1 ∨
      (∃ a ∈ [Exit.success, .failure .sqlite], (mainRun X cmd w).1 = a) ∧ ∃ b ∈ [Exit.success, .failure .sqlite], (mainRun X cmd { w with cache := ca }).1 = b) := by
  have ho' : Opens X { w with cache := ca } R q := ho
  have right : ∀ {v : World}, World.Uses X.E l v → RightFor X.E (w.fs :: l) v.cache := fun h => by
    obtain ⟨L, h1, h2⟩ := uses_right h
    exact ⟨L, fun x hx => List.mem_cons_of_mem _ (h1 x hx), h2⟩
  obtain ⟨h1, h2, h3, h4, h5⟩ := unseen_command hfa R cmd hc hs (startOf w q) (startOf { w with cache := ca } q)
    ⟨⟨⟨right hu, right (v := { w with cache := ca }) hu', ⟨hf, hf⟩, rfl, rfl⟩, rfl, rfl, List.mem_cons_self⟩, rfl⟩
  have ne := compares_ne_init hc
  rw [mainRun_open ne ho, mainRun_open ne ho', runIn_eq, runIn_eq]
  refine ⟨h4, h3, fun q' => ?_, ?_⟩
  · simp only [World.setDb]
    by_cases e : q' = q
    · simp only [e, if_true]
      rw [← h1]
      have f1 := h2.healthy.1
      have f2 := h2.healthy.2
      simp only at f1 f2
      cases hr : (cmd.inRepo X R (startOf w q)).1 with
      | ok u => simp only [Conn.finish, Conn.commit, Conn.crash, f1, f2]; exact ⟨h2.state, h2.reflog⟩
      | _ => simp only [Conn.finish, Conn.rollback, Conn.crash]; exact ⟨rfl, rfl⟩
    · simp only [if_neg e]; exact ⟨trivial, trivial⟩
  · simp only
    rw [← h1]
    cases hr : (cmd.inRepo X R (startOf w q)).1 with
    | ok u =>
      have he : ∀ b, exitOf (.ok u) b ∈ [Exit.success, .failure .sqlite] := fun b => by cases b <;> simp [exitOf]
      exact .inr ⟨⟨_, he _, rfl⟩, _, he _, rfl⟩
    | _ => exact .inl rfl

/-- In particular without any cache. -/
theorem C109_empty (X : Ctx) (w : World) (R : Repo) (q : List Bytes) (ho : Opens X w R q) (l : List Fs) (hu : World.Uses X.E l w) (hfa : FaithfulFs X.E (w.fs :: l)) (hf : (w.dbs q).faults = [])
    (cmd : Command) (hc : cmd.compares = true) (hs : ∀ p k, cmd ≠ .compare p k true) :
    (mainRun X cmd w).2.1 = (mainRun X cmd { w with cache := {} }).2.1 ∧
    ∀ q', getHead ((mainRun X cmd w).2.2.dbs q') = getHead ((mainRun X cmd { w with cache := {} }).2.2.dbs q') := by
  obtain ⟨h1, _, h2, _⟩ := C109_same X w R q ho l {} hu (.lost _ hu fun ck => .inr rfl) hfa hf cmd hc hs
  refine ⟨h1, fun q' => ?_⟩
  unfold getHead rawGetState
  rw [(h2 q').1]

end Snap.Props
