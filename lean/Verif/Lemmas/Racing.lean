import Verif.Model.LiveHash
import Verif.Lemmas.Puts
/-! Invariants of the commands of Model/LiveHash.lean. -/
namespace Snap.Props
open Snap
set_option linter.unusedSectionVars false
variable [Serde] [LawfulSerde]

/-- What holds before still holds afterwards, however it ends. -/
def Hold {σ α} (I : σ → Prop) (x : SM σ α) : Prop := ∀ s, I s → I (x s).2
/-- What holds before still holds afterwards, if it ends well. -/
def HoldOk {σ α} (I : σ → Prop) (x : SM σ α) : Prop := ∀ s a s', x s = (.ok a, s') → I s → I s'

section
variable {σ α β : Type} {I : σ → Prop}

theorem hold_bind {x : SM σ α} {f : α → SM σ β} (hx : Hold I x) (hf : ∀ a, Hold I (f a)) : Hold I (x >>= f) := by
  intro s hs
  have h := hx s hs
  rw [SM.bind_apply]
  cases hr : x s with
  | mk r s' =>
    rw [hr] at h
    cases r with
    | ok a => exact hf a s' h
    | _ => exact h
theorem hold_silent {x : SM σ α} (h : ∀ s, (x s).2 = s) : Hold I x := fun s hs => by rw [h s]; exact hs
theorem hold_pure (a : α) : Hold I (pure a : SM σ α) := hold_silent fun _ => rfl
theorem hold_unwrap {x : SM σ α} (hx : Hold I x) : Hold I (SM.unwrap x) := fun s hs => hx s hs
theorem hold_mapSM {f : α → SM σ β} (h : ∀ a, Hold I (f a)) (l : List α) : Hold I (mapSM f l) := by
  induction l with
  | nil => exact hold_pure _
  | cons a l ih => exact hold_bind (h a) fun b => hold_bind ih fun r => hold_pure _

theorem holdOk_bind {x : SM σ α} {f : α → SM σ β} (hx : HoldOk I x) (hf : ∀ a, HoldOk I (f a)) : HoldOk I (x >>= f) := by
  intro s b s' h hs
  obtain ⟨a, s1, h1, h2⟩ := bind_ok h
  exact hf a _ _ _ h2 (hx _ _ _ h1 hs)
theorem holdOk_silent {x : SM σ α} (h : ∀ s, (x s).2 = s) : HoldOk I x := fun s a s' hx hs => by
  have := h s
  rw [hx] at this
  simp only at this
  rw [this]; exact hs
theorem holdOk_pure (a : α) : HoldOk I (pure a : SM σ α) := holdOk_silent fun _ => rfl
theorem holdOk_unwrap {x : SM σ α} (hx : HoldOk I x) : HoldOk I (SM.unwrap x) := by
  intro s a s' h hs
  unfold SM.unwrap at h
  cases hr : x s with
  | mk r s1 =>
    rw [hr] at h
    cases r with
    | ok b =>
      simp only [Res.unwrap, Prod.mk.injEq] at h
      rw [← h.2]
      exact hx s b s1 hr hs
    | _ => simp [Res.unwrap] at h
theorem holdOk_mapSM {f : α → SM σ β} (h : ∀ a, HoldOk I (f a)) (l : List α) : HoldOk I (mapSM f l) := by
  induction l with
  | nil => exact holdOk_pure _
  | cons a l ih => exact holdOk_bind (h a) fun b => holdOk_bind ih fun r => holdOk_pure _

end

/-! ### Questions change nothing -/

theorem inquire_apply {σ α} (f : Nat → Res α) (s : σ × Nat) : inquire f s = (f s.2, (s.1, s.2 + 1)) := rfl

theorem walkLive_state {σ} (A : Sights) (base : Path) (n : Nat) (path : Path) (s : σ × Nat) : (walkLive A base n path s).2.1 = s.1 := by
  have hI : ∀ (s0 : σ) n path, Hold (fun s : σ × Nat => s.1 = s0) (walkLive A base n path) := by
    intro s0 n
    have hq : ∀ {α} (f : Nat → Res α), Hold (fun s : σ × Nat => s.1 = s0) (inquire f) := fun f s hs => hs
    have he : ∀ (rec : Path → SM (σ × Nat) (PMap Bool)), (∀ p, Hold (fun s : σ × Nat => s.1 = s0) (rec p)) → ∀ curr path l m,
        Hold (fun s : σ × Nat => s.1 = s0) (walkLiveEntries A rec curr path m l) := by
      intro rec hrec curr path l
      induction l with
      | nil => exact fun m => hold_pure _
      | cons o l ih =>
        intro m
        cases o with
        | none => exact hold_silent fun _ => rfl
        | some nm =>
          refine hold_bind (hq _) fun b => ?_
          cases b
          · exact ih m
          · exact hold_bind (hrec _) fun r => ih _
    induction n with
    | zero => exact fun path => hold_silent fun _ => rfl
    | succ n ih =>
      intro path
      refine hold_bind (hq _) fun w => ?_
      cases w with
      | dir => exact hold_bind (hq _) fun names => he _ ih _ _ _ _
      | file len => exact hold_pure _
      | other => exact hold_silent fun _ => rfl
  exact hI s.1 n path s rfl

/-! ### The comparison -/

theorem compareLive_hold {I : Db × Cache → Prop} (E : Env) (A : Sights) (h : ∀ p, Hold (fun s : (Db × Cache) × Nat => I s.1) (hashLive E A p)) (iter : Nat → List Path → List Path) (n : Nat)
    (base : Path) (to : Option Key) : Hold (fun s : (Db × Cache) × Nat => I s.1) (compareLive E A iter n base to) := by
  unfold compareLive
  refine hold_bind (fun s hs => ?_) fun m => hold_bind ?_ fun toMap => hold_bind (hold_mapSM (fun x => ?_) _) fun _ => hold_bind (hold_mapSM (fun x => hold_silent fun _ => rfl) _) fun _ =>
    hold_bind (hold_mapSM (fun x => ?_) _) fun _ => hold_pure _
  · rw [walkLive_state]; exact hs
  · cases to <;> exact hold_silent fun _ => rfl
  · refine hold_bind (hold_silent fun _ => rfl) fun b => ?_
    cases b
    · exact hold_bind (hold_unwrap (h _)) fun _ => hold_pure _
    · exact hold_pure _
  · refine hold_bind (hold_silent fun _ => rfl) fun b => ?_
    cases b
    · refine hold_bind (h _) fun _ => ?_
      cases toMap.get x <;> exact hold_silent fun _ => rfl
    · exact hold_pure _

theorem compareLive_holdOk {I : Db × Cache → Prop} (E : Env) (A : Sights) (h : ∀ p, HoldOk (fun s : (Db × Cache) × Nat => I s.1) (hashLive E A p)) (iter : Nat → List Path → List Path) (n : Nat)
    (base : Path) (to : Option Key) : HoldOk (fun s : (Db × Cache) × Nat => I s.1) (compareLive E A iter n base to) := by
  unfold compareLive
  refine holdOk_bind (fun s a s' hx hs => ?_) fun m => holdOk_bind ?_ fun toMap => holdOk_bind (holdOk_mapSM (fun x => ?_) _) fun _ =>
    holdOk_bind (holdOk_mapSM (fun x => holdOk_silent fun _ => rfl) _) fun _ => holdOk_bind (holdOk_mapSM (fun x => ?_) _) fun _ => holdOk_pure _
  · have := walkLive_state A base n [] s
    rw [hx] at this
    rw [this]; exact hs
  · cases to <;> exact holdOk_silent fun _ => rfl
  · refine holdOk_bind (holdOk_silent fun _ => rfl) fun b => ?_
    cases b
    · exact holdOk_bind (holdOk_unwrap (h _)) fun _ => holdOk_pure _
    · exact holdOk_pure _
  · refine holdOk_bind (holdOk_silent fun _ => rfl) fun b => ?_
    cases b
    · refine holdOk_bind (h _) fun _ => ?_
      cases toMap.get x <;> exact holdOk_silent fun _ => rfl
    · exact holdOk_pure _

/-! ### The commands -/

/-- The commands that compare the working directory. -/
def _root_.Snap.Command.compares : Command → Bool
  | .compare .. => true
  | .status => true
  | .checkoutHead _ => true
  | _ => false

theorem racing_hold {I : Db × Cache → Prop} (X : Ctx) (A : Sights) (R : Repo) (cmd : Command) (hc : cmd.compares = true)
    (h : ∀ path to, Hold (fun s : (Db × Cache) × Nat => I s.1) (compareLive X.E A X.iter X.depth path to)) (hp : ∀ n db ca, I (db, ca) → I ((putHead n db).2, ca)) :
    Hold (fun s : Sys => I (s.db, s.cache)) (cmd.racing X A R) := by
  have hw : ∀ path to, Hold (fun s : Sys => I (s.db, s.cache)) (compareWorkLive X A path to) := fun path to s hs => h path to ((s.db, s.cache), 0) hs
  have hr : ∀ {α} (f : Db → Res α), Hold (fun s : Sys => I (s.db, s.cache)) (readDb f) := fun f => hold_silent fun _ => rfl
  have he : ∀ o, Hold (fun s : Sys => I (s.db, s.cache)) (emit o) := fun o s hs => hs
  cases cmd with
  | compare path key stat =>
    refine hold_bind (hr _) fun k => hold_bind (hw _ _) fun r => ?_
    cases stat
    · exact he _
    · exact hold_bind (hr _) fun _ => he _
  | status =>
    refine hold_bind (hr _) fun n => hold_bind (hold_silent fun _ => rfl) fun k => ?_
    cases k with
    | none => exact he _
    | some k => exact hold_bind (he _) fun _ => hold_bind (hr _) fun _ => hold_bind (hw _ _) fun _ => he _
  | checkoutHead refname =>
    refine hold_bind (hr _) fun n => hold_bind (hold_silent fun _ => rfl) fun k => hold_bind (hr _) fun t => hold_bind (hw _ _) fun r => ?_
    cases r.isEmpty
    · exact hold_bind (he _) fun _ => he _
    · exact hold_bind (fun s hs => hp _ _ _ hs) fun _ => he _
  | _ => simp [Command.compares] at hc

theorem racing_holdOk {I : Db × Cache → Prop} (X : Ctx) (A : Sights) (R : Repo) (cmd : Command) (hc : cmd.compares = true)
    (h : ∀ path to, HoldOk (fun s : (Db × Cache) × Nat => I s.1) (compareLive X.E A X.iter X.depth path to)) (hp : ∀ n db db' ca, putHead n db = (.ok (), db') → I (db, ca) → I (db', ca)) :
    HoldOk (fun s : Sys => I (s.db, s.cache)) (cmd.racing X A R) := by
  have hw : ∀ path to, HoldOk (fun s : Sys => I (s.db, s.cache)) (compareWorkLive X A path to) := by
    intro path to s a s' hx hs
    unfold compareWorkLive onDbCache SM.on at hx
    simp only [Prod.mk.injEq] at hx
    have := h path to ((s.db, s.cache), 0) a (compareLive X.E A X.iter X.depth path to ((s.db, s.cache), 0)).2 (Prod.ext hx.1 rfl) hs
    rw [← hx.2]
    exact this
  have hr : ∀ {α} (f : Db → Res α), HoldOk (fun s : Sys => I (s.db, s.cache)) (readDb f) := fun f => holdOk_silent fun _ => rfl
  have he : ∀ o, HoldOk (fun s : Sys => I (s.db, s.cache)) (emit o) := by
    intro o s a s' hx hs
    simp only [emit, SM.modify_apply, Prod.mk.injEq] at hx
    rw [← hx.2]
    exact hs
  cases cmd with
  | compare path key stat =>
    refine holdOk_bind (hr _) fun k => holdOk_bind (hw _ _) fun r => ?_
    cases stat
    · exact he _
    · exact holdOk_bind (hr _) fun _ => he _
  | status =>
    refine holdOk_bind (hr _) fun n => holdOk_bind (holdOk_silent fun _ => rfl) fun k => ?_
    cases k with
    | none => exact he _
    | some k => exact holdOk_bind (he _) fun _ => holdOk_bind (hr _) fun _ => holdOk_bind (hw _ _) fun _ => he _
  | checkoutHead refname =>
    refine holdOk_bind (hr _) fun n => holdOk_bind (holdOk_silent fun _ => rfl) fun k => holdOk_bind (hr _) fun t => holdOk_bind (hw _ _) fun r => ?_
    cases r.isEmpty
    · exact holdOk_bind (he _) fun _ => he _
    · refine holdOk_bind (fun s a s' hx hs => ?_) fun _ => he _
      unfold onDb SM.on at hx
      simp only [Prod.mk.injEq] at hx
      rw [← hx.2]
      exact hp refname s.db (putHead refname s.db).2 _ (Prod.ext hx.1 rfl) hs
  | _ => simp [Command.compares] at hc

/-! ### One file -/

/-- What a visit to a file that ends well did. -/
theorem hashLive_ok {E : Env} {A : Sights} {p : Path} {db db' : Db} {ca ca' : Cache} {t t' : Nat} {k : Key} (h : hashLive E A p ((db, ca), t) = (.ok k, ((db', ca'), t'))) :
    ∃ len ck evs, A.stat t p = .ok (.file len) ∧ A.opened (t + 1) p = .ok (ck, evs) ∧ t' = t + 2 ∧
      (ca.get ck = .ok (some k) ∧ db' = db ∧ ca' = ca ∨ ca.get ck = .ok none ∧ putRead E evs len db = (.ok k, db') ∧ ca' = (Cache.put ck k ca).2) := by
  unfold hashLive at h
  rw [SM.bind_apply, inquire_apply] at h
  cases hs : A.stat t p with
  | ok w =>
    simp only [hs] at h
    cases w with
    | file len =>
      simp only at h
      rw [SM.bind_apply, inquire_apply] at h
      cases ho : A.opened (t + 1) p with
      | ok f =>
        simp only [ho] at h
        rw [SM.bind_apply, SM.read_apply] at h
        simp only at h
        refine ⟨len, f.1, f.2, rfl, rfl, ?_⟩
        cases hg : ca.get f.1 with
        | ok o =>
          rw [hg] at h
          cases o with
          | some k' =>
            simp only [SM.pure_apply, Prod.mk.injEq, Res.ok.injEq] at h
            obtain ⟨rfl, ⟨rfl, rfl⟩, rfl⟩ := h
            exact ⟨rfl, Or.inl ⟨rfl, rfl, rfl⟩⟩
          | none =>
            simp only at h
            rw [SM.bind_apply] at h
            simp only [SM.fst] at h
            cases hp : putRead E f.2 len db with
            | mk r d =>
              rw [hp] at h
              cases r with
              | ok k' =>
                simp only [SM.bind_apply, SM.snd, SM.pure_apply, Prod.mk.injEq, Res.ok.injEq] at h
                obtain ⟨rfl, ⟨rfl, rfl⟩, rfl⟩ := h
                exact ⟨rfl, Or.inr ⟨rfl, rfl, rfl⟩⟩
              | _ => simp at h
        | _ => rw [hg] at h; simp at h
      | _ => simp [ho] at h
    | _ => simp [SM.throw] at h
  | _ => simp [hs] at h

/-- What any visit to a file did to the cache. -/
theorem hashLive_cache (E : Env) (A : Sights) (p : Path) (s : (Db × Cache) × Nat) : (hashLive E A p s).2.1.2 = s.1.2 ∨
    ∃ len ck evs k, A.stat s.2 p = .ok (.file len) ∧ A.opened (s.2 + 1) p = .ok (ck, evs) ∧ s.1.2.get ck = .ok none ∧ (putRead E evs len s.1.1).1 = .ok k ∧
      (hashLive E A p s).2.1.2 = (Cache.put ck k s.1.2).2 := by
  unfold hashLive
  rw [SM.bind_apply, inquire_apply]
  cases hs : A.stat s.2 p with
  | ok w =>
    simp only
    cases w with
    | file len =>
      simp only
      rw [SM.bind_apply, inquire_apply]
      cases ho : A.opened (s.2 + 1) p with
      | ok f =>
        simp only
        rw [SM.bind_apply, SM.read_apply]
        simp only
        cases hg : s.1.2.get f.1 with
        | ok o =>
          cases o with
          | some k' => exact Or.inl rfl
          | none =>
            simp only
            rw [SM.bind_apply]
            simp only [SM.fst]
            cases hp : putRead E f.2 len s.1.1 with
            | mk r d =>
              cases r with
              | ok k' => exact Or.inr ⟨len, f.1, f.2, k', rfl, rfl, hg, by rw [hp], rfl⟩
              | _ => exact Or.inl rfl
        | _ => exact Or.inl rfl
      | _ => exact Or.inl rfl
    | _ => exact Or.inl rfl
  | _ => exact Or.inl rfl

end Snap.Props
