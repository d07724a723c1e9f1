import Verif.Lemmas.Flaky
import Verif.Props.Clean
/-! C98: a query that fails is never taken for an answer; except by `status` and `checkout-head`. -/
namespace Snap.Props
open Snap
set_option linter.unusedSectionVars false
variable [Serde] [LawfulSerde]

namespace Spec

/-- The run stopped with an error or a panic: no database changed, nor what is cached, and all it has printed is a beginning of what should have been printed. -/
structure GaveUp (w : World) (should did : Exit × List Out × World) : Prop where
  exit : did.1 = .fatal .sqlite ∨ did.1 = .panicked
  out : did.2.1 <+: should.2.1
  dbs : ∀ q, SameTables (did.2.2.dbs q) (w.dbs q)
  cache : did.2.2.cache.rows = w.cache.rows

/-- Commands that read nothing from the database. -/
def Blind : Command → Prop
  | .insert _ | .walkFsTree _ | .setHead _ | .init => True
  | _ => False

/-- Commands that take a failing query for an answer. -/
def Careless : Command → Prop
  | .status | .checkoutHead _ => True
  | _ => False

/-- Commands that write files. -/
def Writes : Command → Prop
  | .fetch _ _ | .checkout => True
  | _ => False

end Spec

open _root_.Snap.Flaky (Tame Told Answered growth_told)

/-- `Tame` at one state. -/
def Tamed {α : Type} (F : Hitches) (b : Bool) (x : C α) (y : Flaky.CQ α) (s : Sys) (n : Nat) : Prop :=
  Told b s (x s).2 ∧ ∃ m, Answered F n m ∧ (y (s, n) = ((x s).1, (x s).2, m) ∨
    F m ≠ none ∧ ∃ r t, y (s, n) = (r, t, m + 1) ∧ (r = .err .sqlite ∨ r = .panic) ∧ Told b t (x s).2)

theorem runFlaky_eq (F : Hitches) (X : Ctx) (R : Repo) (q : List Bytes) (cmd : Command) (w : World) :
    runFlaky F X R q cmd w = (let s := Flaky.body F X R cmd (startOf w q, 0)
      let ca := Cache.finish s.1 w.cache s.2.1.cache
      (exitOf s.1 ca.1, s.2.1.out, World.setDb { w with fs := s.2.1.fs, cache := ca.2 } q (Conn.finish s.1 (Conn.mk (w.dbs q) (some s.2.1.db))).durable)) := rfl

theorem runIn_steps (X : Ctx) (R : Repo) (q : List Bytes) (cmd : Command) (w : World) :
    runIn X R q cmd w = (let s := cmd.inRepo X R (startOf w q)
      let ca := Cache.finish s.1 w.cache s.2.cache
      (exitOf s.1 ca.1, s.2.out, World.setDb { w with fs := s.2.fs, cache := ca.2 } q (Conn.finish s.1 (Conn.mk (w.dbs q) (some s.2.db))).durable)) := rfl

/-- What a failed body leaves. -/
theorem runFlaky_failed {F : Hitches} {X : Ctx} {R : Repo} {q : List Bytes} {cmd : Command} {w : World} {r : Res Unit} {t : Sys} {m : Nat}
    (h : Flaky.body F X R cmd (startOf w q, 0) = (r, t, m)) (hr : r = .err .sqlite ∨ r = .panic) {should : Exit × List Out × World} (ho : t.out <+: should.2.1) :
    Spec.GaveUp w should (runFlaky F X R q cmd w) ∧ (runFlaky F X R q cmd w).2.2.fs = t.fs ∧ (runFlaky F X R q cmd w).2.1 = t.out := by
  rw [runFlaky_eq, h]
  rcases hr with rfl | rfl
  · refine ⟨⟨.inl rfl, ho, fun q' => ?_, rfl⟩, rfl, rfl⟩
    simp only [World.setDb]
    split
    · rename_i e; subst e; exact ⟨rfl, rfl, rfl⟩
    · exact SameTables.refl _
  · refine ⟨⟨.inr rfl, ho, fun q' => ?_, rfl⟩, rfl, rfl⟩
    simp only [World.setDb]
    split
    · rename_i e; subst e; exact ⟨rfl, rfl, rfl⟩
    · exact SameTables.refl _

theorem runFlaky_tamed {F : Hitches} {b : Bool} {X : Ctx} {R : Repo} {q : List Bytes} {cmd : Command} {w : World}
    (h : Tamed F b (cmd.inRepo X R) (Flaky.body F X R cmd) (startOf w q) 0) :
    (runFlaky F X R q cmd w = runIn X R q cmd w ∨ (∃ i, F i ≠ none) ∧ Spec.GaveUp w (runIn X R q cmd w) (runFlaky F X R q cmd w)) ∧
    (b = true → (runFlaky F X R q cmd w).2.2.fs = w.fs) := by
  obtain ⟨h1, m, hm, h2 | ⟨hF, r, t, h2, hr, ht⟩⟩ := h
  · have e : runFlaky F X R q cmd w = runIn X R q cmd w := by rw [runFlaky_eq, h2, runIn_steps]
    refine ⟨.inl e, fun hb => ?_⟩
    rw [e, runIn_steps]
    exact h1.2 hb
  · obtain ⟨g1, g2, -⟩ := runFlaky_failed h2 hr (should := runIn X R q cmd w) ht.1
    refine ⟨.inr ⟨⟨m, hF⟩, g1⟩, fun hb => ?_⟩
    rw [g2, ← ht.2 hb]
    exact h1.2 hb

/-- **C98**: whichever queries of the database and the cache fail, at whatever time, a command other than `status` and `checkout-head` either does in all respects what
it does when no query fails (how it ends, what it prints, all it leaves), or it prints `fatal: …` or panics, leaves every database and the cache as they were and has
printed a beginning of what it should have printed; the latter only if some query fails. -/
theorem C98_reads (F : Hitches) (X : Ctx) (w : World) (R : Repo) (q : List Bytes) (ho : Opens X w R q) (cmd : Command) (hc : ¬ Spec.Careless cmd) (hi : cmd ≠ .init) :
    runFlaky F X R q cmd w = mainRun X cmd w ∨ (∃ i, F i ≠ none) ∧ Spec.GaveUp w (mainRun X cmd w) (runFlaky F X R q cmd w) := by
  rw [mainRun_open hi ho]
  refine (runFlaky_tamed (b := false) (Flaky.tame_body X R cmd ?_ ?_ (fun h => by cases h) (startOf w q) 0)).1
  · rintro rfl; exact hc trivial
  · rintro r rfl; exact hc trivial

/-- **C98**: so if it ends well, it has done what it should. -/
theorem C98_success (F : Hitches) (X : Ctx) (w : World) (R : Repo) (q : List Bytes) (ho : Opens X w R q) (cmd : Command) (hc : ¬ Spec.Careless cmd) (hi : cmd ≠ .init)
    (h : (runFlaky F X R q cmd w).1 = .success) : runFlaky F X R q cmd w = mainRun X cmd w := by
  rcases C98_reads F X w R q ho cmd hc hi with e | ⟨_, e⟩
  · exact e
  · rcases e.exit with e | e <;> rw [h] at e <;> cases e

/-- **C98**: and only `fetch` and `checkout` write files. -/
theorem C98_files (F : Hitches) (X : Ctx) (w : World) (R : Repo) (q : List Bytes) (cmd : Command) (hc : ¬ Spec.Careless cmd) (hw : ¬ Spec.Writes cmd) :
    (runFlaky F X R q cmd w).2.2.fs = w.fs := by
  refine (runFlaky_tamed (b := true) (Flaky.tame_body X R cmd ?_ ?_ (fun _ => ⟨?_, ?_⟩) (startOf w q) 0)).2 rfl
  · rintro rfl; exact hc trivial
  · rintro r rfl; exact hc trivial
  · rintro k d rfl; exact hw trivial
  · rintro rfl; exact hw trivial

/-! ### The first query -/

/-- The first query fails, and nothing else happens. -/
def Stops {α : Type} {τ : Type} (y : SM (τ × Nat) α) : Prop := ∀ s, ∃ r, y (s, 0) = (r, s, 1) ∧ (r = .err .sqlite ∨ r = .panic)

theorem Stops.bind {α β τ : Type} {y : SM (τ × Nat) α} (h : Stops y) (g : α → SM (τ × Nat) β) : Stops (y >>= g) := by
  intro s
  obtain ⟨r, h1, h2⟩ := h s
  rw [SM.bind_apply, h1]
  rcases h2 with rfl | rfl
  · exact ⟨_, rfl, .inl rfl⟩
  · exact ⟨_, rfl, .inr rfl⟩

theorem Stops.after {α β τ : Type} {y : SM (τ × Nat) α} {g : α → SM (τ × Nat) β} {a : α} (h : ∀ s, y (s, 0) = (.ok a, s, 0)) (hg : Stops (g a)) : Stops (y >>= g) := by
  intro s
  rw [SM.bind_apply, h]
  exact hg s

theorem Stops.unwrap {α τ : Type} {y : SM (τ × Nat) α} (h : Stops y) : Stops (SM.unwrap y) := by
  intro s
  obtain ⟨r, h1, h2⟩ := h s
  refine ⟨r.unwrap, by simp only [SM.unwrap, h1], ?_⟩
  rcases h2 with rfl | rfl <;> exact .inr rfl

theorem stops_asking {α : Type} {f : Db → Flaky.CQ α} (h : ∀ db, Stops (f db)) : Stops (Flaky.asking f) := fun s => h s.db s

section
variable {τ : Type} {F : Hitches} (hF : F 0 ≠ none)
include hF

theorem stops_query {α : Type} (r o : Res α) (ho : o = .err .sqlite ∨ o = .panic) : Stops (query F r o : SM (τ × Nat) α) := by
  intro s
  unfold query
  cases h : F 0 with
  | none => exact absurd h hF
  | some a =>
    cases a with
    | start => exact ⟨_, by simp only [h], .inl rfl⟩
    | row => exact ⟨o, by simp only [h], ho⟩

theorem stops_getHead (db : Db) : Stops (Flaky.getHead F db : SM (τ × Nat) _) := (stops_query hF _ _ (.inl rfl)).bind _
theorem stops_headName (db : Db) : Stops (Flaky.headName F db : SM (τ × Nat) _) := (stops_getHead hF db).bind _
theorem stops_getHeadKey (db : Db) : Stops (Flaky.getHeadKey F db : SM (τ × Nat) _) := (stops_headName hF db).bind _
theorem stops_reflogGet (db : Db) (r : Bytes) (q : Option Bytes) : Stops (Flaky.reflogGet F db r q : SM (τ × Nat) _) := stops_query hF _ _ (.inl rfl)

theorem stops_canonicalize (db : Db) (k : Keyish) : Stops (Flaky.canonicalize F db k : SM (τ × Nat) _) := by
  cases k with
  | key s k => exact (stops_query hF _ _ (.inl rfl)).unwrap.bind _
  | range s a b => exact (stops_query hF _ _ (.inl rfl)).unwrap.bind _
  | reflog o q n =>
    intro s
    obtain ⟨r, h1, h2⟩ := stops_reflogGet (τ := τ) hF db n q s
    refine ⟨r, ?_, h2⟩
    simp only [Flaky.canonicalize, h1]
    rcases h2 with rfl | rfl <;> rfl

theorem stops_parentsOf (db : Db) (r : Bytes) : Stops (Flaky.parentsOf F db r : SM (τ × Nat) _) := by
  intro s
  obtain ⟨e, h1, h2⟩ := stops_reflogGet (τ := τ) hF db r none s
  simp only [Flaky.parentsOf, h1]
  rcases h2 with rfl | rfl
  · exact ⟨_, rfl, .inl rfl⟩
  · exact ⟨_, rfl, .inr rfl⟩

end

/-- **C98**: if the first query fails, every command that reads anything stops, having printed nothing and changed nothing, no files either. -/
theorem C98_dead (F : Hitches) (hF : F 0 ≠ none) (X : Ctx) (w : World) (R : Repo) (q : List Bytes) (cmd : Command) (hb : ¬ Spec.Blind cmd) :
    Spec.GaveUp w (.success, [], w) (runFlaky F X R q cmd w) ∧ (runFlaky F X R q cmd w).2.2.fs = w.fs := by
  have key : Stops (Flaky.body F X R cmd) := by
    cases cmd with
    | insert p => exact absurd trivial hb
    | walkFsTree p => exact absurd trivial hb
    | setHead p => exact absurd trivial hb
    | init => exact absurd trivial hb
    | fetch k d => exact (stops_asking fun db => stops_canonicalize hF db k).bind _
    | checkout => exact (stops_asking fun db => stops_getHeadKey hF db).bind _
    | status => exact (stops_asking fun db => stops_headName hF db).bind _
    | checkoutHead r => exact (stops_asking fun db => stops_headName hF db).bind _
    | commit p m r =>
      cases r with
      | none => exact (stops_asking fun db => stops_headName hF db).bind _
      | some r =>
        exact Stops.after (a := r) (fun _ => rfl) ((stops_asking fun db => stops_parentsOf hF db r).bind _)
    | «show» k =>
      cases k with
      | none => exact (stops_asking fun db => stops_getHeadKey hF db).bind _
      | some k => exact (stops_asking fun db => stops_canonicalize hF db k).bind _
    | log k =>
      cases k with
      | none => exact (stops_asking fun db => stops_getHeadKey hF db).bind _
      | some k => exact (stops_asking fun db => stops_canonicalize hF db k).bind _
    | compare p k s =>
      cases k with
      | none => exact (stops_asking fun db => (stops_getHeadKey hF db).bind _).bind _
      | some k => exact (stops_asking fun db => stops_canonicalize hF db k).bind _
    | refLog r o =>
      cases r with
      | none => exact (stops_asking fun db => stops_headName hF db).bind _
      | some r =>
        exact Stops.after (a := r) (fun _ => rfl) ((stops_asking fun db => stops_query hF _ _ (.inr rfl)).bind _)
    | refUpdate k r => exact (stops_asking fun db => stops_canonicalize hF db k).bind _
    | prettyPrint k => exact (stops_asking fun db => stops_canonicalize hF db k).bind _
    | commitTree k l => exact (stops_asking fun db => stops_canonicalize hF db k).bind _
    | reflogGet r o => exact (stops_asking fun db => stops_reflogGet hF db r o).bind _
    | reflogPush k r o => exact (stops_asking fun db => stops_canonicalize hF db k).bind _
    | walkTree k => exact (stops_asking fun db => stops_canonicalize hF db k).bind _
    | getHead => exact (stops_asking fun db => stops_getHead hF db).bind _
  obtain ⟨r, h1, h2⟩ := key (startOf w q)
  obtain ⟨g1, g2, -⟩ := runFlaky_failed h1 h2 (should := (.success, [], w)) (List.prefix_refl _)
  exact ⟨g1, g2⟩

/-! ### `status` and `checkout-head` -/

/-- What `status` does once it knows HEAD and its newest commit. -/
def restStatus (X : Ctx) (R : Repo) (h : Bytes) : Option Key → C Unit
  | some k => do
    emit (.headAt h (some (k.asUserKey.take 8)))
    let c ← readDb (fun db => Commit.fromKey db k)
    let r ← compareWork X R R.root (some c.tree)
    emit (.result (simplify r))
  | none => emit (.headAt h none)

/-- What `checkout-head` does then. -/
def restHead (X : Ctx) (R : Repo) (refname : Bytes) (k : Option Key) : C Unit := do
  let t ← readDb (fun db => match k with
    | some k => do
      let c ← Commit.fromKey db k
      pure (some c.tree)
    | none => pure none)
  let r ← compareWork X R R.root t
  if r.isEmpty then do
    onDb (putHead refname)
    emit (.text sNewHead)
  else do
    emit (.text sNotClean)
    emit (.result (simplify r))

/-- `restStatus` with failing queries. -/
def flakyStatus (F : Hitches) (X : Ctx) (R : Repo) (h : Bytes) : Option Key → Flaky.CQ Unit
  | some k => do
    SM.fst (emit (.headAt h (some (k.asUserKey.take 8))))
    let c ← Flaky.asking (fun db => Flaky.commitAt F db k)
    let r ← Flaky.compareWork F X R R.root (some c.tree)
    SM.fst (emit (.result (simplify r)))
  | none => SM.fst (emit (.headAt h none))

/-- `restHead` with failing queries. -/
def flakyHead (F : Hitches) (X : Ctx) (R : Repo) (refname : Bytes) (k : Option Key) : Flaky.CQ Unit := do
  let t ← Flaky.asking (fun db => match k with
    | some k => do
      let c ← Flaky.commitAt F db k
      pure (some c.tree)
    | none => pure none)
  let r ← Flaky.compareWork F X R R.root t
  if r.isEmpty then do
    SM.fst (onDb (putHead refname))
    SM.fst (emit (.text sNewHead))
  else do
    SM.fst (emit (.text sNotClean))
    SM.fst (emit (.result (simplify r)))

theorem tame_restStatus {F : Hitches} {b : Bool} (X : Ctx) (R : Repo) (h : Bytes) (o : Option Key) : Tame F (Told b) (restStatus X R h o) (flakyStatus F X R h o) := by
  have hE := growth_told b
  cases o with
  | none => exact Flaky.tame_emit _
  | some k =>
    exact (Flaky.tame_emit _).bind hE fun _ => (Flaky.tame_asking fun db => Flaky.tame_commitAt hE db k).bind hE fun _ =>
      (Flaky.tame_compareWork X R _ _).bind hE fun _ => Flaky.tame_emit _

theorem tame_restHead {F : Hitches} {b : Bool} (X : Ctx) (R : Repo) (n : Bytes) (o : Option Key) : Tame F (Told b) (restHead X R n o) (flakyHead F X R n o) := by
  have hE := growth_told b
  unfold restHead flakyHead
  refine (Flaky.tame_asking fun db => ?_).bind hE fun _ => (Flaky.tame_compareWork X R _ _).bind hE fun _ => ?_
  · cases o with
    | none => exact Tame.pure hE _
    | some k =>
      simp only [Flaky.lift_bind]
      exact (Flaky.tame_commitAt hE db k).bind hE fun _ => Tame.pure hE _
  · split
    · exact (Flaky.tame_onDb _).bind hE fun _ => Flaky.tame_emit _
    · exact (Flaky.tame_emit _).bind hE fun _ => Flaky.tame_emit _

/-- Both commands. -/
def twoStep (rest : Bytes → Option Key → C Unit) : C Unit := do
  let h ← readDb headName
  let k ← (SM.read (fun s => .ok (reflogGet s.db h none).toOption) : C (Option Key))
  rest h k

/-- Both commands with failing queries. -/
def twoFlaky (F : Hitches) (rest : Bytes → Option Key → Flaky.CQ Unit) : Flaky.CQ Unit := do
  let h ← Flaky.asking (fun db => Flaky.headName F db)
  let k ← Flaky.asking (fun db => Flaky.refKey F db h)
  rest h k

theorem status_two (X : Ctx) (R : Repo) : cmdStatus X R = twoStep (restStatus X R) := by
  unfold cmdStatus twoStep
  rfl
theorem head_two (X : Ctx) (R : Repo) (n : Bytes) : cmdCheckoutHead X R n = twoStep (fun _ => restHead X R n) := rfl
theorem flakyStatus_two (F : Hitches) (X : Ctx) (R : Repo) : Flaky.cmdStatus F X R = twoFlaky F (flakyStatus F X R) := by
  unfold Flaky.cmdStatus twoFlaky
  rfl
theorem flakyHead_two (F : Hitches) (X : Ctx) (R : Repo) (n : Bytes) : Flaky.cmdCheckoutHead F X R n = twoFlaky F (fun _ => flakyHead F X R n) := rfl

theorem flaky_headName_apply {F : Hitches} (h0 : F 0 = none) (db : Db) (s : Sys) : Flaky.headName F db (s, 0) = (headName db, s, 1) := by
  have hq : (query F (rawGetState db sHEAD) : SM (Sys × Nat) _) (s, 0) = (rawGetState db sHEAD, s, 1) := by simp [query, h0]
  unfold Flaky.headName
  rw [SM.bind_apply]
  unfold Flaky.getHead
  rw [SM.bind_apply, hq]
  unfold headName getHead
  generalize rawGetState db sHEAD = r
  cases r with
  | ok o =>
    cases o with
    | none => rfl
    | some b =>
      by_cases hu : utf8 b = true
      · simp only [Res.ok_bind, if_pos hu]; rfl
      · simp only [Res.ok_bind, if_neg hu]; rfl
  | err e => rfl
  | panic => rfl
  | fuel => rfl

theorem flaky_refKey_apply (F : Hitches) (db : Db) (h : Bytes) (s : Sys) :
    Flaky.refKey F db h (s, 1) = (.ok (if F 1 = none then (reflogGet db h none).toOption else none), s, 2) := by
  unfold Flaky.refKey Flaky.reflogGet query
  cases h1 : F 1 with
  | none => simp
  | some a => cases a <;> simp [Res.toOption]

/-- The second query fails: HEAD's ref seems to have no commits. -/
theorem two_lost {F : Hitches} {rest : Bytes → Option Key → Flaky.CQ Unit} {s : Sys} {h : Bytes} (h0 : F 0 = none) (h1 : F 1 ≠ none) (hn : headName s.db = .ok h) :
    twoFlaky F rest (s, 0) = rest h none (s, 2) := by
  unfold twoFlaky
  rw [SM.bind_apply]
  have e : Flaky.asking (fun db => Flaky.headName F db) (s, 0) = (.ok h, s, 1) := by
    rw [← hn]; exact flaky_headName_apply h0 s.db s
  rw [e]
  simp only
  rw [SM.bind_apply]
  have e2 : Flaky.asking (fun db => Flaky.refKey F db h) (s, 1) = (.ok none, s, 2) := by
    have := flaky_refKey_apply F s.db h s
    rw [if_neg h1] at this
    exact this
  rw [e2]

theorem two_kept {F : Hitches} {b : Bool} {x : Bytes → Option Key → C Unit} {y : Bytes → Option Key → Flaky.CQ Unit} (ht : ∀ h o, Tame F (Told b) (x h o) (y h o))
    (h1 : F 1 = none) (s : Sys) : Tamed F b (twoStep x) (twoFlaky F y) s 0 := by
  have hE := growth_told b
  have hx : Tame F (Told b) (twoStep x) (do
      let h ← Flaky.asking (fun db => Flaky.headName F db)
      let k ← SM.fst (SM.read (fun s => .ok (reflogGet s.db h none).toOption) : C (Option Key))
      y h k) :=
    (Flaky.tame_asking fun db => Flaky.tame_headName hE db).bind hE fun _ => (Tame.fst hE fun s => hE.refl s).bind hE fun _ => ht _ _
  refine ⟨(hx s 0).1, ?_⟩
  by_cases h0 : F 0 = none
  · have hone : Answered F 0 1 := ⟨by omega, fun i _ hk => by
      have : i = 0 := by omega
      rw [this, h0]⟩
    cases hn : headName s.db with
    | ok h =>
      have e : twoFlaky F y (s, 0) = y h (reflogGet s.db h none).toOption (s, 2) := by
        unfold twoFlaky
        rw [SM.bind_apply]
        have e : Flaky.asking (fun db => Flaky.headName F db) (s, 0) = (.ok h, s, 1) := by
          rw [← hn]; exact flaky_headName_apply h0 s.db s
        rw [e]
        simp only
        rw [SM.bind_apply]
        have e2 : Flaky.asking (fun db => Flaky.refKey F db h) (s, 1) = (.ok (reflogGet s.db h none).toOption, s, 2) := by
          have := flaky_refKey_apply F s.db h s
          rw [if_pos h1] at this
          exact this
        rw [e2]
      have e' : twoStep x s = x h (reflogGet s.db h none).toOption s := by
        unfold twoStep
        rw [SM.bind_apply, readDb_apply, hn]
        rfl
      rw [e, e']
      obtain ⟨-, m, hm, g⟩ := ht h (reflogGet s.db h none).toOption s 2
      refine ⟨m, ⟨by have := hm.1; omega, fun i hi hk => ?_⟩, g⟩
      by_cases hi2 : 2 ≤ i
      · exact hm.2 i hi2 hk
      · have : i = 0 ∨ i = 1 := by omega
        rcases this with rfl | rfl
        · exact h0
        · exact h1
    | err e => exact ⟨1, hone, .inl (by
        unfold twoFlaky twoStep
        rw [SM.bind_apply, SM.bind_apply, readDb_apply, hn]
        have e : Flaky.asking (fun db => Flaky.headName F db) (s, 0) = (.err e, s, 1) := by rw [← hn]; exact flaky_headName_apply h0 s.db s
        rw [e])⟩
    | panic => exact ⟨1, hone, .inl (by
        unfold twoFlaky twoStep
        rw [SM.bind_apply, SM.bind_apply, readDb_apply, hn]
        have e : Flaky.asking (fun db => Flaky.headName F db) (s, 0) = (.panic, s, 1) := by rw [← hn]; exact flaky_headName_apply h0 s.db s
        rw [e])⟩
    | fuel => exact ⟨1, hone, .inl (by
        unfold twoFlaky twoStep
        rw [SM.bind_apply, SM.bind_apply, readDb_apply, hn]
        have e : Flaky.asking (fun db => Flaky.headName F db) (s, 0) = (.fuel, s, 1) := by rw [← hn]; exact flaky_headName_apply h0 s.db s
        rw [e])⟩
  · obtain ⟨r, g1, g2⟩ := ((stops_asking fun db => stops_headName h0 db).bind fun h => do
      let k ← Flaky.asking (fun db => Flaky.refKey F db h)
      y h k) s
    exact ⟨0, .refl F 0, .inr ⟨h0, r, s, g1, g2, (hx s 0).1⟩⟩

theorem careless_tamed {F : Hitches} (h1 : F 1 = none) (X : Ctx) (R : Repo) (cmd : Command) (hc : Spec.Careless cmd) (s : Sys) :
    Tamed F true (cmd.inRepo X R) (Flaky.body F X R cmd) s 0 := by
  cases cmd with
  | status =>
    have := two_kept (F := F) (b := true) (tame_restStatus X R) h1 s
    rw [← status_two, ← flakyStatus_two] at this
    exact this
  | checkoutHead n => exact two_kept (F := F) (b := true) (fun _ => tame_restHead X R n) h1 s
  | _ => exact absurd hc (by simp [Spec.Careless])

/-- **C98**: `status` and `checkout-head` do so too unless it is their second query that fails, the one for HEAD's newest commit. -/
theorem C98_second (F : Hitches) (h1 : F 1 = none) (X : Ctx) (w : World) (R : Repo) (q : List Bytes) (ho : Opens X w R q) (cmd : Command) (hc : Spec.Careless cmd) :
    (runFlaky F X R q cmd w = mainRun X cmd w ∨ (∃ i, F i ≠ none) ∧ Spec.GaveUp w (mainRun X cmd w) (runFlaky F X R q cmd w)) ∧
    (runFlaky F X R q cmd w).2.2.fs = w.fs := by
  have hi : cmd ≠ .init := by rintro rfl; exact hc
  rw [mainRun_open hi ho]
  have := runFlaky_tamed (careless_tamed h1 X R cmd hc (startOf w q))
  exact ⟨this.1, this.2 rfl⟩

/-- **C98**: if no query fails, all commands do what they should. -/
theorem C98_answered (F : Hitches) (hF : ∀ i, F i = none) (X : Ctx) (w : World) (R : Repo) (q : List Bytes) (ho : Opens X w R q) (cmd : Command) (hi : cmd ≠ .init) :
    runFlaky F X R q cmd w = mainRun X cmd w := by
  by_cases hc : Spec.Careless cmd
  · rcases (C98_second F (hF 1) X w R q ho cmd hc).1 with e | ⟨⟨i, e⟩, _⟩
    · exact e
    · exact absurd (hF i) e
  · rcases C98_reads F X w R q ho cmd hc hi with e | ⟨⟨i, e⟩, _⟩
    · exact e
    · exact absurd (hF i) e

/-- **C98**, what is wrong: if the second query fails, `status` says that HEAD's ref has no commits, whatever it has, and ends well. -/
theorem C98_status_lost (F : Hitches) (h0 : F 0 = none) (h1 : F 1 ≠ none) (X : Ctx) (w : World) (R : Repo) (q : List Bytes) (h : Bytes)
    (hh : getHead (w.dbs q) = .ok (some h)) (hf : w.cache.faults = []) :
    (runFlaky F X R q .status w).1 = .success ∧ (runFlaky F X R q .status w).2.1 = [.headAt h none] ∧ (runFlaky F X R q .status w).2.2.fs = w.fs := by
  have e : Flaky.body F X R .status (startOf w q, 0) = (.ok (), { startOf w q with out := [.headAt h none] }, 2) := by
    change Flaky.cmdStatus F X R (startOf w q, 0) = _
    rw [flakyStatus_two, two_lost h0 h1 (headName_eq hh)]
    rfl
  rw [runFlaky_eq, e]
  exact ⟨by simp [Cache.finish, startOf, hf, exitOf], rfl, rfl⟩

theorem mapSM_size {σ α β : Type} {f : α → SM σ β} {l : List α} : ∀ {s s' : σ} {r : List β}, mapSM f l s = (.ok r, s') → r.length = l.length := by
  induction l with
  | nil =>
    intro s s' r h
    simp only [mapSM, SM.pure_apply, Prod.mk.injEq, Res.ok.injEq] at h
    rw [← h.1]; rfl
  | cons a l ih =>
    intro s s' r h
    unfold mapSM at h
    obtain ⟨b, s1, _, h2⟩ := bind_ok h
    obtain ⟨r', s2, h3, h4⟩ := bind_ok h2
    simp only [SM.pure_apply, Prod.mk.injEq, Res.ok.injEq] at h4
    rw [← h4.1, List.length_cons, List.length_cons, ih h3]

theorem compare_all {X : Ctx} (hit : IterOk X.iter) {R : Repo} {s : Sys} {m : PMap Bool} (hm : walkReal s.fs (makeFilter X.glob R.folder) X.depth R.root = .ok m) :
    (m = [] → compareWork X R R.root none s = (.ok ⟨[], [], []⟩, s)) ∧
    (m ≠ [] → ∀ r s', compareWork X R R.root none s = (.ok r, s') → r.isEmpty = false) := by
  have e : compareWork X R R.root none s = ((compare X.E s.fs X.iter X.depth (.fileSystem R.root X.glob R.folder) none (s.db, s.cache)).1,
      { s with db := (compare X.E s.fs X.iter X.depth (.fileSystem R.root X.glob R.folder) none (s.db, s.cache)).2.1,
               cache := (compare X.E s.fs X.iter X.depth (.fileSystem R.root X.glob R.folder) none (s.db, s.cache)).2.2 }) := rfl
  constructor
  · rintro rfl
    have hc : compare X.E s.fs X.iter X.depth (.fileSystem R.root X.glob R.folder) none (s.db, s.cache) = (.ok ⟨[], [], []⟩, (s.db, s.cache)) := by
      have hnil : ∀ i, X.iter i [] = [] := fun i => List.Perm.eq_nil (hit i [])
      unfold compare
      simp only [SM.bind_apply, SM.lift_apply, hm, SM.pure_apply, FromMap.keys, List.map_nil, List.filter_nil, hnil, mapSM]
      rfl
    rw [e, hc]
  · intro hne r s' h
    have hc : compare X.E s.fs X.iter X.depth (.fileSystem R.root X.glob R.folder) none (s.db, s.cache) =
        (.ok r, (compare X.E s.fs X.iter X.depth (.fileSystem R.root X.glob R.folder) none (s.db, s.cache)).2) := by
      rw [e] at h
      simp only [Prod.mk.injEq] at h
      exact Prod.ext h.1 rfl
    generalize (compare X.E s.fs X.iter X.depth (.fileSystem R.root X.glob R.folder) none (s.db, s.cache)).2 = t at hc
    unfold compare at hc
    obtain ⟨fm, s1, g1, g2⟩ := bind_ok hc
    have hfm : fm = .left m := by
      simp only [SM.bind_apply, SM.lift_apply, hm, SM.pure_apply, Prod.mk.injEq, Res.ok.injEq] at g1
      exact g1.1.symm
    subst hfm
    obtain ⟨tm, s2, g3, g4⟩ := bind_ok g2
    simp only [SM.pure_apply, Prod.mk.injEq, Res.ok.injEq] at g3
    obtain ⟨rfl, rfl⟩ := g3
    obtain ⟨added, s3, g5, g6⟩ := bind_ok g4
    obtain ⟨deleted, s4, g7, g8⟩ := bind_ok g6
    obtain ⟨modified, s5, g9, g10⟩ := bind_ok g8
    simp only [SM.pure_apply, Prod.mk.injEq, Res.ok.injEq] at g10
    have hlen := mapSM_size g5
    rw [(hit 0 _).length_eq] at hlen
    have hne' : added ≠ [] := by
      rintro rfl
      have hall : ∀ l : List Path, l.filter (fun x => !(([] : PMap (Key × Bool)).map (·.1)).contains x) = l := fun l => List.filter_eq_self.mpr fun _ _ => rfl
      rw [hall] at hlen
      simp only [FromMap.keys, List.length_map, List.length_nil] at hlen
      exact hne (List.eq_nil_of_length_eq_zero hlen.symm)
    rw [← g10.1]
    have h5 : sortBy Added.le added ≠ [] := by
      intro h0
      have := (sortBy_perm Added.le added).length_eq
      rw [h0] at this
      exact hne' (List.eq_nil_of_length_eq_zero this.symm)
    simp [DiffResult.isEmpty, h5]

/-- What `checkout-head` does when it thinks that HEAD's ref has no commits. -/
theorem restHead_none {X : Ctx} (hit : IterOk X.iter) {R : Repo} {n : Bytes} {s : Sys} {m : PMap Bool}
    (hm : walkReal s.fs (makeFilter X.glob R.folder) X.depth R.root = .ok m) :
    (m = [] → restHead X R n none s = (onDb (putHead n) >>= fun _ => emit (.text sNewHead)) s) ∧
    (m ≠ [] → ∀ u s', restHead X R n none s = (.ok u, s') → s'.db.state = s.db.state ∧ ∃ r, s'.out = s.out ++ [.text sNotClean, .result (simplify r)]) := by
  have e : restHead X R n none s = (compareWork X R R.root none >>= fun r =>
      if r.isEmpty then (onDb (putHead n) >>= fun _ => emit (.text sNewHead)) else (emit (.text sNotClean) >>= fun _ => emit (.result (simplify r)))) s := rfl
  constructor
  · intro h
    rw [e, SM.bind_apply, (compare_all hit hm).1 h]
    rfl
  · intro h u s' h'
    rw [e] at h'
    obtain ⟨r, s1, h1, h2⟩ := bind_ok h'
    have hst : s1.db.state = s.db.state := by
      obtain ⟨cs, c1, c2, _⟩ := traced_compareWork X R R.root none s trivial trivial
      rw [h1] at c2
      show s1.db.state = _
      rw [show s1.db = runCalls X.E.H cs s.db from c2]
      exact calls_state _ _ _ fun c hc => (isPut_keeps (c1 c hc)).1
    have hout : s1.out = s.out := by
      have : (compareWork X R R.root none s).2.out = s.out := rfl
      rw [h1] at this
      exact this
    rw [(compare_all hit hm).2 h r s1 h1] at h2
    simp only [Bool.false_eq_true, if_false, SM.bind_apply, emit, SM.modify_apply, Prod.mk.injEq] at h2
    rw [← h2.2]
    exact ⟨hst, r, by simp [hout]⟩

/-- **C98**, what is wrong: if the second query fails and there is nothing in the working directory, `checkout-head` sets HEAD, whatever the newest commit contains. -/
theorem C98_head_lost (F : Hitches) (h0 : F 0 = none) (h1 : F 1 ≠ none) (X : Ctx) (hit : IterOk X.iter) (w : World) (R : Repo) (q : List Bytes) (h : Bytes)
    (hh : getHead (w.dbs q) = .ok (some h)) (hf : (w.dbs q).faults = []) (hf' : w.cache.faults = [])
    (hm : walkReal w.fs (makeFilter X.glob R.folder) X.depth R.root = .ok []) (hF : ∀ i, 1 < i → F i = none) (n : Bytes) :
    (runFlaky F X R q (.checkoutHead n) w).1 = .success ∧ (runFlaky F X R q (.checkoutHead n) w).2.1 = [.text sNewHead] ∧
    rawGetState ((runFlaky F X R q (.checkoutHead n) w).2.2.dbs q) sHEAD = .ok (some n) := by
  have hp : putHead n (w.dbs q) = (.ok (), { w.dbs q with state := insertReplace (w.dbs q).state sHEAD n, faults := [] }) := by
    unfold putHead rawPutState
    rcases write_cases (fun db => { db with state := insertReplace db.state sHEAD n }) (w.dbs q) with ⟨fs, h, _⟩ | e
    · rw [hf] at h; simp at h
    · rw [e, hf]; rfl
  obtain ⟨-, m, hm', g⟩ := tame_restHead (F := F) (b := true) X R n none (startOf w q) 2
  have e : Flaky.body F X R (.checkoutHead n) (startOf w q, 0) = flakyHead F X R n none (startOf w q, 2) := by
    change Flaky.cmdCheckoutHead F X R n (startOf w q, 0) = _
    rw [flakyHead_two, two_lost h0 h1 (headName_eq hh)]
  have hr := (restHead_none (n := n) (s := startOf w q) hit hm).1 rfl
  rw [SM.bind_apply, onDb_apply] at hr
  simp only [startOf, hp] at hr
  rcases g with g | ⟨g, _⟩
  · have g' : flakyHead F X R n none (startOf w q, 2) = (.ok (), { db := (putHead n (w.dbs q)).2, cache := w.cache, fs := w.fs, out := [.text sNewHead] }, m) := by
      rw [g]
      simp only [startOf, hr, hp]
      rfl
    rw [runFlaky_eq, e, g']
    have := (putHead_ok (n := n) (d := w.dbs q) (d' := (putHead n (w.dbs q)).2) (by rw [hp])).2.2.1
    refine ⟨by simp [Cache.finish, hf', exitOf], rfl, ?_⟩
    simp only [World.setDb, if_true, Conn.finish, Conn.commit, hp] at this ⊢
    exact this
  · exact absurd (hF m (by have := hm'.1; omega)) g

/-- **C98**: if there is something in it, HEAD stays. -/
theorem C98_head_kept (F : Hitches) (h0 : F 0 = none) (h1 : F 1 ≠ none) (X : Ctx) (hit : IterOk X.iter) (w : World) (R : Repo) (q : List Bytes) (h : Bytes)
    (hh : getHead (w.dbs q) = .ok (some h)) (m : PMap Bool) (hm : walkReal w.fs (makeFilter X.glob R.folder) X.depth R.root = .ok m) (hne : m ≠ []) (n : Bytes) :
    ((runFlaky F X R q (.checkoutHead n) w).2.2.dbs q).state = (w.dbs q).state ∧
    ((runFlaky F X R q (.checkoutHead n) w).1 = .success → ∃ r, (runFlaky F X R q (.checkoutHead n) w).2.1 = [.text sNotClean, .result (simplify r)]) := by
  obtain ⟨-, m', hm', g⟩ := tame_restHead (F := F) (b := true) X R n none (startOf w q) 2
  have e : Flaky.body F X R (.checkoutHead n) (startOf w q, 0) = flakyHead F X R n none (startOf w q, 2) := by
    change Flaky.cmdCheckoutHead F X R n (startOf w q, 0) = _
    rw [flakyHead_two, two_lost h0 h1 (headName_eq hh)]
  have hr := (restHead_none (n := n) (s := startOf w q) hit hm).2 hne
  rcases g with g | ⟨_, r, t, g, hr', _⟩
  · rw [runFlaky_eq, e, g]
    rcases hx : restHead X R n none (startOf w q) with ⟨r, t⟩
    cases r with
    | ok u =>
      obtain ⟨a, r, b⟩ := hr u t hx
      refine ⟨?_, fun _ => ⟨r, b⟩⟩
      simp only [World.setDb, if_true, Conn.finish, Conn.commit]
      split
      · rfl
      · exact a
    | err e => exact ⟨by simp only [World.setDb, if_true]; rfl, by simp [exitOf, Cache.finish]⟩
    | panic => exact ⟨by simp only [World.setDb, if_true]; rfl, by simp [exitOf, Cache.finish]⟩
    | fuel => exact ⟨by simp only [World.setDb, if_true]; rfl, by simp [exitOf, Cache.finish]⟩
  · obtain ⟨g1, -, -⟩ := runFlaky_failed (e.trans g) hr' (should := (.success, t.out, w)) (List.prefix_refl _)
    refine ⟨(g1.dbs q).2.1, fun hs => ?_⟩
    rcases g1.exit with h | h <;> rw [hs] at h <;> cases h

end Snap.Props
