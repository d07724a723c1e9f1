import Verif.Props.LinkMain
import Verif.Props.Flaky
import Verif.Props.Concurrent
import Verif.Props.Whole
/-! C104: whatever goes wrong, in whatever order, the databases stay sound and nothing in them is lost. -/
namespace Snap.Props
open Snap
set_option linter.unusedSectionVars false
variable [Serde] [LawfulSerde]

namespace Spec

/-- What may happen to the databases at one time. -/
inductive Ordeal (H : Bytes → Key) : (List Bytes → Db) → (List Bytes → Db) → Prop where
  /-- A process, of which any part of the start or the end may fail (also the beginning of its transaction), and any write. The files are as they were left by whoever changed them. -/
  | process (dbs : List Bytes → Db) (st : Starts) (X : Ctx) (hX : X.E.H = H) (cmd : Command) (fs : Fs) (hs : fs.Sane) (cache : Cache) : Ordeal H dbs (mainStart st X cmd ⟨fs, dbs, cache⟩).2.2.dbs
  /-- A process in a tree of files with symbolic links. -/
  | linked (dbs : List Bytes → Db) (X : Ctx) (hX : X.E.H = H) (cmd : Command) (disk : Disk) (hs : disk.toLinkFs.Sane) (cache : Cache) : Ordeal H dbs (mainLinked X cmd ⟨disk, dbs, cache⟩).2.2.dbs
  /-- `insert` or `commit` of files that change meanwhile. -/
  | stored (dbs : List Bytes → Db) (X : Ctx) (hX : X.E.H = H) (A : Answers) (hA : Proper A) (R : Repo) (q : List Bytes) (cmd : Command) (path : Path) (hc : cmd.stores R = some path) (fs after : Fs)
      (cache : Cache) : Ordeal H dbs (runLive X A R q cmd after ⟨fs, dbs, cache⟩).2.2.dbs
  /-- `compare`, `status` or `checkout-head` with files that change meanwhile. -/
  | compared (dbs : List Bytes → Db) (X : Ctx) (hX : X.E.H = H) (A : Sights) (R : Repo) (q : List Bytes) (cmd : Command) (hc : cmd.compares = true) (fs after : Fs) (cache : Cache) :
      Ordeal H dbs (runRacing X A R q cmd after ⟨fs, dbs, cache⟩).2.2.dbs
  /-- A command some of whose queries fail. (The record of what was hashed, which is no part of the database, may be any that is large enough.) -/
  | flaky (dbs dbs' : List Bytes → Db) (F : Hitches) (X : Ctx) (hX : X.E.H = H) (R : Repo) (q : List Bytes) (cmd : Command) (hi : cmd ≠ .init) (fs : Fs) (hs : fs.Sane) (cache : Cache)
      (ht : ∀ q', SameTables (dbs' q') ((runFlaky F X R q cmd ⟨fs, dbs, cache⟩).2.2.dbs q'))
      (hh : ∀ q' x, x ∈ (dbs q').hashed ∨ x ∈ ((runFlaky F X R q cmd ⟨fs, dbs, cache⟩).2.2.dbs q').hashed → x ∈ (dbs' q').hashed) : Ordeal H dbs dbs'
  /-- Any number of processes working on one database at the same time. -/
  | together (dbs dbs' : List Bytes → Db) (q : List Bytes) (P : Nat → Proc) (T : Nat → Task) (R : Nat → Repo) (hT : ∀ p, (T p).Is H (R p) q (P p)) (hs : ∀ p, (T p).fs.Sane) (s : Sched)
      (h : Sched.Run H P { durable := dbs q } s) (hq : dbs' q = s.durable) (ho : ∀ q', q' ≠ q → dbs' q' = dbs q') : Ordeal H dbs dbs'
  /-- Any of these ended by force; which writes of the database fail from now on may change, too. -/
  | killed {dbs dbs' : List Bytes → Db} (h : Ordeal H dbs dbs') (left : List Bytes → Db) (hl : ∀ q, SameDb (left q) (dbs q) ∨ SameDb (left q) (dbs' q)) : Ordeal H dbs left

/-- Any number of these, one after the other. -/
inductive Ordeals (H : Bytes → Key) : (List Bytes → Db) → (List Bytes → Db) → Prop where
  | refl (dbs : List Bytes → Db) : Ordeals H dbs dbs
  | tail {a b c : List Bytes → Db} (h : Ordeals H a b) (s : Ordeal H b c) : Ordeals H a c

/-- Databases that have been through any number of these since they were empty. -/
def Endured (H : Bytes → Key) (dbs : List Bytes → Db) : Prop := ∃ dbs₀, (∀ q, (dbs₀ q).data = [] ∧ (dbs₀ q).state = [] ∧ (dbs₀ q).reflog = []) ∧ Ordeals H dbs₀ dbs

end Spec

/-- What the bodies of commands keep. -/
structure Enduring (H : Bytes → Key) (I : Db → Prop) : Prop where
  same : ∀ a b, SameDb a b → I b → I a
  body : ∀ X : Ctx, X.E.H = H → ∀ R (cmd : Command) s, s.fs.Sane → I s.db → I (cmd.inRepo X R s).2.db
  head : ∀ n db, I db → I (putHead n db).2

variable {H : Bytes → Key} {I : Db → Prop}

theorem endure_ended (hI : Enduring H I) {db : Db} {r : Res Unit × Sys} (hh : ∀ x ∈ db.hashed, x ∈ r.2.db.hashed) (hr : r.1 = .ok () → I r.2.db) (h : I db) : I (ended db r) := by
  rcases finish_db hh r.1 with g | ⟨g1, g2⟩
  · exact hI.same _ _ g h
  · exact hI.same _ _ g2 (hr g1)

theorem endure_liveOk (hI : Enduring H I) {X : Ctx} (hX : X.E.H = H) {A : Answers} (hA : Spec.Proper A) {R : Repo} {cmd : Command} {path : Path} (hc : cmd.stores R = some path) {s s' : Sys} {u : Unit}
    (hr : cmd.live X A R s = (.ok u, s')) (h : I s.db) : I s'.db := by
  obtain ⟨k, db, db', t, hp⟩ := live_seen hc hr
  obtain ⟨L, l1, l2, _⟩ := live_frozen hA hp
  obtain ⟨z, hz⟩ := spot_of (a := []) (b := [97]) (by decide +kernel)
  have hb := body_frozen hA hc l1 l2 hz hr
  have := hI.body (frozenCtx X [] [97] z L) hX (frozenRepo [] [97]) (cmd.aim (joins sSlash [z])) { s with fs := frozenFs [] [97] z L } (frozen_wf hz l2).sane h
  rw [hb] at this
  exact this

theorem endure_live (hI : Enduring H I) {X : Ctx} (hX : X.E.H = H) {A : Answers} (hA : Spec.Proper A) {R : Repo} {cmd : Command} {path : Path} (hc : cmd.stores R = some path) {s : Sys} (h : I s.db) :
    I (ended s.db (cmd.live X A R s)) :=
  endure_ended hI (live_hashed X A R cmd s) (fun hr => endure_liveOk hI hX hA hc (s' := (cmd.live X A R s).2) (Prod.ext hr rfl) h) h

theorem endure_read (hI : Enduring H I) {X : Ctx} (hX : X.E.H = H) {evs : List ReadEv} {len : Nat} {db d : Db} {k : Key} (hp : putRead X.E evs len db = (.ok k, d)) (h : I db) : I d := by
  have hl : putLive X.E (oneFile evs len) 1 [] (db, 0) = (.ok k, (d, 2)) := by
    simp only [putLive, SM.bind_apply, ask_apply, oneFile, fst_apply]
    rw [hp]
  have hst : storeLive { X with depth := 1 } (oneFile evs len) [] db = (.ok k, d) := by
    unfold storeLive
    simp only [hl]
  have hon : onDb (storeLive { X with depth := 1 } (oneFile evs len) []) { db := db } = (.ok k, { db := d }) := by simp only [onDb, SM.on, hst]
  have hlive : (Command.insert []).live { X with depth := 1 } (oneFile evs len) ⟨[], []⟩ { db := db } = (.ok (), { db := d, out := [.key k] }) := by
    show (onDb (storeLive { X with depth := 1 } (oneFile evs len) []) >>= fun h => emit (.key h)) { db := db } = _
    rw [bind_of hon]
    rfl
  exact endure_liveOk hI (X := { X with depth := 1 }) hX (fun t p l h => by simp [oneFile] at h) (R := ⟨[], []⟩) (cmd := .insert []) rfl hlive h

theorem endure_visit (hI : Enduring H I) {X : Ctx} (hX : X.E.H = H) (A : Sights) (path : Path) (to : Option Key) :
    HoldOk (fun s : (Db × Cache) × Nat => I s.1.1) (compareLive X.E A X.iter X.depth path to) :=
  compareLive_holdOk (I := fun s => I s.1) X.E A (fun p s k s' hs hI' => by
      obtain ⟨⟨db, ca⟩, t⟩ := s
      obtain ⟨⟨db', ca'⟩, t'⟩ := s'
      obtain ⟨len, ck, evs, _, _, _, h3⟩ := hashLive_ok hs
      rcases h3 with ⟨_, rfl, _⟩ | ⟨_, h3, _⟩
      · exact hI'
      · exact endure_read hI hX h3 hI') X.iter X.depth path to

theorem endure_racing (hI : Enduring H I) {X : Ctx} (hX : X.E.H = H) {A : Sights} {R : Repo} {cmd : Command} (hc : cmd.compares = true) {s : Sys} (h : I s.db) :
    I (ended s.db (cmd.racing X A R s)) :=
  endure_ended hI (racing_hashed X A R cmd hc s) (fun hr =>
    racing_holdOk (I := fun s => I s.1) X A R cmd hc (endure_visit hI hX A) (fun n db db' ca hp h => by have := hI.head n db h; rwa [hp] at this) s () (cmd.racing X A R s).2 (Prod.ext hr rfl) h) h

theorem endure_plain (hI : Enduring H I) {X : Ctx} (hX : X.E.H = H) {R : Repo} {cmd : Command} {s : Sys} (hs : s.fs.Sane) (h : I s.db) : I (ended s.db (cmd.inRepo X R s)) :=
  endure_ended hI (command_hashed X R cmd s) (fun _ => hI.body X hX R cmd s hs h) h

theorem empty_sane : ({} : Fs).Sane := (wf_of_list (by decide) (by decide) (by decide) (by decide)).sane

theorem endure_linked (hI : Enduring H I) {X : Ctx} (hX : X.E.H = H) {R : Repo} {cmd : Command} (hi : cmd ≠ .init) {d : Disk} (hs : d.toLinkFs.Sane) {db : Db} {ca : Cache} (h : I db) :
    I (ended db ((cmd.linked X R ({ db := db, cache := ca }, d)).1, (cmd.linked X R ({ db := db, cache := ca }, d)).2.1)) := by
  have hkeep : ∀ r : Res Unit × (Sys × Disk), r.2.1.db = db → I (ended db (r.1, r.2.1)) := fun r hr => endure_ended hI (r := (r.1, r.2.1)) (by rw [hr]; exact fun x hx => hx) (fun _ => hr ▸ h) h
  cases cmd with
  | init => exact absurd rfl hi
  | insert path => exact endure_live hI hX (lproper hs X.E X.glob R.folder) (R := R) (cmd := .insert path) rfl (s := { db := db, cache := ca }) h
  | commit path m r => exact endure_live hI hX (lproper hs X.E X.glob R.folder) (cmd := .commit path m r) rfl (s := { db := db, cache := ca }) h
  | compare path key stat => exact endure_racing hI hX (cmd := .compare path key stat) rfl (s := { db := db, cache := ca }) h
  | status => exact endure_racing hI hX (cmd := .status) rfl (s := { db := db, cache := ca }) h
  | checkoutHead n => exact endure_racing hI hX (cmd := .checkoutHead n) rfl (s := { db := db, cache := ca }) h
  | fetch key dest => exact hkeep _ (fetchLinked_db X key dest _)
  | checkout => exact hkeep _ (checkoutLinked_db X R _)
  | walkFsTree path => exact hkeep _ (walkFsLinked_db X path _)
  | _ => exact endure_plain hI hX (s := { db := db, cache := ca }) empty_sane h

theorem endure_initLinked (hI : Enduring H I) {X : Ctx} {w : LinkWorld} (q : List Bytes) (h : I (w.dbs q)) : I ((runInitLinked X w).2.dbs q) := by
  unfold runInitLinked
  rcases Disk.createDirAll X.dbPath w.disk with ⟨r, d⟩
  cases r with
  | ok u =>
    simp only
    cases openLinked d.toLinkFs X.dbPath with
    | ok q' =>
      simp only [LinkWorld.setDb]
      split
      · rename_i e; subst e; exact hI.head _ _ h
      · exact h
    | _ => exact h
  | _ => exact h

theorem endure_linkedMain (hI : Enduring H I) {X : Ctx} (hX : X.E.H = H) {cmd : Command} {w : LinkWorld} (hs : w.disk.toLinkFs.Sane) (q : List Bytes) (h : I (w.dbs q)) :
    I ((mainLinked X cmd w).2.2.dbs q) := by
  have hin : ∀ R q', cmd ≠ .init → I ((runInLinked X R q' cmd w).2.2.dbs q) := by
    intro R q' hi
    have e : (runInLinked X R q' cmd w).2.2.dbs q = if q = q' then ended (w.dbs q')
      ((cmd.linked X R ({ db := w.dbs q', cache := w.cache }, w.disk)).1, (cmd.linked X R ({ db := w.dbs q', cache := w.cache }, w.disk)).2.1) else w.dbs q := rfl
    rw [e]
    split
    · rename_i e; subst e; exact endure_linked hI hX hi hs h
    · exact h
  unfold mainLinked
  cases findLinked w.disk.toLinkFs X.dbPath with
  | ok found =>
    have key : ∀ repo : Option (Repo × List Bytes), I ((match cmd with
      | .init =>
        let r := runInitLinked X w
        let ca := Cache.finish r.1 w.cache w.cache
        (exitOf r.1 ca.1, ([] : List Out), { r.2 with cache := ca.2 })
      | _ => match repo with
        | some (R, q) => runInLinked X R q cmd w
        | none => runOutLinked X cmd w).2.2.dbs q) := by
      intro repo
      by_cases hc : cmd = .init
      · subst hc
        exact endure_initLinked hI q h
      · cases repo with
        | none => cases cmd <;> first | exact h | exact absurd rfl hc
        | some r =>
          have := hin r.1 r.2 hc
          cases cmd <;> first | exact this | exact absurd rfl hc
    cases found with
    | none => exact key none
    | some x =>
      simp only
      cases Path.parent x with
      | none => exact h
      | some root =>
        simp only
        cases openLinked w.disk.toLinkFs x with
        | ok q' => exact key (some (⟨x, root⟩, q'))
        | _ => exact h
  | _ => exact h

theorem endure_main (hI : Enduring H I) {X : Ctx} (hX : X.E.H = H) (cmd : Command) {w : World} (hs : w.fs.Sane) (q : List Bytes) (h : I (w.dbs q)) : I ((mainRun X cmd w).2.2.dbs q) := by
  by_cases hi : cmd = .init
  · subst hi
    rcases init_main X w with ⟨e, _⟩ | ⟨e, _, _⟩
    · rw [e]; exact h
    · rcases runInit_cases X w with ⟨e', _⟩ | ⟨q', _, e', _⟩
      · rw [e, e']; exact h
      · rw [e, e']
        by_cases hq : q = q'
        · subst hq
          simp only [World.setDb, if_true]
          exact hI.head _ _ h
        · simp [World.setDb, hq]; exact h
  · rcases mainRun_cases X cmd hi w with ⟨R, q', _, e⟩ | e
    · rw [e]
      by_cases hq : q = q'
      · subst hq
        have : (runIn X R q cmd w).2.2.dbs q = ended (w.dbs q) (cmd.inRepo X R (startOf w q)) := by
          rw [runIn_steps]
          simp only [World.setDb, if_true]
          rfl
        rw [this]
        exact endure_plain hI hX (s := startOf w q) hs h
      · rw [runIn_dbs X R q' cmd w q hq]; exact h
    · rw [e]; exact h

theorem endure_start (hI : Enduring H I) {X : Ctx} (hX : X.E.H = H) (st : Starts) (cmd : Command) {w : World} (hs : w.fs.Sane) (q : List Bytes) (h : I (w.dbs q)) :
    I ((mainStart st X cmd w).2.2.dbs q) := by
  rcases mainStart_dbs st X cmd w q with e | e | ⟨R, _, e⟩
  · rw [e]; exact h
  · rw [e]; exact endure_main hI hX cmd hs q h
  · rw [e]; exact hI.body X hX R cmd (startOf w q) hs h

/-- `checkout-head` that has taken HEAD's ref for one without commits. -/
theorem endure_restHead (hI : Enduring H I) {X : Ctx} (hX : X.E.H = H) {R : Repo} {n : Bytes} {s s' : Sys} {u : Unit} (hr : restHead X R n none s = (.ok u, s')) (h : I s.db) : I s'.db := by
  unfold restHead at hr
  obtain ⟨t, s1, h1, hr1⟩ := bind_ok hr
  have e1 : t = none ∧ s1 = s := by
    rw [readDb_apply] at h1
    simp only [pure, Prod.mk.injEq, Res.ok.injEq] at h1
    exact ⟨h1.1.symm, h1.2.symm⟩
  obtain ⟨e1, e2⟩ := e1
  subst e1
  subst e2
  obtain ⟨r, s2, h2, hr2⟩ := bind_ok hr1
  have i2 : I s2.db := by
    obtain ⟨t', ha⟩ := asks_compare (E := X.E) (fs := s1.fs) X.glob R.folder X.iter X.depth R.root none (s1.db, s1.cache) 0
    unfold compareWork onDbCache SM.on at h2
    rcases hc : compare X.E s1.fs X.iter X.depth (.fileSystem R.root X.glob R.folder) none (s1.db, s1.cache) with ⟨r', d⟩
    simp only [hc, Prod.mk.injEq] at h2
    rw [hc, h2.1] at ha
    have := endure_visit hI hX _ R.root none _ _ _ ha h
    rw [← h2.2]
    exact this
  have he : ∀ (o : Out) (a b : Sys) (v : Unit), emit o a = (.ok v, b) → b.db = a.db := by
    intro o a b v hab
    simp only [emit, SM.modify_apply, Prod.mk.injEq] at hab
    rw [← hab.2]
  split at hr2
  · obtain ⟨_, s3, h3, hr3⟩ := bind_ok hr2
    have e3 : s3.db = (putHead n s2.db).2 := by
      unfold onDb SM.on at h3
      simp only [Prod.mk.injEq] at h3
      rw [← h3.2]
    rw [he _ _ _ _ hr3, e3]
    exact hI.head _ _ i2
  · obtain ⟨_, s3, h3, hr3⟩ := bind_ok hr2
    rw [he _ _ _ _ hr3, he _ _ _ _ h3]
    exact i2

theorem flaky_dbs {F : Hitches} {X : Ctx} {R : Repo} {q : List Bytes} {cmd : Command} {w : World} : (runFlaky F X R q cmd w).2.2.dbs q =
    (Conn.finish (Flaky.body F X R cmd (startOf w q, 0)).1 (Conn.mk (w.dbs q) (some (Flaky.body F X R cmd (startOf w q, 0)).2.1.db))).durable := by
  rw [runFlaky_eq]
  simp [World.setDb]

theorem ended_tables (a b : Db) (r : Res Unit) : SameTables (Conn.finish r (Conn.mk a (some b))).durable a ∨ (r = .ok () ∧ SameDb (Conn.finish r (Conn.mk a (some b))).durable b) := by
  cases r with
  | ok u =>
    simp only [Conn.finish, Conn.commit]
    split
    · exact .inl ⟨rfl, rfl, rfl⟩
    · exact .inr ⟨trivial, ⟨rfl, rfl, rfl⟩, fun x h => h⟩
  | _ => exact .inl ⟨rfl, rfl, rfl⟩

/-- After failing queries the tables are what they were, or the invariant holds of them. -/
theorem endure_flaky (hI : Enduring H I) (F : Hitches) {X : Ctx} (hX : X.E.H = H) (R : Repo) (q : List Bytes) (cmd : Command) (hi : cmd ≠ .init) {w : World} (hs : w.fs.Sane) (h : I (w.dbs q)) :
    SameTables ((runFlaky F X R q cmd w).2.2.dbs q) (w.dbs q) ∨ I ((runFlaky F X R q cmd w).2.2.dbs q) := by
  have hrun : I ((runIn X R q cmd w).2.2.dbs q) := by
    rw [runIn_steps]
    simp only [World.setDb, if_true]
    exact endure_plain hI hX (s := startOf w q) hs h
  by_cases hc : Spec.Careless cmd
  · by_cases h1 : F 1 = none
    · rcases (runFlaky_tamed (careless_tamed h1 X R cmd hc (startOf w q))).1 with e | ⟨_, e⟩
      · rw [e]; exact .inr hrun
      · exact .inl (e.dbs q)
    · by_cases h0 : F 0 = none
      · cases hn : headName (w.dbs q) with
        | ok n =>
          cases cmd with
          | status =>
            have e : Flaky.body F X R .status (startOf w q, 0) = (.ok (), { startOf w q with out := [.headAt n none] }, 2) := by
              change Flaky.cmdStatus F X R (startOf w q, 0) = _
              rw [flakyStatus_two, two_lost h0 h1 (s := startOf w q) hn]
              rfl
            rw [flaky_dbs, e]
            rcases ended_tables (w.dbs q) (w.dbs q) (.ok ()) with g | ⟨_, g⟩
            · exact .inl g
            · exact .inl g.1
          | checkoutHead m =>
            have e : Flaky.body F X R (.checkoutHead m) (startOf w q, 0) = flakyHead F X R m none (startOf w q, 2) := by
              change Flaky.cmdCheckoutHead F X R m (startOf w q, 0) = _
              rw [flakyHead_two, two_lost h0 h1 (s := startOf w q) hn]
            rw [flaky_dbs, e]
            obtain ⟨-, k, -, g | ⟨-, r, t, g, hr, -⟩⟩ := tame_restHead (F := F) (b := true) X R m none (startOf w q) 2
            · rw [g]
              rcases ended_tables (w.dbs q) (restHead X R m none (startOf w q)).2.db (restHead X R m none (startOf w q)).1 with g' | ⟨g1, g2⟩
              · exact .inl g'
              · refine .inr (hI.same _ _ g2 ?_)
                exact endure_restHead hI hX (s := startOf w q) (s' := (restHead X R m none (startOf w q)).2) (u := ()) (Prod.ext g1 rfl) h
            · rw [g]
              rcases ended_tables (w.dbs q) t.db r with g' | ⟨g1, _⟩
              · exact .inl g'
              · rcases hr with rfl | rfl <;> cases g1
          | _ => exact absurd hc (by simp [Spec.Careless])
        | _ =>
          have e : ∃ rest : Bytes → Option Key → Flaky.CQ Unit, Flaky.body F X R cmd = twoFlaky F rest := by
            cases cmd with
            | status => exact ⟨_, flakyStatus_two F X R⟩
            | checkoutHead m => exact ⟨_, flakyHead_two F X R m⟩
            | _ => exact absurd hc (by simp [Spec.Careless])
          obtain ⟨rest, e⟩ := e
          rw [flaky_dbs, e]
          have e2 : Flaky.asking (fun db => Flaky.headName F db) (startOf w q, 0) = (headName (w.dbs q), startOf w q, 1) := flaky_headName_apply h0 (w.dbs q) (startOf w q)
          rw [hn] at e2
          unfold twoFlaky
          rw [SM.bind_apply, e2]
          exact .inl ⟨rfl, rfl, rfl⟩
      · refine .inl ((C98_dead F h0 X w R q cmd ?_).1.dbs q)
        cases cmd <;> simp_all [Spec.Careless, Spec.Blind]
  · rcases (runFlaky_tamed (b := false) (Flaky.tame_body X R cmd (by rintro rfl; exact hc trivial) (by rintro r rfl; exact hc trivial) (fun h => by cases h) (startOf w q) 0)).1 with e | ⟨_, e⟩
    · rw [e]; exact .inr hrun
    · exact .inl (e.dbs q)

theorem endure_tasks (hI : Enduring H I) {P : Nat → Proc} {T : Nat → Task} {R : Nat → Repo} {q : List Bytes} (hT : ∀ p, (T p).Is H (R p) q (P p)) (hs : ∀ p, (T p).fs.Sane) :
    ∀ (order : List Nat) (d : Db), I d → I (tasksAfter T q order d) := by
  intro order
  induction order with
  | nil => exact fun d h => h
  | cons p order ih =>
    intro d h
    refine ih _ ?_
    exact endure_main hI (hT p).hash (T p).cmd (w := (T p).world d) (hs p) q (hI.same _ _ (SameDb.faults d _) h)

/-- What the bodies of commands keep survives everything. -/
theorem endure_ordeal (hI : Enduring H I) {dbs dbs' : List Bytes → Db} (h : Spec.Ordeal H dbs dbs') (q : List Bytes) (hi : I (dbs q)) : I (dbs' q) := by
  induction h with
  | process st X hX cmd fs hs cache => exact endure_start hI hX st cmd (w := ⟨fs, dbs, cache⟩) hs q hi
  | linked X hX cmd disk hs cache => exact endure_linkedMain hI hX (w := ⟨disk, dbs, cache⟩) hs q hi
  | stored X hX A hA R q' cmd path hc fs after cache =>
    have e : (runLive X A R q' cmd after ⟨fs, dbs, cache⟩).2.2.dbs q = if q = q' then ended (dbs q') (cmd.live X A R (startOf ⟨fs, dbs, cache⟩ q')) else dbs q := rfl
    rw [e]
    split
    · rename_i e; subst e; exact endure_live hI hX hA hc (s := startOf ⟨fs, dbs, cache⟩ q) hi
    · exact hi
  | compared X hX A R q' cmd hc fs after cache =>
    have e : (runRacing X A R q' cmd after ⟨fs, dbs, cache⟩).2.2.dbs q = if q = q' then ended (dbs q') (cmd.racing X A R (startOf ⟨fs, dbs, cache⟩ q')) else dbs q := rfl
    rw [e]
    split
    · rename_i e; subst e; exact endure_racing hI hX hc (s := startOf ⟨fs, dbs, cache⟩ q) hi
    · exact hi
  | flaky dbs' F X hX R q' cmd hn fs hs cache ht hh =>
    have hkeep : SameTables ((runFlaky F X R q' cmd ⟨fs, dbs, cache⟩).2.2.dbs q) (dbs q) ∨ I ((runFlaky F X R q' cmd ⟨fs, dbs, cache⟩).2.2.dbs q) := by
      by_cases e : q = q'
      · subst e; exact endure_flaky hI F hX R q cmd hn (w := ⟨fs, dbs, cache⟩) hs hi
      · left
        rw [runFlaky_eq]
        simp only [World.setDb, if_neg e]
        exact SameTables.refl _
    rcases hkeep with g | g
    · exact hI.same _ _ ⟨(ht q).trans g, fun x hx => hh q x (.inl hx)⟩ hi
    · exact hI.same _ _ ⟨ht q, fun x hx => hh q x (.inr hx)⟩ g
  | together dbs' q' P T R hT hs s h hq ho =>
    by_cases e : q = q'
    · subst e
      obtain ⟨order, -, -, e, -⟩ := C70_commands hT h
      rw [hq, e]
      exact endure_tasks hI hT hs order _ hi
    · rw [ho q e]; exact hi
  | killed h left hl ih =>
    rcases hl q with g | g
    · exact hI.same _ _ g hi
    · exact hI.same _ _ g ih

theorem endure_ordeals (hI : Enduring H I) {dbs dbs' : List Bytes → Db} (h : Spec.Ordeals H dbs dbs') (q : List Bytes) (hi : I (dbs q)) : I (dbs' q) := by
  induction h with
  | refl => exact hi
  | tail _ s ih => exact endure_ordeal hI s q ih

/-! ### What they keep -/

theorem enduring_calls (hs : ∀ a b, SameDb a b → I b → I a) (hc : ∀ (cs : List Call) db, (∀ c ∈ cs, ∃ cmd : Command, cmd.calls c) → I db → I (runCalls H cs db)) : Enduring H I where
  same := hs
  body := by
    rintro X rfl R cmd s _ hi
    obtain ⟨cs, g1, g2, _⟩ := traced_command X R cmd s trivial trivial
    rw [g2]
    exact hc cs _ (fun c hc => ⟨cmd, .inl (g1 c hc)⟩) hi
  head := by
    intro n db hi
    exact hc [.putHead n] db (by simp only [List.mem_singleton]; rintro c rfl; exact ⟨.setHead n, .inl rfl⟩) hi

theorem enduring_inv : Enduring H (Inv H) := enduring_calls (fun _ _ h => h.inv) fun _ _ h => calls_inv h

theorem enduring_data (d : Db) : Enduring H fun db => d.data <+: db.data :=
  enduring_calls (fun _ _ h hb => by rw [h.1.1]; exact hb) fun cs db _ h => h.trans (runCalls_data_prefix H cs db)

theorem enduring_reflog (d : Db) : Enduring H fun db => ∃ l : List (Bytes × Option Bytes × Key), db.reflog = d.reflog ++ l.map fun e => ⟨e.1, e.2.1, e.2.2.asDbKey⟩ :=
  enduring_calls (fun _ _ h ⟨l, hl⟩ => ⟨l, by rw [h.1.2.2]; exact hl⟩) fun cs db _ ⟨l, hl⟩ => by
    obtain ⟨l', hl'⟩ := calls_reflog_prefix H cs db
    exact ⟨l ++ l', by rw [hl', hl]; simp⟩

theorem enduring_closed : Enduring H Closed where
  same := fun _ _ h => h.closed
  body := by
    rintro X rfl R cmd s _ hi
    exact keeps_end (keeps_command X R cmd) s hi
  head := fun n db hi => keeps_end (steps_putHead (H := H) n) db hi

theorem enduring_whole : Enduring H (Whole H) where
  same := fun a b hs hb => Whole.same hs.1.1 hs.2 hb
  body := by
    rintro X rfl R cmd s hs hi
    exact kept_command X R cmd s (fun p c => steps_weaken (gen_putFile whole_rules p c) (fun _ h => h) (fun _ h => h) (fun _ _ _ => trivial))
      (fun f n p => steps_weaken (gen_putFsItem whole_rules (namesOk_sane hs) f n p) (fun _ h => h) (fun _ h => h) (fun _ _ _ => trivial)) whole_commitTree whole_reflogPush whole_putHead hi
  head := fun n db hi => keeps_end (whole_putHead n) db hi

/-! ### C104 -/

theorem endured (hI : Enduring H I) (h0 : ∀ db : Db, db.data = [] → db.state = [] → db.reflog = [] → I db) {dbs : List Bytes → Db} (h : Spec.Endured H dbs) (q : List Bytes) : I (dbs q) := by
  obtain ⟨dbs₀, h1, h2⟩ := h
  exact endure_ordeals hI h2 q (h0 _ (h1 q).1 (h1 q).2.1 (h1 q).2.2)

theorem endured_inv {dbs : List Bytes → Db} (h : Spec.Endured H dbs) (q : List Bytes) : Inv H (dbs q) :=
  endured enduring_inv (fun db hd _ _ => ⟨by simp [hd], by simp [hd]⟩) h q
theorem endured_closed {dbs : List Bytes → Db} (h : Spec.Endured H dbs) (q : List Bytes) : Closed (dbs q) :=
  endured enduring_closed (fun db hd _ hr => ⟨by simp [hd], by simp [hr]⟩) h q
theorem endured_whole {dbs : List Bytes → Db} (h : Spec.Endured H dbs) (q : List Bytes) : Whole H (dbs q) :=
  endured enduring_whole (fun db hd _ _ r hr => by simp [hd] at hr) h q

/-- **C104**: whatever databases have been through since they were empty — processes whose start, transaction, writes or end fail, or that are killed; failing queries;
files that change while they are read; symbolic links; other processes at work on the same database — no reference in them dangles, every object is stored under the
hash of its bytes, and objects can be numbered so that each has a greater number than those it refers to. -/
theorem C104_sound {dbs : List Bytes → Db} (h : Spec.Endured H dbs) (q : List Bytes) :
    Spec.NoDangling (dbs q) ∧ (∀ k v, rawGet (dbs q) k = .ok v → (H v).asDbKey = k) ∧
    ∃ num : Key → Nat, ∀ k o, getObj (dbs q) k = .ok o → num k < (dbs q).data.length ∧ ∀ k' ∈ o.keys, num k' < num k :=
  ⟨(endured_closed h q).noDangling, fun _ _ hv => ((endured_inv h q).rows _ (assoc_some_mem (rawGet_ok.mp hv))).1.symm,
    rank (dbs q), fun _ _ ho => rank_lt (endured_closed h q) ho⟩

/-- **C104**: if no two of the byte strings hashed so far have the same hash, every object is of a type that fits where it is referred to, every key of contents can be
read, and every file and directory can be fetched: each time the same files, also later. -/
theorem C104_readable {dbs : List Bytes → Db} (h : Spec.Endured H dbs) (q : List Bytes) (hc : NoColl H (dbs q)) (k : Key) (o : Object) (ho : getObj (dbs q) k = .ok o) :
    WellTyped (dbs q) o ∧
    (IsData o.objtype → ∃ c, ∀ dbs', Spec.Ordeals H dbs dbs' → ReadsBack (dbs' q) k c) ∧
    (IsItem o.objtype → ∃ files : List (List Bytes × Bytes), ∀ w2 : World, Spec.Ordeals H dbs w2.dbs → w2.fs.Wf → w2.fs.faults = [] → w2.cache.faults = [] →
      ∀ (Y : Ctx) (S : Repo) (key : Keyish) (to : Path), Opens Y w2 S q → canonicalize (w2.dbs q) key = .ok k → (dbs q).data.length + 6 ≤ Y.depth → 0 ∉ to ∧ sDotDot ∉ to.comps →
        (o.objtype = .fsItemDir ∨ to.lastIsName = true) → (w2.fs.at (loc w2.fs.cwd to) = none ∧ ∀ p, p <+: loc w2.fs.cwd to → w2.fs.at p = none ∨ w2.fs.at p = some .dir) →
        (mainRun Y (.fetch key to) w2).1 = .success ∧ ∀ rel c, (mainRun Y (.fetch key to) w2).2.2.fs.content (loc w2.fs.cwd to ++ rel) = some c ↔ (rel, c) ∈ files) := by
  have hi := endured_inv h q
  have hcl := endured_closed h q
  have hwh := endured_whole h q
  have hdata : ∀ dbs', Spec.Ordeals H dbs dbs' → (dbs q).data <+: (dbs' q).data := fun dbs' hs => endure_ordeals (enduring_data (H := H) (dbs q)) hs q (List.prefix_refl _)
  refine ⟨types_of hi hcl hwh hc k o ho, fun ht => ?_, fun ht => ?_⟩
  · obtain ⟨i, h3, c, h4⟩ := (trees_of hi hcl hwh hc ho).1 ht
    exact ⟨c, fun dbs' hs => den_readsBack h3 (h4.mono (hdata dbs' hs))⟩
  · obtain ⟨files, hall⟩ := fetch_of hi hcl hwh q hc k o ho ht
    exact ⟨files, fun w2 hs => hall w2 (hdata _ hs)⟩

/-- **C104**: nothing that is in a database is ever lost: every row stays as it is, and the log of every ref keeps its entries, to which only newer ones are added. -/
theorem C104_kept {dbs dbs' : List Bytes → Db} (h : Spec.Ordeals H dbs dbs') (q : List Bytes) :
    (∀ k v, rawGet (dbs q) k = .ok v → rawGet (dbs' q) k = .ok v) ∧
    ∀ n r ks, reflogWalk (dbs q) n r = .ok ks → ∃ new, reflogWalk (dbs' q) n r = .ok (new ++ ks) := by
  refine ⟨fun k v hv => rawGet_mono (endure_ordeals (enduring_data (H := H) (dbs q)) h q (List.prefix_refl _)) hv, fun n r ks hk => ?_⟩
  obtain ⟨l, hl⟩ := endure_ordeals (enduring_reflog (H := H) (dbs q)) h q ⟨[], by simp⟩
  exact ⟨_, reflogWalk_append hl hk⟩

/-- **C104**: what was committed once, `checkout` restores after all that, provided HEAD's ref still has the commit as its newest. -/
theorem C104_checkout (X : Ctx) (path : Option Path) (message : Bytes) (refname : Option Bytes) (w : World) (hw : w.fs.Wf) (R : Repo) (q : List Bytes) (he : Spec.Endured X.E.H w.dbs)
    (h : Committed X (.commit path message refname) w R q) (hcoll : NoColl X.E.H ((mainRun X (.commit path message refname) w).2.2.dbs q))
    (hread : ∀ rel c, VisFile w.fs (makeFilter X.glob R.folder) (path.getD R.root) rel c → FullyRead X.E (joins (path.getD R.root) rel) c) :
    ∃ n ck, refOrHead (w.dbs q) refname = .ok n ∧ reflogGet ((mainRun X (.commit path message refname) w).2.2.dbs q) n none = .ok ck ∧
    ∀ w2 : World, Spec.Ordeals X.E.H (mainRun X (.commit path message refname) w).2.2.dbs w2.dbs → w2.fs.Wf →
    ∀ (Y : Ctx) (S : Repo), Opens Y w2 S q → X.depth + 6 ≤ Y.depth → (∀ l, (Y.iterNames l).Perm l) → 0 ∉ S.root ∧ sDotDot ∉ S.root.comps →
      getHeadKey (w2.dbs q) = .ok ck → (mainRun Y .checkout w2).1 = .success →
      let src := loc w.fs.cwd (path.getD R.root)
      let dst := loc w2.fs.cwd S.root
      let fs' := (mainRun Y .checkout w2).2.2.fs
      (∀ rel c, VisFile w.fs (makeFilter X.glob R.folder) (path.getD R.root) rel c → fs'.content (dst ++ rel) = some c) ∧
      (∀ rel, Visible w.fs (makeFilter X.glob R.folder) (path.getD R.root) rel → w.fs.at (src ++ rel) = some .dir → fs'.at (dst ++ rel) = some .dir ∧
        ∀ m e, fs'.at (dst ++ rel ++ [m]) = some e → (e = .dir ∨ ∃ c md, e = .file c md) → ¬ loc w2.fs.cwd S.folder <+: dst ++ rel ++ [m] →
          Y.glob (stripDot (joins S.root (rel ++ [m]))) = false → Visible w.fs (makeFilter X.glob R.folder) (path.getD R.root) (rel ++ [m]) ∧ w.fs.at (src ++ rel ++ [m]) ≠ none) ∧
      ∀ p, ¬ dst <+: p → fs'.at p = w2.fs.at p := by
  obtain ⟨n, ck, h1, h2, h3⟩ := restored_checkout X path message refname w hw R q (endured_inv he q) h hcoll hread
  exact ⟨n, ck, h1, h2, fun w2 hs => h3 w2 (endure_ordeals (enduring_data _) hs q (List.prefix_refl _))⟩

/-- **C104**: and `fetch` of its tree restores it whatever has become of the refs. -/
theorem C104_fetch (X : Ctx) (path : Option Path) (message : Bytes) (refname : Option Bytes) (w : World) (hw : w.fs.Wf) (R : Repo) (q : List Bytes) (he : Spec.Endured X.E.H w.dbs)
    (h : Committed X (.commit path message refname) w R q) (hcoll : NoColl X.E.H ((mainRun X (.commit path message refname) w).2.2.dbs q))
    (hread : ∀ rel c, VisFile w.fs (makeFilter X.glob R.folder) (path.getD R.root) rel c → FullyRead X.E (joins (path.getD R.root) rel) c) :
    ∃ n ck c, refOrHead (w.dbs q) refname = .ok n ∧ reflogGet ((mainRun X (.commit path message refname) w).2.2.dbs q) n none = .ok ck ∧
    Commit.fromKey ((mainRun X (.commit path message refname) w).2.2.dbs q) ck = .ok c ∧
    ∀ w2 : World, Spec.Ordeals X.E.H (mainRun X (.commit path message refname) w).2.2.dbs w2.dbs → w2.fs.Wf → w2.fs.faults = [] → w2.cache.faults = [] →
    ∀ (Y : Ctx) (S : Repo) (key : Keyish) (to : Path), Opens Y w2 S q → X.depth + 6 ≤ Y.depth → 0 ∉ to ∧ sDotDot ∉ to.comps →
      (w.fs.metadata (path.getD R.root) = .ok .dir ∨ to.lastIsName = true) →
      (∀ rel c, VisFile w.fs (makeFilter X.glob R.folder) (path.getD R.root) rel c → w2.fs.at (loc w2.fs.cwd to ++ rel) = none ∧
        ∀ p, p <+: loc w2.fs.cwd to ++ rel → w2.fs.at p = none ∨ w2.fs.at p = some .dir) →
      canonicalize (w2.dbs q) key = .ok c.tree →
      (mainRun Y (.fetch key to) w2).1 = .success ∧
      (∀ rel c, VisFile w.fs (makeFilter X.glob R.folder) (path.getD R.root) rel c → (mainRun Y (.fetch key to) w2).2.2.fs.content (loc w2.fs.cwd to ++ rel) = some c) ∧
      ∀ p, (∀ rel c, VisFile w.fs (makeFilter X.glob R.folder) (path.getD R.root) rel c → ¬ p <+: loc w2.fs.cwd to ++ rel) →
        (mainRun Y (.fetch key to) w2).2.2.fs.at p = w2.fs.at p := by
  obtain ⟨n, ck, c, h1, h2, h2', h3⟩ := restored_fetch X path message refname w hw R q (endured_inv he q) h hcoll hread
  exact ⟨n, ck, c, h1, h2, h2', fun w2 hs => h3 w2 (endure_ordeals (enduring_data _) hs q (List.prefix_refl _))⟩

end Snap.Props
