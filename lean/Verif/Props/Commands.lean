import Verif.Props.Cli
import Verif.Props.Commit
import Verif.Props.Diff
/-! What single commands do: C38, C47. -/
namespace Snap.Props
open Snap
set_option linter.unusedSectionVars false
variable [Serde] [LawfulSerde]

theorem readDb_apply {α} (f : Db → Res α) (s : Sys) : readDb f s = (f s.db, s) := rfl
theorem onDb_apply {α} (x : M α) (s : Sys) : onDb x s = ((x s.db).1, { s with db := (x s.db).2 }) := rfl

theorem readDb_ok {α} {f : Db → Res α} {s s' : Sys} {a : α} (h : readDb f s = (.ok a, s')) : f s.db = .ok a ∧ s' = s := by
  rw [readDb_apply] at h
  simp only [Prod.mk.injEq] at h
  exact ⟨h.1, h.2.symm⟩

theorem onDb_ok {α} {x : M α} {s s' : Sys} {a : α} (h : onDb x s = (.ok a, s')) : x s.db = (.ok a, s'.db) ∧ s'.fs = s.fs ∧ s'.cache = s.cache ∧ s'.out = s.out := by
  rw [onDb_apply] at h
  simp only [Prod.mk.injEq] at h
  obtain ⟨h1, rfl⟩ := h
  exact ⟨Prod.ext h1 rfl, rfl, rfl, rfl⟩

theorem cmdCommit_ok {X : Ctx} {R : Repo} {path : Option Path} {message : Bytes} {refname : Option Bytes} {s s' : Sys}
    (h : cmdCommit X R path message refname s = (.ok (), s')) :
    ∃ n ps tree d1 ck d2, refOrHead s.db refname = .ok n ∧ parentsOf s.db n = .ok ps ∧
      putFsItem X.E s.fs (makeFilter X.glob R.folder) X.depth (path.getD R.root) s.db = (.ok tree, d1) ∧
      commitTree X.E.H tree ps { message := message } d1 = (.ok ck, d2) ∧ reflogPush n none ck d2 = (.ok (), s'.db) := by
  unfold cmdCommit at h
  obtain ⟨n, s1, h1, g1⟩ := bind_ok h
  obtain ⟨h1, e1⟩ := readDb_ok h1
  rw [e1] at g1
  obtain ⟨ps, s2, h2, g2⟩ := bind_ok g1
  obtain ⟨h2, e2⟩ := readDb_ok h2
  rw [e2] at g2
  obtain ⟨tree, s3, h3, g3⟩ := bind_ok g2
  obtain ⟨h3, _⟩ := onDb_ok h3
  obtain ⟨ck, s4, h4, g4⟩ := bind_ok g3
  obtain ⟨h4, _⟩ := onDb_ok h4
  obtain ⟨h5, _⟩ := onDb_ok g4
  exact ⟨n, ps, tree, _, ck, _, h1, h2, h3, h4, h5⟩

theorem parentsOf_ok {db : Db} {n : Bytes} {ps : List Key} (h : parentsOf db n = .ok ps) :
    (∃ k, reflogGet db n none = .ok k ∧ ps = [k]) ∨ (reflogGet db n none = .err .notFound ∧ ps = []) := by
  unfold parentsOf at h
  split at h
  · rename_i k hk; simp only [Res.ok.injEq] at h; exact Or.inl ⟨k, hk, h.symm⟩
  · rename_i hk; simp only [Res.ok.injEq] at h; exact Or.inr ⟨hk, h.symm⟩
  all_goals simp at h

theorem reflogPush_ok {n : Bytes} {r : Option Bytes} {k : Key} {d d' : Db} (h : reflogPush n r k d = (.ok (), d')) :
    d'.data = d.data ∧ d'.state = d.state ∧ d'.reflog = d.reflog ++ [⟨n, r, k.asDbKey⟩] ∧ d'.hashed = d.hashed := by
  unfold reflogPush at h
  rcases write_cases (fun db => { db with reflog := db.reflog ++ [⟨n, r, k.asDbKey⟩] }) d with ⟨fs, _, e⟩ | e
  · rw [e] at h; simp at h
  · rw [e] at h
    simp only [Prod.mk.injEq, true_and] at h
    subst h
    exact ⟨rfl, rfl, rfl, rfl⟩

/-- The last push is the newest entry. -/
theorem reflogGet_pushed {d : Db} {l : List RefRow} {n : Bytes} {r : Option Bytes} {k : Key} (h : d.reflog = l ++ [⟨n, r, k.asDbKey⟩]) : reflogGet d n r = .ok k := by
  unfold reflogGet refRows
  rw [h]
  simp [fromDbKey_asDbKey]

/-- Pushes to other refs. -/
theorem reflogWalk_other {a b : Db} {n m : Bytes} {r r' : Option Bytes} {k : Key} (h : b.reflog = a.reflog ++ [⟨n, r, k.asDbKey⟩]) (hn : m ≠ n ∨ r' ≠ r) :
    reflogWalk b m r' = reflogWalk a m r' ∧ reflogGet b m r' = reflogGet a m r' := by
  have : refRows b m r' = refRows a m r' := by
    simp only [refRows, h, List.filter_append]
    rw [List.append_right_eq_self, List.filter_eq_nil_iff]
    intro x hx
    simp only [List.mem_singleton] at hx
    subst hx
    rcases hn with hn | hn
    · have : ¬ n = m := fun e => hn e.symm
      simp [this]
    · have : ¬ r = r' := fun e => hn e.symm
      simp [this]
  constructor
  · unfold reflogWalk; rw [this]
  · unfold reflogGet; rw [this]

/-- A command other than init on an opened repository. -/
theorem mainRun_open {X : Ctx} {cmd : Command} (hc : cmd ≠ .init) {w : World} {R : Repo} {q : List Bytes} (ho : Opens X w R q) : mainRun X cmd w = runIn X R q cmd w := by
  obtain ⟨h1, h2, h3⟩ := ho
  unfold mainRun
  rw [h1]
  simp only
  rw [h2]
  simp only [h3]
  cases cmd <;> first | exact (hc rfl).elim | rfl

/-- The command ended well and its transaction was committed. -/
def Committed (X : Ctx) (cmd : Command) (w : World) (R : Repo) (q : List Bytes) : Prop :=
  Opens X w R q ∧ (cmd.inRepo X R (startOf w q)).1 = .ok () ∧ commitOk (cmd.inRepo X R (startOf w q)).2.db

/-- If the process reports success on a repository, either the transaction was committed or COMMIT failed and the databases are as before. -/
theorem success_cases {X : Ctx} {cmd : Command} (hc : cmd ≠ .init) {w : World} {R : Repo} {q : List Bytes} (ho : Opens X w R q) (h : (mainRun X cmd w).1 = .success) :
    Committed X cmd w R q ∨ ∀ q', SameDb ((mainRun X cmd w).2.2.dbs q') (w.dbs q') := by
  rw [mainRun_open hc ho] at h ⊢
  have he : (runIn X R q cmd w).1 = exitOf (cmd.inRepo X R (startOf w q)).1 (Cache.finish (cmd.inRepo X R (startOf w q)).1 w.cache (cmd.inRepo X R (startOf w q)).2.cache).1 := rfl
  rw [he] at h
  have hok : (cmd.inRepo X R (startOf w q)).1 = .ok () := by
    cases hr : (cmd.inRepo X R (startOf w q)).1 with
    | ok u => rfl
    | err e => rw [hr] at h; simp [exitOf] at h
    | panic => rw [hr] at h; simp [exitOf] at h
    | fuel => rw [hr] at h; simp [exitOf] at h
  by_cases hco : commitOk (cmd.inRepo X R (startOf w q)).2.db
  · exact Or.inl ⟨ho, hok, hco⟩
  · right
    intro q'
    by_cases hq : q' = q
    · subst hq; exact runIn_lost X R q' cmd w (Or.inr hco)
    · rw [runIn_dbs X R q cmd w q' hq]; exact SameDb.refl _

/-! ### C38 -/

/-- **C38**: after a committed `commit`, the newest entry of the ref (the given one or HEAD's) is a commit; its message is the one given; its tree is the snapshot that
`put_fs_item` made of the directory; its parents are the ref's newest entry before (none if there was none). One entry was added to that ref; the other refs and HEAD are
unchanged, and so are the other databases. -/
theorem C38_commit (X : Ctx) (path : Option Path) (message : Bytes) (refname : Option Bytes) (w : World) (R : Repo) (q : List Bytes) (hi : Inv X.E.H (w.dbs q))
    (h : Committed X (.commit path message refname) w R q) (hcoll : NoColl X.E.H ((mainRun X (.commit path message refname) w).2.2.dbs q)) :
    let before := w.dbs q
    let after := (mainRun X (.commit path message refname) w).2.2.dbs q
    ∃ n ck tree ps, refOrHead before refname = .ok n ∧
      reflogGet after n none = .ok ck ∧ Commit.fromKey after ck = .ok ⟨tree, ps, { message := message }⟩ ∧
      ((∃ k, reflogGet before n none = .ok k ∧ ps = [k]) ∨ (reflogGet before n none = .err .notFound ∧ ps = [])) ∧
      (∃ d, putFsItem X.E w.fs (makeFilter X.glob R.folder) X.depth (path.getD R.root) before = (.ok tree, d) ∧ NoColl X.E.H d ∧ d.data <+: after.data) ∧
      (∀ ks, reflogWalk before n none = .ok ks → reflogWalk after n none = .ok (ck :: ks)) ∧
      (∀ m r, m ≠ n ∨ r ≠ none → reflogWalk after m r = reflogWalk before m r) ∧
      after.state = before.state ∧ ∀ q', q' ≠ q → (mainRun X (.commit path message refname) w).2.2.dbs q' = w.dbs q' := by
  intro before after
  obtain ⟨ho, h1, h2⟩ := h
  have hrun := mainRun_open (cmd := .commit path message refname) (by simp) ho
  have hsame := runIn_committed X R q _ w () h1 h2
  rw [← hrun] at hsame
  obtain ⟨n, ps, tree, d1, ck, d2, g1, g2, g3, g4, g5⟩ := cmdCommit_ok (X := X) (R := R) (s := startOf w q) (s' := ((Command.commit path message refname).inRepo X R (startOf w q)).2) (Prod.ext h1 rfl)
  obtain ⟨e1, e2, e3, e4⟩ := reflogPush_ok g5
  have hgrow1 := (isPuts_putFsItem X.E w.fs (makeFilter X.glob R.folder) X.depth (path.getD R.root)).grow before
  have hd1 : Grow X.E.H before d1 := by
    have : putFsItem X.E w.fs (makeFilter X.glob R.folder) X.depth (path.getD R.root) before = (.ok tree, d1) := g3
    rw [this] at hgrow1
    exact hgrow1
  have hgrow2 := (isPuts_commitTree X.E.H tree ps { message := message }).grow d1
  rw [g4] at hgrow2
  have hcd2 : NoColl X.E.H d2 := by
    have := hsame.noColl hcoll
    unfold NoColl at this ⊢
    rw [e4] at this
    exact this
  have hcd1 : NoColl X.E.H d1 := fun x hx y hy => hcd2 x (hgrow2.hashed.subset hx) y (hgrow2.hashed.subset hy)
  obtain ⟨ps', x, p1, _, px, p2⟩ := C22_roundtrip X.E.H tree ps { message := message } d1 d2 ck (hd1.inv hi) g4 hcd2 (by simp [CommitAttrs.Readable])
  obtain rfl := px.eq_nil
  have hps := parentsOf_ok g2
  have hps' : ps' = ps := by
    rcases hps with ⟨k, _, rfl⟩ | ⟨_, rfl⟩
    · exact List.perm_singleton.mp p1
    · exact p1.eq_nil
  have hdata : after.data = d2.data := hsame.1.1.trans e1
  have hlog : after.reflog = before.reflog ++ [⟨n, none, ck.asDbKey⟩] := by
    rw [hsame.1.2.2, e3, hgrow2.reflog, hd1.reflog]
  refine ⟨n, ck, tree, ps, g1, reflogGet_pushed hlog, ?_, hps, ⟨d1, g3, hcd1, ?_⟩, ?_, ?_, ?_, ?_⟩
  · rw [← hps']; exact p2 after (by rw [hdata]; exact List.prefix_refl _)
  · rw [hdata]; exact hgrow2.data
  · intro ks hks
    exact (reflogWalk_append (l := [(n, none, ck)]) hlog hks).trans (by simp)
  · exact fun m r hm => (reflogWalk_other hlog hm).1
  · rw [hsame.1.2.1, e2, hgrow2.state, hd1.state]
  · intro q' hq
    rw [hrun]
    exact runIn_dbs X R q _ w q' hq

/-- The tree of that commit is a snapshot of the directory, so that C27 to C37 and C49 apply to it. -/
theorem C38_snapshot (X : Ctx) (path : Option Path) (message : Bytes) (refname : Option Bytes) (w : World) (hw : w.fs.Wf) (R : Repo) (q : List Bytes) (hi : Inv X.E.H (w.dbs q))
    (hdir : w.fs.metadata (path.getD R.root) = .ok .dir) (h : Committed X (.commit path message refname) w R q)
    (hcoll : NoColl X.E.H ((mainRun X (.commit path message refname) w).2.2.dbs q)) :
    ∃ n ck c, refOrHead (w.dbs q) refname = .ok n ∧ reflogGet ((mainRun X (.commit path message refname) w).2.2.dbs q) n none = .ok ck ∧
      Commit.fromKey ((mainRun X (.commit path message refname) w).2.2.dbs q) ck = .ok c ∧
      Snapshot X.E ((mainRun X (.commit path message refname) w).2.2.dbs q) c.tree w.fs (makeFilter X.glob R.folder) X.depth (path.getD R.root) := by
  obtain ⟨n, ck, tree, ps, g1, g2, g3, _, ⟨d, g4, g5, g6⟩, _⟩ := C38_commit X path message refname w R q hi h hcoll
  exact ⟨n, ck, _, g1, g2, g3, hw, hdir, _, d, hi, g4, g5, g6⟩

/-! ### C47 -/

/-- The tree of the newest commit of HEAD's ref; none if that ref has no entry. -/
def HeadTree (db : Db) (t : Option Key) : Prop :=
  ∃ head, getHead db = .ok (some head) ∧
    ((∃ k c, reflogGet db head none = .ok k ∧ Commit.fromKey db k = .ok c ∧ t = some c.tree) ∨ ((∀ k, reflogGet db head none ≠ .ok k) ∧ t = none))

theorem headName_ok {db : Db} {h : Bytes} (e : headName db = .ok h) : getHead db = .ok (some h) := by
  unfold headName at e
  obtain ⟨o, h1, h2⟩ := Res.bind_eq_ok e
  cases o with
  | none => simp at h2
  | some x => simp only [Res.ok.injEq] at h2; subst h2; exact h1

theorem putHead_ok {n : Bytes} {d d' : Db} (h : putHead n d = (.ok (), d')) : d'.data = d.data ∧ d'.reflog = d.reflog ∧ rawGetState d' sHEAD = .ok (some n) ∧
    ∀ k, k ≠ sHEAD → rawGetState d' k = rawGetState d k := by
  unfold putHead rawPutState at h
  rcases write_cases (fun db => { db with state := insertReplace db.state sHEAD n }) d with ⟨fs, _, e⟩ | e
  · rw [e] at h; simp at h
  · rw [e] at h
    simp only [Prod.mk.injEq, true_and] at h
    subst h
    refine ⟨rfl, rfl, ?_, fun k hk => ?_⟩
    · simp [rawGetState, insertReplace_assoc]
    · have : ¬ sHEAD = k := fun e => hk e.symm
      simp [rawGetState, insertReplace_assoc, this]

theorem cmdCheckoutHead_ok {X : Ctx} {R : Repo} {n : Bytes} {s s' : Sys} (h : cmdCheckoutHead X R n s = (.ok (), s')) :
    ∃ t r, HeadTree s.db t ∧ (Snap.compare X.E s.fs X.iter X.depth (.fileSystem R.root X.glob R.folder) t (s.db, s.cache)).1 = .ok r ∧
      (r.isEmpty = true → rawGetState s'.db sHEAD = .ok (some n)) ∧ (r.isEmpty = false → s'.db.state = s.db.state) := by
  unfold cmdCheckoutHead at h
  obtain ⟨hd, s1, h1, g1⟩ := bind_ok h
  obtain ⟨h1, e1⟩ := readDb_ok h1
  rw [e1] at g1
  obtain ⟨k, s2, h2, g2⟩ := bind_ok g1
  have h2 : (reflogGet s.db hd none).toOption = k ∧ s2 = s := by
    simp only [SM.read, Prod.mk.injEq, Res.ok.injEq] at h2
    exact ⟨h2.1, h2.2.symm⟩
  obtain ⟨h2, e2⟩ := h2
  rw [e2] at g2
  obtain ⟨t, s3, h3, g3⟩ := bind_ok g2
  obtain ⟨h3, e3⟩ := readDb_ok h3
  rw [e3] at g3
  obtain ⟨r, s4, h4, g4⟩ := bind_ok g3
  have hcmp : (Snap.compare X.E s.fs X.iter X.depth (.fileSystem R.root X.glob R.folder) t (s.db, s.cache)).1 = .ok r ∧ s4.db = (Snap.compare X.E s.fs X.iter X.depth (.fileSystem R.root X.glob R.folder) t (s.db, s.cache)).2.1 := by
    unfold compareWork onDbCache SM.on at h4
    simp only [Prod.mk.injEq] at h4
    obtain ⟨a, rfl⟩ := h4
    exact ⟨a, rfl⟩
  have hst : s4.db.state = s.db.state := by
    obtain ⟨cs, c1, c2, _⟩ := traced_compareWork X R R.root t s trivial trivial
    rw [h4] at c2
    show s4.db.state = _
    rw [show s4.db = runCalls X.E.H cs s.db from c2]
    exact calls_state _ _ _ fun c hc => (isPut_keeps (c1 c hc)).1
  refine ⟨t, r, ⟨hd, headName_ok h1, ?_⟩, hcmp.1, ?_, ?_⟩
  · cases hg : reflogGet s.db hd none with
    | ok k' =>
      rw [hg] at h2
      simp only [Res.toOption] at h2
      subst h2
      simp only at h3
      obtain ⟨c, hc1, hc2⟩ := Res.bind_eq_ok h3
      simp only [pure, Res.ok.injEq] at hc2
      exact Or.inl ⟨k', c, rfl, hc1, hc2.symm⟩
    | err e => rw [hg] at h2; simp only [Res.toOption] at h2; subst h2; simp only [pure, Res.ok.injEq] at h3; exact Or.inr ⟨by simp, h3.symm⟩
    | panic => rw [hg] at h2; simp only [Res.toOption] at h2; subst h2; simp only [pure, Res.ok.injEq] at h3; exact Or.inr ⟨by simp, h3.symm⟩
    | fuel => rw [hg] at h2; simp only [Res.toOption] at h2; subst h2; simp only [pure, Res.ok.injEq] at h3; exact Or.inr ⟨by simp, h3.symm⟩
  · intro he
    rw [if_pos he] at g4
    obtain ⟨u, s5, h5, g5⟩ := bind_ok g4
    obtain ⟨h5, _⟩ := onDb_ok h5
    have : s'.db = s5.db := by
      simp only [emit, SM.modify, Prod.mk.injEq] at g5
      rw [← g5.2]
    rw [this]
    exact (putHead_ok h5).2.2.1
  · intro he
    rw [if_neg (by simp [he])] at g4
    obtain ⟨u, s5, h5, g5⟩ := bind_ok g4
    have h6 : s5.db = s4.db := by
      simp only [emit, SM.modify, Prod.mk.injEq] at h5
      rw [← h5.2]
    have : s'.db = s5.db := by
      simp only [emit, SM.modify, Prod.mk.injEq] at g5
      rw [← g5.2]
    rw [this, h6, hst]

/-- **C47**: `checkout-head`, whatever its outcome, keeps all refs, all objects and every state entry but HEAD; and if it ended well (and was committed), HEAD is the given
name if the comparison of the working directory with the tree of the current head returned nothing, and otherwise is what it was. -/
theorem C47_checkout_head (X : Ctx) (n : Bytes) (w : World) (q : List Bytes) :
    ((mainRun X (.checkoutHead n) w).2.2.dbs q).reflog = (w.dbs q).reflog ∧
    (∀ k v, rawGet (w.dbs q) k = .ok v → rawGet ((mainRun X (.checkoutHead n) w).2.2.dbs q) k = .ok v) ∧
    (∀ k, k ≠ sHEAD → rawGetState ((mainRun X (.checkoutHead n) w).2.2.dbs q) k = rawGetState (w.dbs q) k) ∧
    ∀ R, Committed X (.checkoutHead n) w R q → ∃ t r, HeadTree (w.dbs q) t ∧
      (Snap.compare X.E w.fs X.iter X.depth (.fileSystem R.root X.glob R.folder) t (w.dbs q, w.cache)).1 = .ok r ∧
      (r.isEmpty = true → rawGetState ((mainRun X (.checkoutHead n) w).2.2.dbs q) sHEAD = .ok (some n)) ∧
      (r.isEmpty = false → ((mainRun X (.checkoutHead n) w).2.2.dbs q).state = (w.dbs q).state) := by
  obtain ⟨cs, h1, ⟨h2, h3, h4⟩, _⟩ := main_calls X (.checkoutHead n) (by simp) w q
  refine ⟨?_, (C43_kept ((World.Steps.refl w).tail (.run X rfl _ w)) q).1, ?_, ?_⟩
  · refine h4.trans (calls_reflog _ _ _ fun c hc => ?_)
    rcases h1 c hc with h | rfl
    · exact (isPut_keeps h).2
    · exact nofun
  · intro k hk
    have : rawGetState ((mainRun X (.checkoutHead n) w).2.2.dbs q) k = rawGetState (runCalls X.E.H cs (w.dbs q)) k := by simp only [rawGetState, h3]
    refine this.trans (calls_state_key _ _ _ _ fun c hc => ?_)
    rcases h1 c hc with h | rfl
    · cases c <;> simp [Call.isPut] at h; rfl
    · have : ¬ sHEAD = k := fun e => hk e.symm
      simpa [Spec.stateWrites, sHEAD] using this
  · rintro R ⟨ho, g1, g2⟩
    have hsame := runIn_committed X R q _ w () g1 g2
    rw [← mainRun_open (by simp) ho] at hsame
    obtain ⟨t, r, a1, a2, a3, a4⟩ := cmdCheckoutHead_ok (X := X) (R := R) (n := n) (s := startOf w q) (s' := ((Command.checkoutHead n).inRepo X R (startOf w q)).2) (Prod.ext g1 rfl)
    refine ⟨t, r, a1, a2, fun he => ?_, fun he => ?_⟩
    · simp only [rawGetState, hsame.1.2.1]; exact a3 he
    · rw [hsame.1.2.1]; exact a4 he

end Snap.Props
