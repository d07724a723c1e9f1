import Verif.Props.Progress
/-! C71: what `insert` prints can be given to `fetch`, cut short. -/
namespace Snap.Props
open Snap
set_option linter.unusedSectionVars false
variable [Serde] [LawfulSerde]

/-- `arg` is a beginning of the printed key `k`, not all of it, and of no other key in the store. -/
def Denotes (db : Db) (arg : Bytes) (k : Key) : Prop := arg <+: k.asUserKey ∧ arg ≠ k.asUserKey ∧ ∀ k', Stored db k' → arg <+: k'.asUserKey → k' = k

/-- **C71**: a beginning of a printed key resolves to the key if it is not the whole of it and it begins no other stored key; otherwise resolving it fails. -/
theorem C71_resolve {H : Bytes → Key} {w : World} (h : w.Reachable H) {q : List Bytes} {k : Key} (hs : Stored (w.dbs q) k) {arg : Bytes} (hne : arg ≠ []) (ha : arg <+: k.asUserKey) :
    ∃ kish, Keyish.fromStr arg = .ok kish ∧ (Denotes (w.dbs q) arg k → canonicalize (w.dbs q) kish = .ok k) ∧
      (¬ Denotes (w.dbs q) arg k → ∃ e, canonicalize (w.dbs q) kish = .err e) := by
  obtain ⟨t, rfl⟩ : ∃ t, arg = 98 :: t := by
    cases arg with
    | nil => exact absurd rfl hne
    | cons a t =>
      have : a :: t <+: 98 :: toBase32 k.hash := ha
      rw [List.cons_prefix_cons] at this
      exact ⟨t, by rw [this.1]⟩
  have hp : t <+: toBase32 k.hash := by
    have : 98 :: t <+: 98 :: toBase32 k.hash := ha
    rw [List.cons_prefix_cons] at this
    exact this.2
  have halpha : ∀ c ∈ t, Spec.IsBase32 c := fun c hc => toBase32Loop_alphabet _ c (hp.subset hc)
  have ht : ∀ c ∈ t, Spec.IsBase32Ci c := fun c hc => Or.inl (halpha c hc)
  have hlow : t.map Spec.lower = t := by
    have hl : ∀ c, Spec.IsBase32 c → Spec.lower c = c := by
      unfold Spec.IsBase32
      apply forall_u8; decide +kernel
    rw [List.map_congr_left (fun c hc => hl c (halpha c hc)), List.map_id']
  have hlen : t.length ≤ 52 := by
    have := hp.length_le
    rwa [toBase32_length, k.len32] at this
  by_cases hfull : t.length = 52
  · have he : 98 :: t = k.asUserKey := ha.eq_of_length (by rw [asUserKey_length]; simp [hfull])
    obtain ⟨v, hv⟩ := hs
    obtain ⟨o, ho, _⟩ := (World.Reachable.closed h q).rows _ (assoc_some_mem (get_eq_ok.mp hv))
    obtain ⟨kish, h1, h2⟩ := C09_full_key_counterexample (w.dbs q) k o v ho hv
    rw [← he] at h1
    exact ⟨kish, h1, fun hd => absurd he hd.2.1, fun _ => ⟨_, h2⟩⟩
  · have hproper : 98 :: t ≠ k.asUserKey := fun e => hfull (by
      have := congrArg List.length e
      rw [asUserKey_length] at this
      simpa using this)
    obtain ⟨kish, h1, h2, _, h4⟩ := abbreviation_inv H (w.dbs q) (World.Reachable.inv h q) t ht (by omega)
    rw [hlow] at h2 h4
    refine ⟨kish, h1, fun hd => (h2 k).mpr ⟨⟨hs, ha⟩, fun k' hk' => hd.2.2 k' hk'.1 hk'.2⟩, fun hd => ?_⟩
    have hd : ∃ k', k ≠ k' ∧ (Stored (w.dbs q) k ∧ 98 :: t <+: k.asUserKey) ∧ Stored (w.dbs q) k' ∧ 98 :: t <+: k'.asUserKey := by
      refine Classical.byContradiction fun hn => hd ⟨ha, hproper, fun k' g1 g2 => ?_⟩
      refine Classical.byContradiction fun hk => hn ⟨k', fun e => hk e.symm, ⟨hs, ha⟩, g1, g2⟩
    obtain ⟨k', hd⟩ := hd
    obtain ⟨ks, h5, _⟩ := h4.mp ⟨k, k', hd⟩
    exact ⟨_, h5⟩

theorem steps_trans {H : Bytes → Key} {a b c : World} (h : World.Steps H a b) (g : World.Steps H b c) : World.Steps H a c := by
  induction g with
  | refl => exact h
  | tail _ s ih => exact ih.tail s

theorem putFsItem_stored {E : Env} {fs : Fs} {filter : Filter} {n : Nat} {path : Path} {db db' : Db} {k : Key}
    (hi : Inv E.H db) (hp : putFsItem E fs filter n path db = (.ok k, db')) (hc : NoColl E.H db') : Stored db' k := by
  obtain ⟨ps, h, _⟩ := putFsItem_ok hi hp hc
  have : ∃ i, getItem db' k = .ok i := by
    cases n with
    | zero => exact h.elim
    | succ n =>
      rcases h with ⟨sz, nm, ck, c, m, h1, _⟩ | h
      · exact ⟨_, h1⟩
      · obtain ⟨_, _, h1, _⟩ := h
        exact ⟨_, h1⟩
  obtain ⟨i, hg⟩ := this
  unfold getItem at hg
  obtain ⟨o, ho, _⟩ := Res.bind_eq_ok hg
  simp only [Snap.getObj] at ho
  obtain ⟨v, hv, _⟩ := Res.bind_eq_ok ho
  exact ⟨v, hv⟩

/-- What a successful `insert` does: it prints one key, under which the path is stored. -/
theorem insert_committed {X : Ctx} {path : Path} {w : World} {R : Repo} {q : List Bytes} (h : Committed X (.insert path) w R q) :
    ∃ k d, w.printed X (.insert path) = [.key k] ∧ putFsItem X.E w.fs (makeFilter X.glob R.folder) X.depth path (w.dbs q) = (.ok k, d) ∧
      SameDb ((mainRun X (.insert path) w).2.2.dbs q) d := by
  obtain ⟨ho, h1, h2⟩ := h
  have hsame := runIn_committed X R q _ w () h1 h2
  unfold World.printed
  rw [mainRun_open (by simp) ho, runIn_out]
  rw [run_insert] at h1 hsame ⊢
  cases hp : putFsItem X.E (startOf w q).fs (makeFilter X.glob R.folder) X.depth path (startOf w q).db with
  | mk r d =>
    rw [hp] at h1 hsame
    cases r with
    | ok k => exact ⟨k, d, rfl, hp, hsame⟩
    | _ => simp at h1

/-- **C71**: `insert`, then anything (other commands with the same hash function, kills, changes of the files), then `fetch` of a beginning of the printed key. If that is not
the whole printed key and no other stored key begins with it, all files are restored below the destination with their contents, if nothing is in the way there and no system call
fails. Otherwise `fetch` fails and changes no file. -/
theorem C71_insert_fetch (X : Ctx) (path : Path) (w : World) (hreach : w.Reachable X.E.H) (hw : w.fs.Wf) (R : Repo) (q : List Bytes) (h : Committed X (.insert path) w R q)
    (hcoll : NoColl X.E.H ((mainRun X (.insert path) w).2.2.dbs q))
    (hread : ∀ rel c, VisFile w.fs (makeFilter X.glob R.folder) path rel c → FullyRead X.E (joins path rel) c) :
    ∃ k, w.printed X (.insert path) = [.key k] ∧
    ∀ w2 : World, World.Steps X.E.H (mainRun X (.insert path) w).2.2 w2 → w2.fs.Wf → w2.fs.faults = [] → w2.cache.faults = [] →
    ∀ (Y : Ctx) (S : Repo) (arg : Bytes) (to : Path), Opens Y w2 S q → arg ≠ [] → arg <+: k.asUserKey →
      ∃ key, Keyish.fromStr arg = .ok key ∧
      (Denotes (w2.dbs q) arg k → X.depth + 6 ≤ Y.depth → 0 ∉ to ∧ sDotDot ∉ to.comps → (w.fs.metadata path = .ok .dir ∨ to.lastIsName = true) →
        (∀ rel c, VisFile w.fs (makeFilter X.glob R.folder) path rel c → w2.fs.at (loc w2.fs.cwd to ++ rel) = none ∧
          ∀ p, p <+: loc w2.fs.cwd to ++ rel → w2.fs.at p = none ∨ w2.fs.at p = some .dir) →
        (mainRun Y (.fetch key to) w2).1 = .success ∧
        (∀ rel c, VisFile w.fs (makeFilter X.glob R.folder) path rel c → (mainRun Y (.fetch key to) w2).2.2.fs.content (loc w2.fs.cwd to ++ rel) = some c) ∧
        ∀ p, (∀ rel c, VisFile w.fs (makeFilter X.glob R.folder) path rel c → ¬ p <+: loc w2.fs.cwd to ++ rel) →
          (mainRun Y (.fetch key to) w2).2.2.fs.at p = w2.fs.at p) ∧
      (¬ Denotes (w2.dbs q) arg k → (∃ e, (mainRun Y (.fetch key to) w2).1 = .fatal e) ∧ (mainRun Y (.fetch key to) w2).2.2.fs = w2.fs) := by
  have hi := World.Reachable.inv hreach q
  obtain ⟨k, d, g1, g2, g3⟩ := insert_committed h
  refine ⟨k, g1, ?_⟩
  intro w2 hs hw2 hf1 hf2 Y S arg to ho hne harg
  have hreach2 : w2.Reachable X.E.H := by
    obtain ⟨w₀, e0, es⟩ := hreach
    have := es.tail (.run X rfl (.insert path) w)
    exact ⟨w₀, e0, steps_trans this hs⟩
  have hpre : d.data <+: (w2.dbs q).data := by
    have := steps_data hs q
    rwa [g3.1.1] at this
  have hcd : NoColl X.E.H d := g3.noColl hcoll
  have hst : Stored (w2.dbs q) k := Stored.mono hpre (putFsItem_stored hi g2 hcd)
  obtain ⟨key, r1, r2, r3⟩ := C71_resolve hreach2 hst hne harg
  refine ⟨key, r1, fun hd hdepth hto hname hfree => ?_, fun hd => ?_⟩
  · have hkey := r2 hd
    obtain ⟨dst', r0, r1, _, r3⟩ := C29_fetch_restores X.E w.fs hw _ X.depth _ _ d k hi g2 hcd (w2.dbs q) hpre w2.fs hw2 hf1 to hto hname hfree Y.depth hdepth
    rw [mainRun_open (by simp) ho]
    have hrun : (Command.fetch key to).inRepo Y S (startOf w2 q) = (.ok (), { startOf w2 q with fs := dst' }) := by
      show cmdFetch Y key to (startOf w2 q) = _
      unfold cmdFetch
      have e1 : canonicalize (startOf w2 q).db key = .ok k := hkey
      refine (SM.bind_apply (σ := Sys) _ _ _).trans ?_
      rw [readDb_apply, e1]
      show onFs (getFsItem (w2.dbs q) Y.depth k to) (startOf w2 q) = _
      unfold onFs SM.on
      simp only [startOf, r0]
    have hfs : (runIn Y S q (.fetch key to) w2).2.2.fs = dst' := by
      show ((Command.fetch key to).inRepo Y S (startOf w2 q)).2.fs = _
      rw [hrun]
    have hex : (runIn Y S q (.fetch key to) w2).1 = .success := by
      have : (runIn Y S q (.fetch key to) w2).1 = exitOf ((Command.fetch key to).inRepo Y S (startOf w2 q)).1
        (Cache.finish ((Command.fetch key to).inRepo Y S (startOf w2 q)).1 w2.cache ((Command.fetch key to).inRepo Y S (startOf w2 q)).2.cache).1 := rfl
      rw [this, hrun]
      simp [startOf, Cache.finish, hf2, exitOf]
    refine ⟨hex, ?_, ?_⟩
    · intro rel c hv
      obtain ⟨c', h1, h2⟩ := r1 rel c hv
      rw [readBack_full (hread rel c hv) h2] at h1
      rw [hfs]
      exact h1
    · rw [hfs]
      exact r3
  · obtain ⟨e, he⟩ := r3 hd
    have hrun : (Command.fetch key to).inRepo Y S (startOf w2 q) = (.err e, { startOf w2 q with out := [] }) := by
      show cmdFetch Y key to (startOf w2 q) = _
      unfold cmdFetch
      have e1 : canonicalize (startOf w2 q).db key = .err e := he
      refine (SM.bind_apply (σ := Sys) _ _ _).trans ?_
      rw [readDb_apply, e1]
      rfl
    refine ⟨⟨e, (run_reads ho (by simp) hrun).2.2.1 e rfl⟩, ?_⟩
    rw [mainRun_open (by simp) ho]
    show ((Command.fetch key to).inRepo Y S (startOf w2 q)).2.fs = _
    rw [hrun]
    rfl

/-! C33 for the commands -/

/-- What storing the directory `path` of the repository `R` is to leave in the tree `m`: the entries that exist and neither are nor lie below a place that is in the database folder or matched by a
pattern. -/
def JustTaken (X : Ctx) (fs : Fs) (R : Repo) (path : Path) (m : List (Path × Key × Bool)) : Prop :=
  ∀ p, (∃ v, (p, v) ∈ m) ↔ ∃ rel, rel ≠ [] ∧ p = relPath rel ∧ (∃ e, fs.at (loc fs.cwd path ++ rel) = some e ∧ e ≠ .broken) ∧
    ∀ r, r ≠ [] → r <+: rel → ¬ loc fs.cwd R.folder <+: loc fs.cwd path ++ r ∧ X.glob (stripDot (joins path r)) = false

theorem justTaken {X : Ctx} {w : World} (hw : w.fs.Wf) {R : Repo} {q : List Bytes} (ho : Opens X w R q) {path : Path} (hd : w.fs.metadata path = .ok .dir) {db d later : Db} {k : Key}
    (hi : Inv X.E.H db) (hp : putFsItem X.E w.fs (makeFilter X.glob R.folder) X.depth path db = (.ok k, d)) (hc : NoColl X.E.H d) (hl : d.data <+: later.data) :
    ∃ m, walkItems later X.depth k = .ok m ∧ JustTaken X w.fs R path m := by
  obtain ⟨e, he⟩ := opens_folder ho
  obtain ⟨m, h1, h2⟩ := C33_stored_iff_accepted X.E w.fs hw _ X.depth path db d later k hi hp hc hl hd X.depth (Nat.le_refl _)
  obtain ⟨ps, hst, hL, hpa⟩ := putFsItem_ok hi hp hc
  refine ⟨m, h1, fun p => (h2 p).trans ⟨?_, ?_⟩⟩
  · rintro ⟨rel, g1, g2, g3, g4⟩
    cases ha : w.fs.at (loc w.fs.cwd path ++ rel) with
    | none => exact absurd ha g3
    | some e' =>
      have he' : e' ≠ .broken := by rcases hL.complete hw g4 ha with rfl | ⟨c, md, rfl⟩ <;> simp
      exact ⟨rel, g1, g2, ⟨e', ha, he'⟩, (C33_make_filter w.fs hw X.glob R.folder e he path hd rel e' ha he').mp g4⟩
  · rintro ⟨rel, g1, g2, ⟨e', ha, he'⟩, g4⟩
    exact ⟨rel, g1, g2, by rw [ha]; simp, (C33_make_filter w.fs hw X.glob R.folder e he path hd rel e' ha he').mpr g4⟩

/-- **C33** for `insert`: below the key it prints are exactly the entries of the directory that are not in the database folder and not matched by a pattern, nor below such a one. -/
theorem C33_insert (X : Ctx) (path : Path) (w : World) (hreach : w.Reachable X.E.H) (hw : w.fs.Wf) (R : Repo) (q : List Bytes) (h : Committed X (.insert path) w R q)
    (hcoll : NoColl X.E.H ((mainRun X (.insert path) w).2.2.dbs q)) (hd : w.fs.metadata path = .ok .dir) :
    ∃ k m, w.printed X (.insert path) = [.key k] ∧ walkItems ((mainRun X (.insert path) w).2.2.dbs q) X.depth k = .ok m ∧ JustTaken X w.fs R path m := by
  obtain ⟨k, d, g1, g2, g3⟩ := insert_committed h
  obtain ⟨m, h1, h2⟩ := justTaken (later := (mainRun X (.insert path) w).2.2.dbs q) hw h.1 hd (World.Reachable.inv hreach q) g2 (g3.noColl hcoll) (by rw [g3.1.1]; exact List.prefix_refl _)
  exact ⟨k, m, g1, h1, h2⟩

/-- **C33** for `commit`: so are those in the tree of the commit that the ref points to afterwards. -/
theorem C33_commit (X : Ctx) (path : Option Path) (message : Bytes) (refname : Option Bytes) (w : World) (hreach : w.Reachable X.E.H) (hw : w.fs.Wf) (R : Repo) (q : List Bytes)
    (h : Committed X (.commit path message refname) w R q) (hcoll : NoColl X.E.H ((mainRun X (.commit path message refname) w).2.2.dbs q))
    (hd : w.fs.metadata (path.getD R.root) = .ok .dir) :
    ∃ n ck c m, refOrHead (w.dbs q) refname = .ok n ∧ reflogGet ((mainRun X (.commit path message refname) w).2.2.dbs q) n none = .ok ck ∧
      Commit.fromKey ((mainRun X (.commit path message refname) w).2.2.dbs q) ck = .ok c ∧
      walkItems ((mainRun X (.commit path message refname) w).2.2.dbs q) X.depth c.tree = .ok m ∧ JustTaken X w.fs R (path.getD R.root) m := by
  obtain ⟨n, ck, tree, ps, g1, g2, g3, _, ⟨d, g4, g5, g6⟩, _⟩ := C38_commit X path message refname w R q (World.Reachable.inv hreach q) h hcoll
  obtain ⟨m, h1, h2⟩ := justTaken hw h.1 hd (World.Reachable.inv hreach q) g4 g5 g6
  exact ⟨n, ck, _, m, g1, g2, g3, h1, h2⟩

end Snap.Props
