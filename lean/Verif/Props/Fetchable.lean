import Verif.Props.Ready
/-! Property C88: when `fetch` ends well. -/
namespace Snap.Props
open Snap
set_option linter.unusedSectionVars false
variable [Serde] [LawfulSerde]

/-- What must be there for a fetch of `k` to `L`: at the place of each file is nothing, and nothing but directories on the way to it. -/
def Spec.Free (db : Db) (k : Key) (a : AtFn) (L : List Bytes) : Prop :=
  ∀ rel, Comes db k rel false → a (L ++ rel) = none ∧ ∀ p, p <+: L ++ rel → a p = none ∨ a p = some .dir

/-- What is there stays. -/
def Keeps (a0 a : AtFn) : Prop := ∀ q e, a0 q = some e → a q = some e

theorem keeps_upd {a0 a : AtFn} (h : Keeps a0 a) {x : List Bytes} (hx : a x = none) (e : Ent) : Keeps a0 (upd a x e) := by
  intro q e' hq
  unfold upd
  split
  · rename_i h'; subst h'; rw [h _ _ hq] at hx; simp at hx
  · exact h q e' hq

theorem keeps_createDirAll (cwd : List Bytes) (a0 : AtFn) (p : Path) : Pres (TreeInv cwd (Keeps a0)) (Fs.createDirAll p) (fun _ => True) :=
  pres_createDirAll fun _ _ _ ha hn => keeps_upd ha hn _

theorem keeps_plantOne (cwd : List Bytes) (a0 : AtFn) (P : Path) (ls : List Bytes) : Pres (TreeInv cwd (Keeps a0)) (plantOne P ls) (fun _ => True) := by
  unfold plantOne
  refine pres_writeFile (fun q _ a ha hn => keeps_upd ha hn _) (fun a md ha hn => keeps_upd ha hn _) ?_
  rintro ⟨b, hb, hn⟩
  refine Pres.each fun d _ => pres_writeAll ?_ d
  intro a c md d ha _ q e hq
  unfold upd
  split
  · rename_i h; subst h; rw [hb _ _ hq] at hn; simp at hn
  · exact ha q e hq

theorem plantOne_eq (P : Path) (ls : List Bytes) :
    plantOne P ls = (match Path.parent P with | some q => Fs.createDirAll q | none => pure ()) >>= fun _ => Fs.createNew P >>= fun f => SM.each (Fs.writeAll f) ls := by
  unfold plantOne
  cases Path.parent P <;> rfl

theorem sane_plantOne (P : Path) (ls : List Bytes) : Pres Fs.Sane (plantOne P ls) (fun _ => True) := by
  rw [plantOne_eq]
  refine Pres.bind (Q := fun _ => True) ?_ fun _ _ => Pres.bind (sane_createNew P) fun f _ => Pres.each fun d _ => sane_writeAll f d
  cases Path.parent P with
  | some q => exact sane_createDirAll q
  | none => exact Pres.pure trivial

/-- Writing one file needs a free place, and nothing but directories on the way. -/
theorem plantOne_needs {fs fs' : Fs} (hs : fs.Sane) {P : Path} {ls : List Bytes} (h : plantOne P ls fs = (.ok (), fs')) :
    P.lastIsName = true ∧ fs.at (loc fs.cwd P) = none ∧ Open fs.at (loc fs.cwd P) := by
  rw [plantOne_eq, SM.bind_apply] at h
  generalize hx : (match Path.parent P with | some q => Fs.createDirAll q | none => pure ()) = x at h
  have hk : Pres (TreeInv fs.cwd (Keeps fs.at)) x (fun _ => True) := by
    subst hx
    cases Path.parent P with
    | some q => exact keeps_createDirAll _ _ q
    | none => exact Pres.pure trivial
  have hsx : Pres Fs.Sane x (fun _ => True) := by
    subst hx
    cases Path.parent P with
    | some q => exact sane_createDirAll q
    | none => exact Pres.pure trivial
  obtain ⟨⟨hcwd, hkeep⟩, _⟩ := hk fs ⟨rfl, fun q e h => h⟩
  have hs1 := (hsx fs hs).1
  cases hr : x fs with
  | mk r fs1 =>
    rw [hr] at h hcwd hkeep hs1
    have hcwd : fs1.cwd = fs.cwd := hcwd
    have hkeep : Keeps fs.at fs1.at := hkeep
    have hs1 : fs1.Sane := hs1
    cases r with
    | ok u =>
      simp only at h
      rw [SM.bind_apply] at h
      have hc : ∃ q fs2, Fs.createNew P fs1 = (.ok q, fs2) := by
        cases hcn : Fs.createNew P fs1 with
        | mk r2 fs2 =>
          rw [hcn] at h
          cases r2 with
          | ok q => exact ⟨q, fs2, rfl⟩
          | _ => simp at h
      obtain ⟨q, fs2, hc⟩ := hc
      unfold Fs.createNew Fs.call at hc
      split at hc
      · simp at hc
      · have e1 : ∀ p, Fs.locate { fs1 with faults := fs1.faults.tail } p = fs1.locate p := fun p => locate_congr (fs := { fs1 with faults := fs1.faults.tail }) (fs' := fs1) rfl rfl
        have e2 : ({ fs1 with faults := fs1.faults.tail } : Fs).at = fs1.at := rfl
        dsimp only at hc
        rw [e1] at hc
        cases hl : fs1.locate P with
        | ok q' =>
          rw [hl] at hc
          simp only [e2] at hc
          split at hc
          · rename_i hln
            split at hc
            · rename_i hnone
              have hq := locate_loc hl
              rw [hcwd] at hq
              subst hq
              refine ⟨hln, ?_, ?_⟩
              · cases ha : fs.at (loc fs.cwd P) with
                | none => rfl
                | some e => rw [hkeep _ _ ha] at hnone; simp at hnone
              · have hop : Open fs1.at (loc fs.cwd P) := by
                  rcases locate_sane hs1 hl with hd | ⟨d, n, hdn, hd, _⟩
                  · rw [hd] at hnone; simp at hnone
                  · intro r hr
                    rw [hdn, prefix_snoc_iff] at hr
                    rcases hr with rfl | hr
                    · rw [← hdn]; exact .inl hnone
                    · exact .inr ((sane_atWf hs1).prefix hr hd)
                intro r hr
                cases ha : fs.at r with
                | none => exact .inl rfl
                | some e =>
                  rcases hop r hr with h1 | h1
                  · rw [hkeep _ _ ha] at h1; simp at h1
                  · rw [hkeep _ _ ha] at h1; exact .inr h1
            · simp at hc
          · simp at hc
        | err e => rw [hl] at hc; simp at hc
        | panic => rw [hl] at hc; simp at hc
        | fuel => rw [hl] at hc; simp at hc
    | _ => simp at h

/-- The same for all files of a tree. -/
theorem each_plant_needs {fs fs' : Fs} (hs : fs.Sane) {path : Path} {fl : Parts} (h : SM.each (fun x => plantOne (joins path x.1) x.2) fl fs = (.ok (), fs')) :
    ∀ x ∈ fl, (joins path x.1).lastIsName = true ∧ fs.at (loc fs.cwd (joins path x.1)) = none ∧ Open fs.at (loc fs.cwd (joins path x.1)) := by
  induction fl generalizing fs with
  | nil => simp
  | cons y fl ih =>
    cases hr : plantOne (joins path y.1) y.2 fs with
    | mk r fs1 =>
      have h' := (SM.bind_apply (plantOne (joins path y.1) y.2) (fun _ => SM.each (fun x : List Bytes × List Bytes => plantOne (joins path x.1) x.2) fl) fs).symm.trans h
      rw [hr] at h'
      cases r with
      | ok u =>
        have h' : SM.each (fun x => plantOne (joins path x.1) x.2) fl fs1 = (.ok (), fs') := h'
        have hs1 : fs1.Sane := by have := (sane_plantOne (joins path y.1) y.2 fs hs).1; rwa [hr] at this
        obtain ⟨⟨hcwd, hkeep⟩, _⟩ := keeps_plantOne fs.cwd fs.at (joins path y.1) y.2 fs ⟨rfl, fun q e h => h⟩
        rw [hr] at hcwd hkeep
        have hcwd : fs1.cwd = fs.cwd := hcwd
        have hkeep : Keeps fs.at fs1.at := hkeep
        intro x hx
        rcases List.mem_cons.mp hx with rfl | hx
        · exact plantOne_needs hs hr
        · obtain ⟨h1, h2, h3⟩ := ih hs1 h' x hx
          rw [hcwd] at h2 h3
          refine ⟨h1, ?_, fun r hr => ?_⟩
          · cases ha : fs.at (loc fs.cwd (joins path x.1)) with
            | none => rfl
            | some e => rw [hkeep _ _ ha] at h2; simp at h2
          · cases ha : fs.at r with
            | none => exact .inl rfl
            | some e =>
              rcases h3 r hr with h4 | h4
              · rw [hkeep _ _ ha] at h4; simp at h4
              · rw [hkeep _ _ ha] at h4; exact .inr h4
      | err e => simp at h'
      | panic => simp at h'
      | fuel => simp at h'

theorem fetch_run {X : Ctx} {R : Repo} {s : Sys} {key : Keyish} {to : Path} {k : Key} (hk : canonicalize s.db key = .ok k) :
    (Command.fetch key to).inRepo X R s = ((getFsItem s.db X.depth k to s.fs).1, { s with fs := (getFsItem s.db X.depth k to s.fs).2 }) := by
  show cmdFetch X key to s = _
  unfold cmdFetch
  refine (SM.bind_apply (σ := Sys) _ _ _).trans ?_
  rw [readDb_apply, hk]
  rfl

theorem comes_file {db : Db} {n : Nat} {k : Key} {ns : List KNode} (hs : Snap.Stored db n k ns) (rel : List Bytes) : Comes db k rel false ↔ ∃ c, (rel, c) ∈ filesOf ns := by
  rw [stored_comes hs]
  constructor
  · rintro ⟨x, hx, h1, h2⟩
    cases hc : x.node.content with
    | none => simp [hc] at h2
    | some c => exact ⟨c, mem_filesOf.mpr ⟨x, hx, h1, hc⟩⟩
  · rintro ⟨c, h⟩
    obtain ⟨x, hx, h1, h2⟩ := mem_filesOf.mp h
    exact ⟨x, hx, h1, by simp [h2]⟩

/-- What a fetch needs. -/
theorem fetch_needs {db : Db} {n : Nat} {k : Key} {ns : List KNode} (hs : Snap.Stored db n k ns) (hok : ∀ x ∈ ns, ∀ m ∈ x.node.rel, okName m) {fs fs' : Fs} (hsn : fs.Sane)
    {to : Path} {fuel : Nat} (hfuel : n + 6 ≤ fuel) (h : getFsItem db fuel k to fs = (.ok (), fs')) :
    (Comes db k [] false → to.lastIsName = true) ∧ Spec.Free db k fs.at (loc fs.cwd to) := by
  obtain ⟨fl, hcuts, hget⟩ := getFsItem_stored hs
  have hcuts' : fl.map (fun x => (x.1, x.2.flatten)) = filesOf ns := by
    rw [hcuts, filesOf, List.filterMap_map]; rfl
  rw [hget to fuel hfuel] at h
  have hn := each_plant_needs hsn h
  have key : ∀ rel, Comes db k rel false → (joins to rel).lastIsName = true ∧ fs.at (loc fs.cwd to ++ rel) = none ∧ Open fs.at (loc fs.cwd to ++ rel) := by
    intro rel hr
    obtain ⟨c, hc⟩ := (comes_file hs rel).mp hr
    obtain ⟨y, hy, h1, _⟩ := mem_filesOf.mp hc
    have hrel : ∀ m ∈ rel, okName m := by rw [← h1]; exact hok y hy
    rw [← hcuts'] at hc
    obtain ⟨x, hx, e⟩ := List.mem_map.mp hc
    simp only [Prod.mk.injEq] at e
    obtain ⟨rfl, _⟩ := e
    have := hn x hx
    rwa [loc_joins _ _ hrel] at this
  exact ⟨fun h0 => (key [] h0).1, fun rel hr => (key rel hr).2⟩

/-- What suffices for a fetch, and what it then does. -/
theorem fetch_can {db : Db} {n : Nat} {k : Key} {ns : List KNode} (hs : Snap.Stored db n k ns) (hok : ∀ x ∈ ns, ∀ m ∈ x.node.rel, okName m)
    (hap : (filesOf ns).Pairwise fun x y => ¬ x.1 <+: y.1 ∧ ¬ y.1 <+: x.1) {fs : Fs} (hw : fs.Wf) (hf : fs.faults = []) {to : Path} (hto : Clean to) {fuel : Nat} (hfuel : n + 6 ≤ fuel)
    (h0 : Comes db k [] false → to.lastIsName = true) (hfree : Spec.Free db k fs.at (loc fs.cwd to)) :
    ∃ fs', getFsItem db fuel k to fs = (.ok (), fs') ∧ fs'.cwd = fs.cwd ∧ Planted fs.at fs'.at (loc fs.cwd to) (filesOf ns) := by
  obtain ⟨fl, hcuts, hget⟩ := getFsItem_stored hs
  have hcuts' : fl.map (fun x => (x.1, x.2.flatten)) = filesOf ns := by
    rw [hcuts, filesOf, List.filterMap_map]; rfl
  have hfl : ∀ x ∈ fl, (x.1, x.2.flatten) ∈ filesOf ns := fun x hx => by rw [← hcuts']; exact List.mem_map.mpr ⟨x, hx, rfl⟩
  have hokf : ∀ x ∈ fl, ∀ m ∈ x.1, okName m := by
    intro x hx m hm
    obtain ⟨y, hy, h1, _⟩ := mem_filesOf.mp (hfl x hx)
    exact hok y hy m (by rw [h1]; exact hm)
  have hcomes : ∀ x ∈ fl, Comes db k x.1 false := fun x hx => (comes_file hs _).mpr ⟨_, hfl x hx⟩
  obtain ⟨fs', e1, _, hcwd, _, hpl⟩ := each_plant hf hw.cwd hw.parents fl (path := to) (L := loc fs.cwd to) (fun x hx => by
      refine ⟨clean_joins hto (hokf x hx), ?_⟩
      by_cases hn : x.1 = []
      · have := hcomes x hx
        rw [hn] at this ⊢
        exact h0 this
      · exact lastIsName_joins (hokf x hx) hn) (fun x hx => loc_joins _ _ (hokf x hx)) (fun x hx => hfree x.1 (hcomes x hx)) (by
      rw [← hcuts', List.pairwise_map] at hap
      exact hap)
  rw [hcuts'] at hpl
  exact ⟨fs', by rw [hget to fuel hfuel]; exact e1, hcwd, hpl⟩

/-- How a fetch ends is how its body ends. -/
theorem fetch_exit {X : Ctx} {w : World} {R : Repo} {q : List Bytes} (ho : Opens X w R q) (hcf : w.cache.faults = []) {key : Keyish} {to : Path} {k : Key}
    (hk : canonicalize (w.dbs q) key = .ok k) : (mainRun X (.fetch key to) w).1 = .success ↔ (getFsItem (w.dbs q) X.depth k to w.fs).1 = .ok () := by
  have hrun : (Command.fetch key to).inRepo X R (startOf w q) = _ := fetch_run (s := startOf w q) hk
  rw [finish_exit (by simp) ho (fun s hs => by rw [hrun] at hs; rw [← (Prod.mk.inj hs).2]; exact hcf), hrun]
  rfl

theorem fetch_fs {X : Ctx} {w : World} {R : Repo} {q : List Bytes} (ho : Opens X w R q) {key : Keyish} {to : Path} {k : Key} (hk : canonicalize (w.dbs q) key = .ok k) :
    (mainRun X (.fetch key to) w).2.2.fs = (getFsItem (w.dbs q) X.depth k to w.fs).2 := by
  rw [mainRun_open (by simp) ho]
  show ((Command.fetch key to).inRepo X R (startOf w q)).2.fs = _
  rw [fetch_run (s := startOf w q) hk]
  rfl

/-- **C88**: `fetch` of a file or directory ends well exactly if at the place of each of its files is nothing, and nothing but directories are on the way to it (and, for a
single file, the destination ends in a name). -/
theorem C88_fetch (X : Ctx) (w : World) (hs : w.Sound X.E.H) (hw : w.fs.Wf) (R : Repo) (q : List Bytes) (hc : NoColl X.E.H (w.dbs q)) (ho : Opens X w R q) (hf : w.fs.faults = [])
    (hcf : w.cache.faults = []) (hdepth : (w.dbs q).data.length + 6 ≤ X.depth) (key : Keyish) (k : Key) (hk : canonicalize (w.dbs q) key = .ok k)
    (hitem : LeadsTo (w.dbs q) k IsItem) (to : Path) (hto : Clean to) :
    (mainRun X (.fetch key to) w).1 = .success ↔ (Comes (w.dbs q) k [] false → to.lastIsName = true) ∧ Spec.Free (w.dbs q) k w.fs.at (loc w.fs.cwd to) := by
  obtain ⟨o, g1, g2⟩ := hitem
  obtain ⟨ns, g3, g4, _, g6⟩ := (whole_trees hs q hc g1).2 g2
  have g3 := g3 _ (Nat.le_refl _)
  rw [fetch_exit ho hcf hk]
  constructor
  · intro h
    cases hr : getFsItem (w.dbs q) X.depth k to w.fs with
    | mk r fs' =>
      rw [hr] at h
      simp only at h
      subst h
      exact fetch_needs g3 g4 hs.sane hdepth hr
  · rintro ⟨h0, hfree⟩
    obtain ⟨fs', e, _⟩ := fetch_can g3 g4 g6 hw hf hto hdepth h0 hfree
    rw [e]

/-- **C88**, whatever the destination is and whichever system calls fail: where something is at the place of a file, `fetch` does not end well. -/
theorem C88_occupied (X : Ctx) (w : World) (hs : w.Sound X.E.H) (R : Repo) (q : List Bytes) (hc : NoColl X.E.H (w.dbs q)) (ho : Opens X w R q)
    (hcf : w.cache.faults = []) (hdepth : (w.dbs q).data.length + 6 ≤ X.depth) (key : Keyish) (k : Key) (hk : canonicalize (w.dbs q) key = .ok k)
    (hitem : LeadsTo (w.dbs q) k IsItem) (to : Path) (rel : List Bytes) (hrel : Comes (w.dbs q) k rel false) (hthere : w.fs.at (loc w.fs.cwd to ++ rel) ≠ none) :
    (mainRun X (.fetch key to) w).1 ≠ .success := by
  obtain ⟨o, g1, g2⟩ := hitem
  obtain ⟨ns, g3, g4, _⟩ := (whole_trees hs q hc g1).2 g2
  have g3 := g3 _ (Nat.le_refl _)
  rw [Ne, fetch_exit ho hcf hk]
  intro h
  cases hr : getFsItem (w.dbs q) X.depth k to w.fs with
  | mk r fs' =>
    rw [hr] at h
    simp only at h
    subst h
    exact hthere ((fetch_needs g3 g4 hs.sane hdepth hr).2 rel hrel).1

/-- **C88**, a second time: after a `fetch` that ended well, a `fetch` of a tree with a file in common (in any repository) to the same place does not end well. -/
theorem C88_again (X : Ctx) (w : World) (hs : w.Sound X.E.H) (hw : w.fs.Wf) (R : Repo) (q : List Bytes) (hc : NoColl X.E.H (w.dbs q)) (ho : Opens X w R q) (hf : w.fs.faults = [])
    (hcf : w.cache.faults = []) (hdepth : (w.dbs q).data.length + 6 ≤ X.depth) (key : Keyish) (k : Key) (hk : canonicalize (w.dbs q) key = .ok k)
    (hitem : LeadsTo (w.dbs q) k IsItem) (to : Path) (hto : Clean to) (hok : (mainRun X (.fetch key to) w).1 = .success)
    (w' : World) (hfs : w'.fs = (mainRun X (.fetch key to) w).2.2.fs) (hs' : w'.Sound X.E.H) (R' : Repo) (q' : List Bytes) (hc' : NoColl X.E.H (w'.dbs q')) (ho' : Opens X w' R' q')
    (hcf' : w'.cache.faults = []) (hdepth' : (w'.dbs q').data.length + 6 ≤ X.depth) (key' : Keyish) (k' : Key) (hk' : canonicalize (w'.dbs q') key' = .ok k')
    (hitem' : LeadsTo (w'.dbs q') k' IsItem) (rel : List Bytes) (hrel : Comes (w.dbs q) k rel false) (hrel' : Comes (w'.dbs q') k' rel false) :
    (mainRun X (.fetch key' to) w').1 ≠ .success := by
  obtain ⟨h0, hfree⟩ := (C88_fetch X w hs hw R q hc ho hf hcf hdepth key k hk hitem to hto).mp hok
  obtain ⟨o, g1, g2⟩ := hitem
  obtain ⟨ns, g3, g4, _, g6⟩ := (whole_trees hs q hc g1).2 g2
  have g3 := g3 _ (Nat.le_refl _)
  obtain ⟨fs', e, hcwd, hpl⟩ := fetch_can g3 g4 g6 hw hf hto hdepth h0 hfree
  rw [fetch_fs ho hk, e] at hfs
  have hfs : w'.fs = fs' := hfs
  refine C88_occupied X w' hs' R' q' hc' ho' hcf' hdepth' key' k' hk' hitem' to rel hrel' ?_
  obtain ⟨c, hcm⟩ := (comes_file g3 rel).mp hrel
  obtain ⟨md, hm⟩ := hpl.files _ hcm
  rw [hfs, hcwd, hm]
  simp

/-- **C88**, a tree without files: `fetch` ends well and changes nothing, whatever is at the destination; not even the destination directory is created. -/
theorem C88_empty (X : Ctx) (w : World) (hs : w.Sound X.E.H) (R : Repo) (q : List Bytes) (hc : NoColl X.E.H (w.dbs q)) (ho : Opens X w R q)
    (hcf : w.cache.faults = []) (hdepth : (w.dbs q).data.length + 6 ≤ X.depth) (key : Keyish) (k : Key) (hk : canonicalize (w.dbs q) key = .ok k)
    (hitem : LeadsTo (w.dbs q) k IsItem) (hno : ∀ rel, ¬ Comes (w.dbs q) k rel false) (to : Path) :
    (mainRun X (.fetch key to) w).1 = .success ∧ (mainRun X (.fetch key to) w).2.2.fs = w.fs := by
  obtain ⟨o, g1, g2⟩ := hitem
  obtain ⟨ns, g3, g4, _, g6⟩ := (whole_trees hs q hc g1).2 g2
  have g3 := g3 _ (Nat.le_refl _)
  obtain ⟨fl, hcuts, hget⟩ := getFsItem_stored g3
  have hcuts' : fl.map (fun x => (x.1, x.2.flatten)) = filesOf ns := by
    rw [hcuts, filesOf, List.filterMap_map]; rfl
  have hfl : fl = [] := by
    cases hl : fl with
    | nil => rfl
    | cons x l =>
      have : (x.1, x.2.flatten) ∈ filesOf ns := by rw [← hcuts', hl]; simp
      exact absurd ((comes_file g3 _).mpr ⟨_, this⟩) (hno x.1)
  rw [fetch_exit ho hcf hk, fetch_fs ho hk, hget to X.depth hdepth, hfl]
  exact ⟨rfl, rfl⟩

end Snap.Props
