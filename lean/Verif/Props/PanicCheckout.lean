import Verif.Props.PanicWork
import Verif.Props.Simplify
/-! C79: why `checkout` panics. -/
namespace Snap.Props
open Snap
set_option linter.unusedSectionVars false
variable [Serde] [LawfulSerde]

/-- What `checkout` comes to from a key: the names on the way, and whether it takes it for a directory. -/
inductive Comes (db : Db) : Key → List Bytes → Bool → Prop where
  | here {k i} : getItem db k = .ok i → Comes db k [] (i.itemtype == .dir)
  | down {k i ck n rel d} : getItem db k = .ok i → i.itemtype = .dir → (ck, n) ∈ i.children.zip i.names → Comes db ck rel d → Comes db k (n :: rel) d

/-- What holds of the tree of files all through a checkout: the directories `S` stay, and no dangling link appears. -/
structure Tame (S : List Bytes → Prop) (a0 a : AtFn) : Prop where
  wf : AtWf a
  names : AtNames a
  dirs : ∀ u, S u → a u = some .dir
  links : ∀ u, a u = some .broken → a0 u = some .broken

theorem Tame.dirs_upd {S : List Bytes → Prop} {a0 a : AtFn} (h : Tame S a0 a) {p : List Bytes} (hp : a p ≠ some .dir) (e : Ent) (u : List Bytes) (hu : S u) : upd a p e u = some .dir := by
  unfold upd
  rw [if_neg]
  · exact h.dirs u hu
  · rintro rfl; exact hp (h.dirs _ hu)

theorem Tame.links_upd {S : List Bytes → Prop} {a0 a : AtFn} (h : Tame S a0 a) (p : List Bytes) (c : Bytes) (md : FileMeta) (u : List Bytes) (hu : upd a p (.file c md) u = some .broken) :
    a0 u = some .broken := by
  unfold upd at hu
  split at hu
  · simp at hu
  · exact h.links u hu

theorem Tame.make {S : List Bytes → Prop} {a0 a : AtFn} (h : Tame S a0 a) {d : List Bytes} {n : Bytes} (hn : okName n) (hd : a d = some .dir)
    (hf : a (d ++ [n]) = none ∨ ∃ c md, a (d ++ [n]) = some (.file c md)) (c : Bytes) (md : FileMeta) : Tame S a0 (upd a (d ++ [n]) (.file c md)) :=
  ⟨atWf_create h.wf hd hf c md, atNames_create h.names hn _, h.dirs_upd (by rcases hf with hf | ⟨_, _, hf⟩ <;> rw [hf] <;> simp) _, h.links_upd _ _ _⟩

theorem Tame.write {S : List Bytes → Prop} {a0 a : AtFn} (h : Tame S a0 a) {p : List Bytes} {c c' : Bytes} {md md' : FileMeta} (hf : a p = some (.file c md)) :
    Tame S a0 (upd a p (.file c' md')) :=
  ⟨atWf_file h.wf hf, atNames_file h.names hf, h.dirs_upd (by rw [hf]; simp) _, h.links_upd _ _ _⟩

theorem Tame.keep {S : List Bytes → Prop} {a0 a : AtFn} (h : Tame S a0 a) {k : List Bytes → Bool} (hw : AtWf (Snap.keep a k)) (hS : ∀ u, S u → k u = true) : Tame S a0 (Snap.keep a k) := by
  refine ⟨hw, atNames_keep h.names k, fun u hu => ?_, fun u hu => ?_⟩
  · unfold Snap.keep; rw [if_pos (hS u hu)]; exact h.dirs u hu
  · unfold Snap.keep at hu
    split at hu
    · exact h.links u hu
    · simp at hu

/-- A clean path to a directory resolves. -/
theorem locate_clean {fs : Fs} (hw : AtWf fs.at) {p : Path} (h0 : p ≠ []) (hcl : Clean p) (hd : fs.at (loc fs.cwd p) = some .dir) : fs.locate p = .ok (loc fs.cwd p) := by
  have hwalk : ∀ (l : List Bytes) (cur : List Bytes), (∀ s ∈ l, 47 ∉ s) → sDotDot ∉ l → fs.at (l.foldl lexStep cur) = some .dir →
      cur <+: l.foldl lexStep cur ∧ fs.walk cur l = .ok (l.foldl lexStep cur) := by
    intro l
    induction l with
    | nil => intro cur _ _ _; exact ⟨List.prefix_refl _, rfl⟩
    | cons s l ih =>
      intro cur h1 h2 h3
      rw [List.foldl_cons] at h3 ⊢
      obtain ⟨h4, h5⟩ := ih _ (fun t ht => h1 t (by simp [ht])) (fun h => h2 (by simp [h])) h3
      have hs := lexStep_comp (cur := cur) (h1 s (by simp))
      have hp : cur <+: lexStep cur s := by
        rw [hs]
        split
        · exact List.prefix_refl _
        · rw [if_neg (by rintro rfl; exact h2 (by simp))]; exact List.prefix_append _ _
      refine ⟨hp.trans h4, ?_⟩
      rw [Fs.walk, hw.prefix (hp.trans h4) h3]
      simp only
      rw [← hs]
      exact h5
  unfold Fs.locate
  rw [if_neg h0, if_neg hcl.1, loc_segs]
  refine (hwalk _ _ (fun s hs => ?_) ?_ (by rw [← loc_segs]; exact hd)).2
  · exact splitSlash_mem hs
  · intro h
    refine hcl.2 ?_
    unfold Path.comps
    exact List.mem_append_right _ (List.mem_filter.mpr ⟨h, by decide⟩)

/-- Why a checkout of `k` to `path` may panic: the path is not below the built-in directory, a directory of the stored tree has a dangling link where it is checked out,
or `k` is data that look like a file. -/
def CheckoutCause (db : Db) (a0 : AtFn) (cwd : List Bytes) (k : Key) (path : Path) : Prop :=
  Path.startsWith path sGuard = false ∨ (∃ rel m, Comes db k rel true ∧ a0 (loc cwd path ++ rel ++ [m]) = some .broken) ∨ FakeFile db k

theorem startsWith_join {p g : Path} {n : Bytes} (hn : okName n) (h : Path.startsWith p g = true) : Path.startsWith (Path.join p n) g = true := by
  rw [startsWith_iff] at h ⊢
  rw [comps_join hn.comp]
  exact h.trans (List.prefix_append _ _)

theorem acceptedNames_panic {fs : Fs} {filter : Filter} {path : Path} {l : List Bytes} (h : acceptedNames fs filter path l = .panic) : ∃ n ∈ l, filter fs (Path.join path n) = .panic := by
  revert h
  induction l with
  | nil => exact nofun
  | cons x l ih =>
    unfold acceptedNames
    refine res_bind_panic (fun h => ⟨x, by simp, h⟩) fun b _ => res_bind_panic (fun h => ?_) fun _ _ => nofun
    obtain ⟨n, h1, h2⟩ := ih h
    exact ⟨n, by simp [h1], h2⟩

theorem calm_removeExtra {p : Path} (hg : Path.startsWith p sGuard = true) (n : Bytes) : Calm (removeExtra p n) := by
  unfold removeExtra
  rw [if_pos hg]
  refine calm_bind (calm_read fun fs => metadata_calm fs _) fun e => ?_
  split
  · exact calm_removeDirAll _
  · exact calm_removeFile _
  · exact calm_pure _

theorem only_of {σ α} {I : σ → Prop} {C : Prop} {x : SM σ α} {Q : α → Prop} (hp : Pres I x Q) (hc : Calm x) : Only I C x := fun s hs => ⟨(hp s hs).1, fun h => (hc s h).elim⟩

theorem typed_dir {db : Db} (ht : Typed db) {k : Key} {i : FsItem} (h : getItem db k = .ok i) (hd : i.itemtype = .dir) :
    (∀ n ∈ i.names, okName n ∨ i.children = []) ∧ ∀ c ∈ i.children, LeadsTo db c IsItem := by
  obtain ⟨o, h1, h2, h3⟩ := item_shape ht.closed h
  have ht' := ht.typed k o h1
  unfold WellTyped at ht'
  rcases h3 with ⟨_, h4⟩ | ⟨_, h4, _⟩ | ⟨h3, _, h4⟩
  · exact ⟨fun _ _ => .inr h4, by rw [h4]; simp⟩
  · rw [h4] at hd; simp at hd
  · rw [h3] at ht'
    obtain ⟨g1, i', g2, _, g3⟩ := ht'
    rw [h2] at g2
    simp at g2
    subst g2
    exact ⟨fun n hn => .inl (g3.1 n hn), by rw [h4]; exact g1⟩

theorem checkout_only {db : Db} (ht : Typed db) {glob : Path → Bool} {folder : Path} (hf0 : folder ≠ []) (hfcl : Clean folder) {iter : List Bytes → List Bytes} (hiter : ∀ l, ∀ x ∈ iter l, x ∈ l)
    {cwd : List Bytes} {a0 : AtFn} (fuel : Nat) (k : Key) (path : Path) (hcl : Clean path) {S : List Bytes → Prop} (hD : S (loc cwd folder))
    (hS : ∀ u, S u → ∀ n, (loc cwd path ++ [n]) <+: u → loc cwd folder <+: loc cwd path ++ [n]) :
    Only (TreeInv cwd (Tame S a0)) (CheckoutCause db a0 cwd k path) (checkoutFsItem db (makeFilter glob folder) iter fuel k path) := by
  induction fuel generalizing k path S with
  | zero => exact only_lift nofun
  | succ fuel ih =>
    unfold checkoutFsItem
    refine only_bind (only_lift fun h => (getItem_calm db k h).elim) fun i s s' _ hi => ?_
    have hi : getItem db k = .ok i := by simpa using congrArg Prod.fst hi
    cases hty : i.itemtype with
    | file =>
      simp only
      have hcr : Pres (TreeInv cwd (Tame S a0)) (Fs.create path) (fun f => f = loc cwd path) := by
        refine pres_create' hcl fun a md d n ha hq hn hd hf => ?_
        rw [hq] at hf ⊢
        exact ha.make hn hd hf _ _
      refine only_bind (only_of hcr (calm_create path)) fun f s s' hs hf => ?_
      have hf : f = loc cwd path := (hcr s hs).2 f (by rw [hf])
      subst hf
      refine only_ite (fun _ => ?_) fun h => only_panic (.inl (by simpa using h))
      obtain ⟨o, h1, h2, h3⟩ := item_shape ht.closed hi
      have ht' := ht.typed k o h1
      unfold WellTyped at ht'
      rcases h3 with ⟨h3, h4⟩ | ⟨h3, _, ck, h4, h5⟩ | ⟨_, h4, _⟩
      · rw [h4]
        exact only_panic (.inr (.inr ⟨o, i, h1, h3, h2, hty⟩))
      · rw [h3] at ht'
        obtain ⟨ck', g1, g2⟩ := ht'
        have : ck = ck' := by rw [h5] at g1; simpa using g1
        subst this
        rw [h4]
        refine only_of (Q := fun _ => True) (pres_readDataTo db (fun d => pres_writeAll (fun a c md d ha hf => ha.write hf) d) _ _) fun s e => ?_
        obtain ⟨t, ht1, ht2⟩ := leads_unique g2 (readDataTo_panic ht (fun d => calm_writeAll _ d) _ ck s e)
        rcases ht1 with rfl | rfl <;> rcases ht2 with ht2 | ht2 <;> simp at ht2
      · rw [h4] at hty; simp at hty
    | dir =>
      simp only
      obtain ⟨hnm, hch⟩ := typed_dir ht hi hty
      intro fs hfs
      rw [SM.bind_apply, SM.read_apply]
      cases g1 : fs.readDir path with
      | err e => exact ⟨hfs, nofun⟩
      | fuel => exact ⟨hfs, nofun⟩
      | panic => exact (readDir_calm _ _ g1).elim
      | ok all =>
        obtain ⟨hl, hd, rfl⟩ := readDir_ok g1
        simp only
        rw [SM.bind_apply, SM.read_apply]
        have hw := hfs.2.wf
        have hfolder : ∃ e, fs.metadata folder = .ok e := by
          have hdir := hfs.2.dirs _ hD
          rw [← hfs.1] at hdir
          exact ⟨.dir, metadata_of (locate_clean hw hf0 hfcl hdir) hdir (by simp)⟩
        cases g2 : acceptedNames fs (makeFilter glob folder) path (fs.names (loc fs.cwd path)) with
        | err e => exact ⟨hfs, nofun⟩
        | fuel => exact ⟨hfs, nofun⟩
        | panic =>
          refine ⟨hfs, fun _ => .inr (.inl ?_)⟩
          obtain ⟨n, h1, h2⟩ := acceptedNames_panic g2
          rcases makeFilter_panic h2 with h2 | h2
          · have hn : okName n := hfs.2.names _ _ (mem_names.mp h1)
            refine ⟨[], n, by have := Comes.here hi; rwa [hty] at this, ?_⟩
            rw [List.append_nil]
            rw [hfs.1] at h1
            cases ha : fs.at (loc cwd path ++ [n]) with
            | none => exact absurd ha (mem_names.mp h1)
            | some e =>
              by_cases hb : e = .broken
              · exact hfs.2.links _ (by rw [ha, hb])
              · refine (h2 ⟨e, ?_⟩).elim
                have hj := loc_join fs.cwd path hn
                refine metadata_of (locate_join_ok hn hl hd) ?_ hb
                rw [hj, hfs.1]; exact ha
          · exact (h2 hfolder).elim
        | ok mine =>
          have hmine := acceptedNames_ok g2
          simp only
          rw [hfs.1] at hd
          let S' : List Bytes → Prop := fun q => S q ∨ q = loc cwd path
          have hstart : TreeInv cwd (Tame S' a0) fs := ⟨hfs.1, hw, hfs.2.names, fun u hu => hu.elim (hfs.2.dirs u) fun h => h ▸ hd, hfs.2.links⟩
          have main : Only (TreeInv cwd (Tame S' a0)) (CheckoutCause db a0 cwd k path) (do
              SM.each (removeExtra path) (iter (mine.filter fun x => !(i.names.any fun y => Path.comps y == Path.comps x)))
              SM.each (fun (c : Key × Path) => do
                Fs.createDirAll path
                checkoutFsItem db (makeFilter glob folder) iter fuel c.1 (Path.join path c.2)) (i.children.zip i.names)) := by
            refine only_bind (only_each fun m hm => ?_) fun _ _ _ _ _ => only_each fun c hc => only_bind ?_ fun _ _ _ _ _ => ?_
            · have hm1 := (List.mem_filter.mp (hiter _ _ hm)).1
              obtain ⟨hm3, hm4⟩ := (hmine m).mp hm1
              have hmok : okName m := hfs.2.names _ _ (mem_names.mp hm3)
              cases hg : Path.startsWith path sGuard with
              | false =>
                unfold removeExtra
                rw [if_neg (by rw [hg]; simp)]
                exact only_panic (.inl hg)
              | true =>
                have hrej : ¬ loc cwd folder <+: loc cwd path ++ [m] := by
                  have := makeFilter_accepts hm4
                  rw [hfs.1] at this
                  unfold accepts at this
                  rw [loc_join _ _ hmok] at this
                  have := (Bool.and_eq_true_iff.mp this.symm).1
                  rw [← List.isPrefixOf_iff_prefix]
                  rw [Bool.not_eq_true'] at this
                  rw [this]
                  exact Bool.false_ne_true
                have hfr : ∀ q, S' q → ¬ (loc cwd path ++ [m]) <+: q := by
                  intro q hq hp
                  rcases hq with hq | rfl
                  · exact hrej (hS q hq m hp)
                  · have := hp.length_le; simp at this; omega
                refine only_of (pres_removeExtra hmok ?_ ?_) (calm_removeExtra hg m)
                · intro a k ha hk hk'
                  refine ha.keep (atWf_keep ha.wf hk') fun u hu => ?_
                  cases hkq : k u with
                  | true => rfl
                  | false => exact absurd (hk u hkq) (hfr u hu)
                · intro a k ha hk hnd
                  refine ha.keep (fun q x h => ?_) fun u hu => ?_
                  · unfold keep at h ⊢
                    split at h
                    · have := ha.wf q x h
                      rw [if_pos]
                      · exact this
                      · cases hkq : k q with
                        | true => rfl
                        | false => rw [hk q hkq] at this; exact absurd this hnd
                    · simp at h
                  · cases hkq : k u with
                    | true => rfl
                    | false => exact absurd (by rw [hk u hkq]; exact List.prefix_refl _) (hfr u hu)
            · refine only_of (Q := fun _ => True) (fun f hf => ?_) (calm_createDirAll _)
              have hdd : f.at (loc f.cwd path) = some .dir := by rw [hf.1]; exact hf.2.dirs _ (.inr rfl)
              obtain ⟨sa, sc⟩ := createDirAll_same hf.2.wf hcl.2 hdd
              exact ⟨⟨sc.trans hf.1, by rw [sa]; exact hf.2⟩, fun _ _ => trivial⟩
            · obtain ⟨hc1, hc2⟩ := List.of_mem_zip hc
              have hok : okName c.2 := by
                rcases hnm _ hc2 with h | h
                · exact h
                · rw [h] at hc1; simp at hc1
              have hloc : loc cwd (Path.join path c.2) = loc cwd path ++ [c.2] := loc_join _ _ hok
              refine (ih c.1 (Path.join path c.2) (clean_joins (ns := [c.2]) hcl (by simpa using hok)) (S := S') (.inl hD) ?_).imp ?_
              · intro u hu n hp
                rw [hloc] at hp ⊢
                rcases hu with hu | rfl
                · exact (hS u hu c.2 ((List.prefix_append _ _).trans hp)).trans (List.prefix_append _ _)
                · have := hp.length_le; simp at this; omega
              · rintro (h | ⟨rel, m, h1, h2⟩ | ⟨o, i', h1, h2, _⟩)
                · left
                  cases hg : Path.startsWith path sGuard with
                  | false => rfl
                  | true => rw [startsWith_join hok hg] at h; simp at h
                · rw [hloc] at h2
                  exact .inr (.inl ⟨c.2 :: rel, m, .down hi hty hc h1, by simpa using h2⟩)
                · obtain ⟨o', g1, g2⟩ := hch _ hc1
                  rw [g1] at h1
                  simp at h1
                  subst h1
                  rcases g2 with g2 | g2 <;> rw [g2] at h2 <;> simp at h2
          obtain ⟨m1, m2⟩ := main fs hstart
          exact ⟨⟨m1.1, m1.2.wf, m1.2.names, fun u hu => m1.2.dirs u (.inl hu), m1.2.links⟩, m2⟩

theorem folder_dir {X : Ctx} {w : World} {R : Repo} {q : List Bytes} (hw : w.fs.Wf) (ho : Opens X w R q) : w.fs.at (loc w.fs.cwd R.folder) = some .dir := by
  obtain ⟨e, he⟩ := opens_folder ho
  obtain ⟨h1, h2, h3⟩ := metadata_ok he
  have h := ho.2.2
  unfold openDb at h
  have hn : okName sDbFile := by decide
  rw [locate_join w.fs (locate_ne_nil h1) hn, h1, Res.ok_bind, Fs.enter, h2] at h
  cases e with
  | dir => exact h2
  | _ => simp at h

/-- **C79**: `checkout` panics only if the newest entry of HEAD is not a commit, or the repository is not below the directory that is built into the program, or a dangling link is
in a directory that the commit has too. (The database folder has a plain name.) -/
theorem C79_checkout (X : Ctx) (hi : ∀ l, ∀ x ∈ X.iterNames l, x ∈ l) (w : World) (hs : w.Sound X.E.H) (hw : w.fs.Wf) (R : Repo) (q : List Bytes) (hc : NoColl X.E.H (w.dbs q))
    (ho : Opens X w R q) (hplain : okName X.dbPath) (h : (mainRun X .checkout w).1 = .panicked) :
    BadHead (w.dbs q) ∨ Path.startsWith R.root sGuard = false ∨ ∃ k c rel m, getHeadKey (w.dbs q) = .ok k ∧ Commit.fromKey (w.dbs q) k = .ok c ∧ Comes (w.dbs q) c.tree rel true ∧
      w.fs.at (loc w.fs.cwd R.root ++ rel ++ [m]) = some .broken := by
  have ht := typed_of hs q hc
  obtain ⟨up, down, _, e2, e3, hu, hl1, hl2, hcr, hup⟩ := opens_plain hw ho hplain
  have hd := folder_dir hw ho
  have hfcl : Clean R.folder := by
    rw [e2]
    refine clean_abs fun n hn => ?_
    rcases List.mem_append.mp hn with h | h
    · exact hu n h
    · simp only [List.mem_singleton] at h; rw [h]; exact hplain
  rw [panic_open (by simp) ho] at h
  revert h
  refine readDb_bind_panic (fun h => (getHeadKey_calm _ h).elim) fun k hk => readDb_bind_panic (fun h => .inl ⟨k, hk, fromKey_panic ht.closed h⟩) fun c hc => ?_
  intro h
  have h : (checkoutFsItem (w.dbs q) (makeFilter X.glob R.folder) X.iterNames X.depth c.tree R.root w.fs).1 = .panic := h
  have hf0 : R.folder ≠ [] := by obtain ⟨e, he⟩ := opens_folder ho; exact locate_ne_nil (metadata_ok he).1
  have hS : ∀ u, u = loc w.fs.cwd R.folder → ∀ n, (loc w.fs.cwd R.root ++ [n]) <+: u → loc w.fs.cwd R.folder <+: loc w.fs.cwd R.root ++ [n] := by
    rintro u rfl n hp
    rw [hl1, hl2] at hp ⊢
    rw [hp.eq_of_length (by simp)]
    exact List.prefix_refl _
  rcases (checkout_only ht hf0 hfcl hi X.depth c.tree R.root hcr (cwd := w.fs.cwd) (a0 := w.fs.at) (S := fun u => u = loc w.fs.cwd R.folder) rfl hS w.fs
    ⟨rfl, wf_atWf hw, wf_atNames hw, fun u hu => hu ▸ hd, fun _ h => h⟩).2 h with g | ⟨rel, m, g1, g2⟩ | ⟨o, i, g1, g2, g3, g4⟩
  · exact .inr (.inl g)
  · exact .inr (.inr ⟨k, c, rel, m, hk, hc, g1, g2⟩)
  · exfalso
    revert h
    cases hX : X.depth with
    | zero => exact nofun
    | succ n =>
      have hit : getItem (w.dbs q) c.tree = .ok i := by simp only [getItem]; rw [g1, Res.ok_bind]; exact g3
      unfold checkoutFsItem
      refine bind_panic (fun h => (getItem_calm _ _ h).elim) fun i' s' e => ?_
      obtain ⟨e1, rfl⟩ : getItem (w.dbs q) c.tree = .ok i' ∧ w.fs = s' := by simpa using e
      rw [hit] at e1
      simp at e1
      subst e1
      rw [g4]
      refine bind_panic (fun h => (calm_create _ _ h).elim) fun f s hcre => ?_
      obtain ⟨rfl, _, hno, _⟩ := create_ok hcr hcre
      rw [hl1, hup] at hno
      simp at hno

/-- **C79**, the first cause: it is always one. -/
theorem C79_bad_head (X : Ctx) (w : World) (hs : w.Reachable X.E.H) (R : Repo) (q : List Bytes) (ho : Opens X w R q) (h : BadHead (w.dbs q)) : (mainRun X .checkout w).1 = .panicked := by
  obtain ⟨k, hk, hl⟩ := h
  have hp : Commit.fromKey (w.dbs q) k = .panic := by
    rcases fromKey_cases (World.Reachable.closed hs q) k with ⟨c, _, h⟩ | ⟨h, _⟩
    · exact absurd h hl
    · exact h
  rw [panic_open (by simp) ho]
  show (cmdCheckout X R (startOf w q)).1 = _
  unfold cmdCheckout
  rw [readDb_bind, show getHeadKey (startOf w q).db = .ok k from hk]
  refine (congrArg Prod.fst (readDb_bind _ _ _)).trans ?_
  rw [show Commit.fromKey (startOf w q).db k = .panic from hp]

theorem each_ok {σ α} {f : α → SM σ Unit} {l : List α} {s s' : σ} (h : SM.each f l s = (.ok (), s')) : ∀ a ∈ l, ∃ t t', f a t = (.ok (), t') := by
  induction l generalizing s with
  | nil => simp
  | cons x l ih =>
    obtain ⟨_, s1, h1, h2⟩ := bind_ok (x := f x) (f := fun _ => SM.each f l) h
    intro a ha
    rcases List.mem_cons.mp ha with rfl | ha
    · exact ⟨s, s1, h1⟩
    · exact ih h2 a ha

/-- A checkout that ends well comes to files only below the built-in directory. -/
theorem checkout_guard {db : Db} {filter : Filter} {iter : List Bytes → List Bytes} {fuel : Nat} {k : Key} {path : Path} {fs fs' : Fs}
    (h : checkoutFsItem db filter iter fuel k path fs = (.ok (), fs')) {rel : List Bytes} (hr : Comes db k rel false) : Path.startsWith (joins path rel) sGuard = true := by
  induction fuel generalizing k path fs fs' rel with
  | zero => simp [checkoutFsItem] at h
  | succ fuel ih =>
    unfold checkoutFsItem at h
    obtain ⟨i, s1, h1, h2⟩ := bind_ok h
    obtain ⟨h1', rfl⟩ : getItem db k = .ok i ∧ fs = s1 := by simpa using h1
    clear h1
    generalize hb : false = b at hr
    cases hr with
    | here hi =>
      rw [h1'] at hi
      simp at hi
      subst hi
      cases hty : i.itemtype with
      | dir => rw [hty] at hb; simp at hb
      | file =>
        rw [hty] at h2
        obtain ⟨f, s2, _, h3⟩ := bind_ok h2
        cases hg : Path.startsWith path sGuard with
        | true => simpa using hg
        | false => rw [hg] at h3; simp at h3
    | down hi hty hc hrest =>
      subst hb
      rw [h1'] at hi
      simp at hi
      subst hi
      rw [hty] at h2
      obtain ⟨all, s2, _, h3⟩ := bind_ok h2
      obtain ⟨mine, s3, _, h4⟩ := bind_ok h3
      obtain ⟨_, s4, _, h5⟩ := bind_ok h4
      obtain ⟨t, t', h6⟩ := each_ok h5 _ hc
      obtain ⟨_, t1, _, h7⟩ := bind_ok h6
      rw [joins_cons]
      exact ih h7 hrest

/-- **C79**, the second cause: outside the built-in directory no checkout of a commit with a file ends well. More exactly, all files of a commit that is checked out without
error are below it. -/
theorem C79_guard (X : Ctx) (w : World) (R : Repo) (q : List Bytes) (ho : Opens X w R q) {k : Key} {c : Commit} (h1 : getHeadKey (w.dbs q) = .ok k) (h2 : Commit.fromKey (w.dbs q) k = .ok c)
    (h : (mainRun X .checkout w).1 = .success) {rel : List Bytes} (hr : Comes (w.dbs q) c.tree rel false) : Path.startsWith (joins R.root rel) sGuard = true := by
  rw [mainRun_open (by simp) ho] at h
  have h : (Command.checkout.inRepo X R (startOf w q)).1 = .ok () := by
    revert h
    show exitOf (Command.checkout.inRepo X R (startOf w q)).1 _ = _ → _
    cases (Command.checkout.inRepo X R (startOf w q)).1 <;> simp [exitOf]
  rw [checkout_run X R (startOf w q) h1 h2] at h
  exact checkout_guard (Prod.ext h rfl : checkoutFsItem (w.dbs q) (makeFilter X.glob R.folder) X.iterNames X.depth c.tree R.root w.fs = (.ok (), _)) hr

/-- **C79**: the built-in directory: a path is below it iff its first components are `/`, `home`, `jess`, `src`, `snapcd`, `repo`. -/
theorem C79_below (p : Path) : Path.startsWith p sGuard = true ↔ ∃ rest, p.comps = ["/", "home", "jess", "src", "snapcd", "repo"].map (fun s => s.toUTF8.data.toList) ++ rest := by
  have h : sGuard.comps = ["/", "home", "jess", "src", "snapcd", "repo"].map (fun s => s.toUTF8.data.toList) := by decide +kernel
  rw [Path.startsWith, List.isPrefixOf_iff_prefix, h]
  exact ⟨fun ⟨r, e⟩ => ⟨r, e.symm⟩, fun ⟨r, e⟩ => ⟨r, e.symm⟩⟩

/-- **C79**: outside the built-in directory, if something that is not left out is in the repository's directory but not in the commit, `checkout` panics before it changes anything. -/
theorem C79_extra (X : Ctx) (hi : ∀ l, (X.iterNames l).Perm l) (w : World) (R : Repo) (q : List Bytes) (ho : Opens X w R q) (hd : X.depth ≠ 0)
    (hg : Path.startsWith R.root sGuard = false) {k : Key} {c : Commit} {i : FsItem} (h1 : getHeadKey (w.dbs q) = .ok k) (h2 : Commit.fromKey (w.dbs q) k = .ok c)
    (h3 : getItem (w.dbs q) c.tree = .ok i) (h4 : i.itemtype = .dir) {all mine : List Bytes} (h5 : w.fs.readDir R.root = .ok all)
    (h6 : acceptedNames w.fs (makeFilter X.glob R.folder) R.root all = .ok mine) {x : Bytes} (h7 : x ∈ mine) (h8 : ∀ y ∈ i.names, Path.comps y ≠ Path.comps x) :
    (mainRun X .checkout w).1 = .panicked ∧ (mainRun X .checkout w).2.2.fs = w.fs := by
  obtain ⟨n, hn⟩ : ∃ n, X.depth = n + 1 := ⟨X.depth - 1, by omega⟩
  have hrun : checkoutFsItem (w.dbs q) (makeFilter X.glob R.folder) X.iterNames X.depth c.tree R.root w.fs = (.panic, w.fs) := by
    rw [hn]
    unfold checkoutFsItem
    rw [SM.bind_apply, SM.lift_apply, h3]
    simp only [h4]
    rw [SM.bind_apply, SM.read_apply, h5]
    simp only
    rw [SM.bind_apply, SM.read_apply, h6]
    simp only
    have hmem : x ∈ X.iterNames (mine.filter fun x => !(i.names.any fun y => Path.comps y == Path.comps x)) := by
      rw [(hi _).mem_iff, List.mem_filter]
      refine ⟨h7, ?_⟩
      simpa using h8
    cases he : X.iterNames (mine.filter fun x => !(i.names.any fun y => Path.comps y == Path.comps x)) with
    | nil => rw [he] at hmem; simp at hmem
    | cons a l =>
      have : SM.each (removeExtra R.root) (a :: l) w.fs = (.panic, w.fs) := by
        show (removeExtra R.root a >>= fun _ => SM.each (removeExtra R.root) l) w.fs = _
        rw [SM.bind_apply]
        unfold removeExtra
        rw [if_neg (by rw [hg]; simp)]
        rfl
      rw [SM.bind_apply, this]
  have hr := checkout_run X R (startOf w q) h1 h2
  have hr' : Command.checkout.inRepo X R (startOf w q) = (.panic, startOf w q) := by
    rw [hr]
    show ((checkoutFsItem (w.dbs q) (makeFilter X.glob R.folder) X.iterNames X.depth c.tree R.root w.fs).1,
      { startOf w q with fs := (checkoutFsItem (w.dbs q) (makeFilter X.glob R.folder) X.iterNames X.depth c.tree R.root w.fs).2 }) = _
    rw [hrun]
    rfl
  refine ⟨by rw [panic_open (by simp) ho, hr'], ?_⟩
  rw [mainRun_open (by simp) ho]
  show (Command.checkout.inRepo X R (startOf w q)).2.fs = _
  rw [hr']
  rfl

end Snap.Props
