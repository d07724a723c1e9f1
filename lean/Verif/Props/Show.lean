import Verif.Props.SameKey
import Verif.Props.DiffFs
import Verif.Props.History
import Verif.Props.Restore
import Verif.Props.Clean
import Verif.Props.Patch
import Verif.Props.Stat
/-! Properties C53 (the patches of a comparison) and C63 (what `show` prints about a commit). -/
namespace Snap.Props
open Snap
set_option linter.unusedSectionVars false
variable [Serde] [LawfulSerde]

/-! ### Patches -/

/-- The hunks of a list of changes (C53, C54). -/
def hunks (cs : List Change) : List Hunk := match hunksOf cs with | .ok hs => hs | _ => []
theorem hunksOf_eq (cs : List Change) : hunksOf cs = .ok (hunks cs) := by
  obtain ⟨rs, _, h⟩ := C53_hunks cs
  unfold hunks
  rw [h]

/-- The patch of a new file, of a removed file, of a changed file. -/
def newPatch (lib : DiffLib) (p : Path) (c : Bytes) : Patch := ⟨lib.lossy p, [⟨0, 0, 0, (strLines c).length, (strLines c).map .add⟩]⟩
def gonePatch (lib : DiffLib) (p : Path) (c : Bytes) : Patch := ⟨lib.lossy p, [⟨0, (strLines c).length, 0, 0, (strLines c).map .rem⟩]⟩
def changedPatch (lib : DiffLib) (p : Path) (before after : Bytes) : Patch := ⟨lib.lossy p, hunks (lib.changes (lib.lossy before) (lib.lossy after))⟩

theorem mapRes_err {α β} {f : α → Res β} {e : Err} {l : List α} (h : ∀ a ∈ l, (∃ b, f a = .ok b) ∨ f a = .err e) (hp : ∃ a ∈ l, f a = .err e) : mapRes f l = .err e := by
  induction l with
  | nil => simp at hp
  | cons a l ih =>
    unfold mapRes
    rcases h a (by simp) with ⟨b, hb⟩ | hb
    · rw [hb]
      obtain ⟨x, hx, hxp⟩ := hp
      rcases List.mem_cons.mp hx with rfl | hx
      · rw [hb] at hxp; simp at hxp
      · rw [Res.ok_bind, ih (fun a ha => h a (by simp [ha])) ⟨x, hx, hxp⟩]
        rfl
    · rw [hb]; rfl

theorem filePatches_ok {α} {isDir : α → Bool} {key : α → Option Key} {mk : α → Key → Res Patch} {l : List α} {g : α → Key → Patch}
    (h : ∀ e ∈ l, isDir e = false → ∀ k, key e = some k → mk e k = .ok (g e k)) :
    filePatches isDir key mk l = .ok ((l.filter fun e => !isDir e).filterMap fun e => (key e).map fun k => g e k) := by
  unfold filePatches
  rw [mapRes_ok (g := fun e => (key e).map fun k => g e k)]
  · simp [List.filterMap_map]
  · intro e he
    obtain ⟨h1, h2⟩ := List.mem_filter.mp he
    cases hk : key e with
    | none => rfl
    | some k => simp [h e h1 (by simpa using h2) k hk]

theorem filePatches_err {α} {isDir : α → Bool} {key : α → Option Key} {mk : α → Key → Res Patch} {l : List α} {er : Err}
    (h : ∀ e ∈ l, isDir e = false → ∀ k, key e = some k → (∃ p, mk e k = .ok p) ∨ mk e k = .err er)
    (hx : ∃ e ∈ l, isDir e = false ∧ ∃ k, key e = some k ∧ mk e k = .err er) : filePatches isDir key mk l = .err er := by
  unfold filePatches
  rw [mapRes_err (e := er)]
  · rfl
  · intro e he
    obtain ⟨h1, h2⟩ := List.mem_filter.mp he
    cases hk : key e with
    | none => exact Or.inl ⟨_, rfl⟩
    | some k => rcases h e h1 (by simpa using h2) k hk with ⟨p, hp⟩ | hp <;> simp [hp]
  · obtain ⟨e, he, hd, k, hk, hm⟩ := hx
    refine ⟨e, List.mem_filter.mpr ⟨he, by simp [hd]⟩, ?_⟩
    simp [hk, hm]

section
variable (lib : DiffLib) (db : Db) (n : Nat) (r : DiffResult) (cont : Key → Bytes)
    (ha : ∀ e ∈ r.added, e.isDir = false → ∀ k, e.newKey = some k → readAll db n k = .ok (cont k))
    (hd : ∀ e ∈ r.deleted, e.isDir = false → ∀ k, e.originalKey = some k → readAll db n k = .ok (cont k))
include ha hd

/-- **C53**: when the contents of all added and removed files can be read: if one of them is not UTF-8 text, no patch is made; otherwise, if all modified entries can be
read too, the patches are: the whole text of each added file, the whole text of each removed file, and for each modified file the hunks of the changes from the old to the
new contents. -/
theorem C53_patches :
    (((∃ e ∈ r.added, e.isDir = false ∧ ∃ k, e.newKey = some k ∧ utf8 (cont k) = false) ∨
      (∃ e ∈ r.deleted, e.isDir = false ∧ ∃ k, e.originalKey = some k ∧ utf8 (cont k) = false)) → createPatch lib db n r = .err .binaryPatch) ∧
    (((∀ e ∈ r.added, e.isDir = false → ∀ k, e.newKey = some k → utf8 (cont k) = true) ∧
      (∀ e ∈ r.deleted, e.isDir = false → ∀ k, e.originalKey = some k → utf8 (cont k) = true)) →
      ((∀ e ∈ r.modified, readAll db n e.originalKey = .ok (cont e.originalKey) ∧ readAll db n e.newKey = .ok (cont e.newKey)) →
        createPatch lib db n r = .ok (
          ((r.added.filter fun e => !e.isDir).filterMap fun e => e.newKey.map fun k => newPatch lib e.path (cont k)) ++
          ((r.deleted.filter fun e => !e.isDir).filterMap fun e => e.originalKey.map fun k => gonePatch lib e.path (cont k)) ++
          r.modified.map fun e => changedPatch lib e.path (cont e.originalKey) (cont e.newKey))) ∧
      ((∀ e ∈ r.modified, readAll db n e.originalKey = .panic ∨ readAll db n e.originalKey = .ok (cont e.originalKey)) →
        (∀ e ∈ r.modified, readAll db n e.newKey = .panic ∨ readAll db n e.newKey = .ok (cont e.newKey)) →
        (∃ e ∈ r.modified, readAll db n e.originalKey = .panic ∨ readAll db n e.newKey = .panic) → createPatch lib db n r = .panic)) := by
  have hA : ∀ e ∈ r.added, e.isDir = false → ∀ k, e.newKey = some k → addedPatch lib db n e.path k = if utf8 (cont k) then .ok (newPatch lib e.path (cont k)) else .err .binaryPatch := by
    intro e he h k hk
    unfold addedPatch
    rw [ha e he h k hk]
    rfl
  have hD : ∀ e ∈ r.deleted, e.isDir = false → ∀ k, e.originalKey = some k → removedPatch lib db n e.path k = if utf8 (cont k) then .ok (gonePatch lib e.path (cont k)) else .err .binaryPatch := by
    intro e he h k hk
    unfold removedPatch
    rw [hd e he h k hk]
    rfl
  have hA' : ∀ e ∈ r.added, e.isDir = false → ∀ k, e.newKey = some k → (∃ p, addedPatch lib db n e.path k = .ok p) ∨ addedPatch lib db n e.path k = .err .binaryPatch := by
    intro e he h k hk
    rw [hA e he h k hk]
    split
    · exact Or.inl ⟨_, rfl⟩
    · exact Or.inr rfl
  have hD' : ∀ e ∈ r.deleted, e.isDir = false → ∀ k, e.originalKey = some k → (∃ p, removedPatch lib db n e.path k = .ok p) ∨ removedPatch lib db n e.path k = .err .binaryPatch := by
    intro e he h k hk
    rw [hD e he h k hk]
    split
    · exact Or.inl ⟨_, rfl⟩
    · exact Or.inr rfl
  have hAok : (∀ e ∈ r.added, e.isDir = false → ∀ k, e.newKey = some k → utf8 (cont k) = true) →
      filePatches Added.isDir Added.newKey (fun x k => addedPatch lib db n x.path k) r.added = .ok _ := fun hu =>
    filePatches_ok (g := fun (e : Added) k => newPatch lib e.path (cont k)) (fun e he h k hk => by show addedPatch lib db n e.path k = _; rw [hA e he h k hk, if_pos (hu e he h k hk)])
  unfold createPatch
  constructor
  · intro h
    by_cases hb : ∃ e ∈ r.added, e.isDir = false ∧ ∃ k, e.newKey = some k ∧ utf8 (cont k) = false
    · rw [filePatches_err (er := .binaryPatch) hA']
      · rfl
      · obtain ⟨e, he, h1, k, hk, hu⟩ := hb
        exact ⟨e, he, h1, k, hk, by rw [hA e he h1 k hk, hu]; rfl⟩
    · have hu : ∀ e ∈ r.added, e.isDir = false → ∀ k, e.newKey = some k → utf8 (cont k) = true := by
        intro e he h1 k hk
        cases hu : utf8 (cont k) with
        | true => rfl
        | false => exact (hb ⟨e, he, h1, k, hk, hu⟩).elim
      rw [hAok hu, Res.ok_bind, filePatches_err (er := .binaryPatch) hD']
      · rfl
      · rcases h with h | ⟨e, he, h1, k, hk, hu⟩
        · exact (hb h).elim
        · exact ⟨e, he, h1, k, hk, by rw [hD e he h1 k hk, hu]; rfl⟩
  · rintro ⟨hu, hu'⟩
    rw [hAok hu, Res.ok_bind, filePatches_ok (g := fun (e : Deleted) k => gonePatch lib e.path (cont k))
      (fun e he h k hk => by show removedPatch lib db n e.path k = _; rw [hD e he h k hk, if_pos (hu' e he h k hk)]), Res.ok_bind]
    have hM : ∀ e, readAll db n e.originalKey = .ok (cont e.originalKey) → readAll db n e.newKey = .ok (cont e.newKey) →
        modifiedPatch lib db n e = .ok (changedPatch lib e.path (cont e.originalKey) (cont e.newKey)) := by
      intro e h1 h2
      unfold modifiedPatch patchFrom
      simp only [h1, h2, Res.unwrap, Res.ok_bind, hunksOf_eq]
      rfl
    constructor
    · intro hm
      rw [mapRes_ok (f := modifiedPatch lib db n) (g := fun e => changedPatch lib e.path (cont e.originalKey) (cont e.newKey)) _
        (fun e he => hM e (hm e he).1 (hm e he).2)]
      rfl
    · intro hm1 hm2 hx
      rw [mapRes_panic (f := modifiedPatch lib db n)]
      · rfl
      · intro e he
        rcases hm1 e he with h | h
        · right; unfold modifiedPatch; rw [h]; rfl
        · rcases hm2 e he with h' | h'
          · right; unfold modifiedPatch; rw [h]; simp [Res.unwrap, h']
          · exact Or.inl ⟨_, hM e h h'⟩
      · obtain ⟨e, he, h⟩ := hx
        refine ⟨e, he, ?_⟩
        unfold modifiedPatch
        rcases h with h | h
        · rw [h]; rfl
        · rcases hm1 e he with h' | h' <;> rw [h'] <;> simp [Res.unwrap, h]
end

/-- A visible file that is new and not UTF-8 text. -/
def NewBinary (s : Src) (s' : Option Src) : Prop := ∃ rel c, rel ≠ [] ∧ VisFile s.fs s.filter s.path rel c ∧ (∀ b, ¬ ShownO s' rel b) ∧ utf8 c = false

/-- **C53** for snapshots of directories: with a new file that is not text, no patch is made; otherwise, with a modified directory, making the patches panics; otherwise they
are exactly: the whole text of each new file, and the hunks of each file with changed contents. -/
theorem C53_snapshots (E : Env) (lib : DiffLib) (db : Db) (ca : Cache) (k : Key) (t : Option Key) (s : Src) (s' : Option Src) (h1 : Snapshot E db k s.fs s.filter s.n s.path)
    (h2 : OptSnapshot E db t s') (hr1 : ReadO E (some s)) (hr2 : ReadO E s') (fs : Fs) (iter : Nat → List Path → List Path) (hi : IterOk iter)
    (n : Nat) (hn : 7 ≤ n) (hn1 : s.n ≤ n) (hn2 : DepthO n s') (r : DiffResult) (hr : (compare E fs iter n (.database k) t (db, ca)).1 = .ok r) :
    (NewBinary s s' → createPatch lib db n r = .err .binaryPatch) ∧
    (¬ NewBinary s s' → DirModified r (some s) s' → createPatch lib db n r = .panic) ∧
    (¬ NewBinary s s' → ¬ DirModified r (some s) s' → ∃ l, createPatch lib db n r = .ok l ∧ ∀ x, x ∈ l ↔
      (∃ rel c, rel ≠ [] ∧ VisFile s.fs s.filter s.path rel c ∧ (∀ b, ¬ ShownO s' rel b) ∧ x = newPatch lib (relPath rel) c) ∨
      (∃ rel c c', rel ≠ [] ∧ VisFile s.fs s.filter s.path rel c ∧ VisO s' rel c' ∧ c ≠ c' ∧ x = changedPatch lib (relPath rel) c' c)) := by
  obtain ⟨cont, hdel, ha, hadd, hm1, hm2, hpan, hok⟩ := compare_entries E db ca k t s s' h1 h2 hr1 hr2 fs iter hi n hn hn1 hn2 r hr
  have hd : ∀ e ∈ r.deleted, e.isDir = false → ∀ k, e.originalKey = some k → readAll db n k = .ok (cont k) := by
    rw [hdel]; simp
  obtain ⟨p1, p2⟩ := C53_patches lib db n r cont ha hd
  have hbin : NewBinary s s' ↔ ∃ e ∈ r.added, e.isDir = false ∧ ∃ k, e.newKey = some k ∧ utf8 (cont k) = false := by
    have := hadd _ (fun _ c => utf8 c) false
    constructor
    · rintro ⟨rel, c, h0, hv, hn, hu⟩
      obtain ⟨e, he, hx⟩ := List.mem_filterMap.mp (this.mpr ⟨rel, c, h0, hv, hn, hu.symm⟩)
      obtain ⟨he, hdir⟩ := List.mem_filter.mp he
      cases hk : e.newKey with
      | none => rw [hk] at hx; simp at hx
      | some k => rw [hk] at hx; simp at hx; exact ⟨e, he, by simpa using hdir, k, hk, hx⟩
    · rintro ⟨e, he, hdir, k, hk, hu⟩
      obtain ⟨rel, c, h0, hv, hn, hx⟩ := this.mp (List.mem_filterMap.mpr ⟨e, List.mem_filter.mpr ⟨he, by simp [hdir]⟩, by rw [hk]; simp [hu]⟩)
      exact ⟨rel, c, h0, hv, hn, hx.symm⟩
  have hall : ¬ NewBinary s s' → (∀ e ∈ r.added, e.isDir = false → ∀ k, e.newKey = some k → utf8 (cont k) = true) ∧
      (∀ e ∈ r.deleted, e.isDir = false → ∀ k, e.originalKey = some k → utf8 (cont k) = true) := by
    intro hnb
    constructor
    · intro e he h1 k hk
      cases hu : utf8 (cont k) with
      | true => rfl
      | false => exact (hnb (hbin.mpr ⟨e, he, h1, k, hk, hu⟩)).elim
    · rw [hdel]; simp
  refine ⟨fun h => p1 (Or.inl (hbin.mp h)), fun hnb hdm => (p2 (hall hnb)).2 hm1 hm2 (hpan hdm), fun hnb hdm => ?_⟩
  obtain ⟨hm, hmod⟩ := hok hdm
  refine ⟨_, (p2 (hall hnb)).1 hm, fun x => ?_⟩
  rw [List.mem_append, List.mem_append, hdel, hadd _ (newPatch lib) x, hmod _ (changedPatch lib) x]
  simp

/-! ### What `show` prints about a commit -/

/-- Something visible in the parent's directory is not there any more. -/
def Removed (s : Src) (s' : Option Src) : Prop := ∃ rel b, ShownO s' rel b ∧ ∀ b', ¬ Shown s.fs s.filter s.path rel b'
/-- A file has become a directory, or the other way round. -/
def Retyped (s : Src) (s' : Option Src) : Prop := ∃ rel b, Shown s.fs s.filter s.path rel b ∧ ShownO s' rel !b
/-- A directory that is in both has other visible parts (C34). -/
def DirChanged (E : Env) (s : Src) (s' : Option Src) : Prop := ∃ x, s' = some x ∧ ∃ rel, Shown s.fs s.filter s.path rel true ∧ Shown x.fs x.filter x.path rel true ∧
  ¬ Alike E s.fs s.filter (joins s.path rel) x.fs x.filter (joins x.path rel)
/-- Files at the same place below the two directories are delivered in the same pieces. -/
def SameReads (E : Env) (s : Src) (s' : Option Src) : Prop := ∀ x, s' = some x → ∀ rel c, E.rd (joins s.path rel) c = E.rd (joins x.path rel) c

theorem visible_append {fs : Fs} {filter : Filter} {path : Path} {a b : List Bytes} :
    Visible fs filter path (a ++ b) ↔ Visible fs filter path a ∧ Visible fs filter (joins path a) b := by
  induction a generalizing path with
  | nil => simp [visible_nil]
  | cons x a ih => rw [List.cons_append, visible_cons, visible_cons, ih, joins_cons, and_assoc]

theorem Shown.names {s : Src} (hw : s.fs.Wf) {rel : List Bytes} {b : Bool} (h : Shown s.fs s.filter s.path rel b) : ∀ x ∈ rel, okName x := h.okNames hw

/-- A node of a snapshot was itself put. -/
theorem Walked.putIn {E : Env} {db : Db} {s : Src} {m : PMap (Key × Bool)} (w : Walked E db s.fs s.filter s.path m) (hw : s.fs.Wf) (hr : ReadO E (some s)) {rel : List Bytes} {b : Bool}
    (hs : Shown s.fs s.filter s.path rel b) {k : Key} (hk : (relPath rel, k, b) ∈ m) : ∃ n, PutIn E db k s.fs s.filter n (joins s.path rel) := by
  have hn := hs.okNames hw
  obtain ⟨n, hp⟩ := w.made rel k b hn hk
  refine ⟨n, hw, hp, ?_⟩
  rintro r c ⟨hv, hc⟩
  rw [loc_joins _ _ hn, List.append_assoc] at hc
  rw [← joins_append]
  exact hr s rfl (rel ++ r) c ⟨visible_append.mpr ⟨hs.2.1, hv⟩, hc⟩

theorem typed_unique {db : Db} {k : Key} (h : Typed db k true) (h' : Typed db k false) : False := by
  obtain ⟨o, h1, h2⟩ := h
  obtain ⟨o', h3, h4⟩ := h'
  rw [h1] at h3
  have := Res.ok.inj h3
  subst this
  rw [h2] at h4
  simp at h4

section
variable (E : Env) (db : Db) (ca : Cache) (k : Key) (t : Option Key) (s : Src) (s' : Option Src) (h1 : Snapshot E db k s.fs s.filter s.n s.path)
    (h2 : OptSnapshot E db t s') (hr1 : ReadO E (some s)) (hr2 : ReadO E s') (fs : Fs) (iter : Nat → List Path → List Path) (hi : IterOk iter)
    (n : Nat) (hn : 7 ≤ n) (hn1 : s.n ≤ n) (hn2 : DepthO n s')
include h1 h2 hr1 hr2 hi hn hn1 hn2

/-- The comparison of two snapshots panics iff something was removed. -/
theorem compare_removed : (Removed s s' → (compare E fs iter n (.database k) t (db, ca)).1 = .panic) ∧
    (¬ Removed s s' → ∃ r, (compare E fs iter n (.database k) t (db, ca)).1 = .ok r) := by
  obtain ⟨A, hA, wA⟩ := h1.walked hn1
  have wA := wA.side h1.wf hr1 hn
  obtain ⟨B, hB, wB⟩ := optSnapshot_side h2 hr2 hn hn2
  have hcmp := C49_exact E fs iter hi n k t db ca A B hA hB
  constructor
  · rintro ⟨rel, b, hs, hno⟩
    rw [hcmp.1]
    obtain ⟨kb, hkb⟩ := wB.shown _ _ hs
    refine ⟨_, hkb, ?_⟩
    rintro ⟨ka, b'⟩ hka
    obtain ⟨rel', e, y, hy, hs'⟩ := wA.only _ _ _ hka
    simp at hy
    subst hy
    have := relPath_inj (fun m hm => (wB.names _ _ hs m hm).comp) (fun m hm => (hs'.okNames h1.wf m hm).comp) e
    subst this
    exact hno b' hs'
  · intro hnr
    obtain ⟨r, h, _⟩ := hcmp.2 (by
      rintro ⟨p, kb, b⟩ he
      obtain ⟨rel, e, hs⟩ := wB.only _ _ _ he
      by_cases hx : ∃ b', Shown s.fs s.filter s.path rel b'
      · obtain ⟨b', hx⟩ := hx
        obtain ⟨ka, hka⟩ := wA.shown rel b' ⟨s, rfl, hx⟩
        exact ⟨_, by rw [show p = _ from e]; exact hka⟩
      · exact (hnr ⟨rel, b, hs, fun b' hb => hx ⟨b', hb⟩⟩).elim)
    exact ⟨r, by rw [h]⟩

/-- A directory is reported as modified iff something changed its kind or a directory has other visible parts. -/
theorem dirModified_iff (hsr : SameReads E s s') (r : DiffResult) (hr : (compare E fs iter n (.database k) t (db, ca)).1 = .ok r) :
    DirModified r (some s) s' ↔ Retyped s s' ∨ DirChanged E s s' := by
  obtain ⟨A, hA, wkA⟩ := h1.walked hn1
  have wA := wkA.side h1.wf hr1 hn
  have inj : ∀ {a b : List Bytes}, (∀ m ∈ a, okName m) → (∀ m ∈ b, okName m) → relPath a = relPath b → a = b :=
    fun ha hb h => relPath_inj (fun m hm => (ha m hm).comp) (fun m hm => (hb m hm).comp) h
  cases s' with
  | none =>
    constructor
    · rintro ⟨e, he, rel, ep, _⟩
      exfalso
      cases t with
      | some _ => exact h2.elim
      | none =>
        have hcmp := (C49_exact E fs iter hi n k none db ca A [] hA rfl).2 (by simp)
        obtain ⟨r', e', hex⟩ := hcmp
        rw [e'] at hr
        simp at hr
        subst hr
        obtain ⟨_, ⟨d, hd⟩, _⟩ := (hex.modified e).mp he
        simp at hd
    · rintro (⟨rel, b, _, x, hx, _⟩ | ⟨x, hx, _⟩) <;> simp at hx
  | some s' =>
    cases t with
    | none => exact h2.elim
    | some t =>
      have h2 : Snapshot E db t s'.fs s'.filter s'.n s'.path := h2
      obtain ⟨B, hB, wkB⟩ := h2.walked (hn2 s' rfl)
      have wB := wkB.side h2.wf hr2 hn
      have hB' : toItems db n (some t) = .ok B := hB
      have hcmp := C49_exact E fs iter hi n k (some t) db ca A B hA hB'
      have hex : Exact A B r := by
        by_cases hc : ∃ e ∈ B, ∀ v, (e.1, v) ∉ A
        · rw [hcmp.1 hc] at hr; simp at hr
        · obtain ⟨r', e, h⟩ := hcmp.2 (fun e he => Classical.byContradiction fun hn => hc ⟨e, he, fun v hv => hn ⟨v, hv⟩⟩)
          rw [e] at hr
          simp at hr
          subst hr
          exact h
      have keys : ∀ {rel : List Bytes} {ka kb : Key}, Shown s.fs s.filter s.path rel true → Shown s'.fs s'.filter s'.path rel true → (relPath rel, ka, true) ∈ A → (relPath rel, kb, true) ∈ B →
          (ka = kb ↔ Alike E s.fs s.filter (joins s.path rel) s'.fs s'.filter (joins s'.path rel)) := by
        intro rel ka kb hs hs' hka hkb
        obtain ⟨N, hp⟩ := wkA.putIn h1.wf hr1 hs hka
        obtain ⟨N', hp'⟩ := wkB.putIn h2.wf hr2 hs' hkb
        refine C34_iff E db ka kb s.fs s'.fs s.filter s'.filter N N' _ _ hp hp' fun r c => ?_
        rw [← joins_append, ← joins_append]
        exact hsr s' rfl (rel ++ r) c
      constructor
      · rintro ⟨e, he, rel, ep, hdir⟩
        obtain ⟨⟨d, e1⟩, ⟨d', e2⟩, hne⟩ := (hex.modified _).mp he
        obtain ⟨ra, ea, hs⟩ := wkA.only _ _ _ e1
        obtain ⟨rb, eb, hs'⟩ := wkB.only _ _ _ e2
        have := inj (hs.okNames h1.wf) (hs'.okNames h2.wf) (ea.symm.trans eb)
        subst this
        by_cases hdd : d' = !d
        · subst hdd
          exact Or.inl ⟨ra, d, hs, s', rfl, hs'⟩
        · have hdd : d' = d := by cases d <;> cases d' <;> simp_all
          subst hdd
          have hd : d' = true := by
            rcases hdir with ⟨x, hx, h⟩ | ⟨x, hx, h⟩
            · simp at hx
              subst hx
              have := inj (h.okNames h1.wf) (hs.okNames h1.wf) (ep.symm.trans ea)
              subst this
              exact hs.unique h
            · simp at hx
              subst hx
              have := inj (h.okNames h2.wf) (hs'.okNames h2.wf) (ep.symm.trans ea)
              subst this
              exact hs'.unique h
          subst hd
          rw [ea] at e1 e2
          exact Or.inr ⟨s', rfl, ra, hs, hs', fun hal => hne ((keys hs hs' e1 e2).mpr hal)⟩
      · rintro (⟨rel, b, hs, x, hx, hs'⟩ | ⟨x, hx, rel, hs, hs', hal⟩)
        · simp at hx
          subst hx
          obtain ⟨ka, hka⟩ := wkA.shown _ _ hs
          obtain ⟨kb, hkb⟩ := wkB.shown _ _ hs'
          refine ⟨⟨relPath rel, kb, ka⟩, (hex.modified _).mpr ⟨⟨_, hka⟩, ⟨_, hkb⟩, ?_⟩, rel, rfl, ?_⟩
          · intro heq
            simp only at heq
            subst heq
            have t1 := wkA.typed _ _ _ hka
            have t2 := wkB.typed _ _ _ hkb
            cases b with
            | true => exact typed_unique t1 t2
            | false => exact typed_unique t2 t1
          · cases b with
            | true => exact Or.inl ⟨s, rfl, hs⟩
            | false => exact Or.inr ⟨s', rfl, hs'⟩
        · simp at hx
          subst hx
          obtain ⟨ka, hka⟩ := wkA.shown _ _ hs
          obtain ⟨kb, hkb⟩ := wkB.shown _ _ hs'
          refine ⟨⟨relPath rel, kb, ka⟩, (hex.modified _).mpr ⟨⟨_, hka⟩, ⟨_, hkb⟩, ?_⟩, rel, rfl, Or.inl ⟨s, rfl, hs⟩⟩
          intro heq
          exact hal ((keys hs hs' hka hkb).mp heq)
end

/-- In the statistics of two snapshots every path occurs once. -/
theorem stat_paths (E : Env) (lib : DiffLib) (db : Db) (ca : Cache) (k : Key) (t : Option Key) (s : Src) (s' : Option Src) (h1 : Snapshot E db k s.fs s.filter s.n s.path)
    (h2 : OptSnapshot E db t s') (hr1 : ReadO E (some s)) (hr2 : ReadO E s') (fs : Fs) (iter : Nat → List Path → List Path) (hi : IterOk iter)
    (n : Nat) (hn : 7 ≤ n) (hn1 : s.n ≤ n) (hn2 : DepthO n s') (r : DiffResult) (hr : (compare E fs iter n (.database k) t (db, ca)).1 = .ok r)
    (hnd : ¬ DirModified r (some s) s') (l : List FileStat) (hl : lineStat lib db n r = .ok l) : (l.map FileStat.fname).Nodup ∧ ∀ x ∈ l, Path.norm x.fname = x.fname := by
  obtain ⟨cont, hdel, ha, hadd, hm1, hm2, hpan, hok⟩ := compare_entries E db ca k t s s' h1 h2 hr1 hr2 fs iter hi n hn hn1 hn2 r hr
  obtain ⟨hm, hmod⟩ := hok hnd
  have hd : ∀ e ∈ r.deleted, e.isDir = false → ∀ k, e.originalKey = some k → readAll db n k = .ok (cont k) := by
    rw [hdel]; simp
  have hx := C55_exact lib db n r cont ha hd hm
  rw [hl] at hx
  have hx := Res.ok.inj hx
  rw [hdel] at hx
  simp only [List.filter_nil, List.filterMap_nil, List.append_nil] at hx
  have names : ∀ {rel c}, rel ≠ [] → VisFile s.fs s.filter s.path rel c → ∀ m ∈ rel, okComp m := by
    intro rel c h0 hv m hm
    have : Shown s.fs s.filter s.path rel false := ⟨h0, hv.1, Or.inr ⟨rfl, c, hv.2⟩⟩
    exact (this.okNames h1.wf m hm).comp
  obtain ⟨o1, _, o3⟩ := C51_sorted E fs iter hi n (.database k) t (db, ca) _ r (Prod.ext hr rfl)
  have nod : ∀ {l : List Path}, l.Pairwise Path.lt → l.Nodup := fun h => h.imp fun hab e => by
    subst e; exact Path.lt_irrefl _ hab
  constructor
  · rw [hx, List.map_append, List.nodup_append]
    refine ⟨?_, ?_, ?_⟩
    · rw [List.map_filterMap]
      have e1 : ((r.added.filter fun e => !e.isDir).filterMap fun e => (e.newKey.map fun k => addedLines e.path (cont k)).map FileStat.fname).Sublist (r.added.map (·.path)) := by
        generalize r.added = la
        induction la with
        | nil => simp
        | cons e la ih =>
          by_cases hdir : e.isDir = true
          · simp only [List.filter_cons, hdir, Bool.not_true, Bool.false_eq_true, if_false, List.map_cons]
            exact ih.cons _
          · simp only [Bool.not_eq_true] at hdir
            simp only [List.filter_cons, hdir, Bool.not_false, if_true, List.map_cons, List.filterMap_cons]
            cases e.newKey with
            | none => exact ih.cons _
            | some k => exact ih.cons_cons _
      exact (nod o1).sublist e1
    · rw [List.map_map]
      exact nod o3
    · intro p hp p' hp' he
      subst he
      obtain ⟨x, hx1, rfl⟩ := List.mem_map.mp hp
      obtain ⟨y, hy, hxy⟩ := List.mem_map.mp hp'
      obtain ⟨rel, c, h0, hv, hno, rfl⟩ := (hadd _ addedLines x).mp hx1
      obtain ⟨rel', c', c'', h0', hv', hv'', _, rfl⟩ := (hmod _ (changedLines lib) y).mp hy
      have := relPath_inj (names h0' hv') (names h0 hv) hxy
      subst this
      exact hno false (hv''.shown h0)
  · intro x hxl
    rw [hx, List.mem_append] at hxl
    rcases hxl with h | h
    · obtain ⟨rel, c, h0, hv, hno, rfl⟩ := (hadd _ addedLines x).mp h
      exact norm_relPath (names h0 hv)
    · obtain ⟨rel', c', c'', h0', hv', hv'', _, rfl⟩ := (hmod _ (changedLines lib) x).mp h
      exact norm_relPath (names h0' hv')

/-- The commit `key`, with the directory it was made from and that of its first parent, if it has one. -/
structure CommitOf (E : Env) (db : Db) (n : Nat) (key : Key) (c : Commit) (s : Src) (s' : Option Src) : Prop where
  commit : Commit.fromKey db key = .ok c
  type : ∀ o, getObj db key = .ok o → o.objtype = .commit
  tree : Snapshot E db c.tree s.fs s.filter s.n s.path
  parent : (c.parents = [] ∧ s' = none) ∨ ∃ p ps c' x, c.parents = p :: ps ∧ Commit.fromKey db p = .ok c' ∧ s' = some x ∧ Snapshot E db c'.tree x.fs x.filter x.n x.path
  read : ReadO E (some s)
  read' : ReadO E s'
  same : SameReads E s s'
  depth : s.n ≤ n
  depth' : DepthO n s'

theorem CommitOf.before {E : Env} {db : Db} {n : Nat} {key : Key} {c : Commit} {s : Src} {s' : Option Src} (h : CommitOf E db n key c s s') :
    ∃ before, OptSnapshot E db before s' ∧ ((c.parents = [] ∧ before = none) ∨ ∃ p ps c', c.parents = p :: ps ∧ Commit.fromKey db p = .ok c' ∧ before = some c'.tree) := by
  rcases h.parent with ⟨h1, rfl⟩ | ⟨p, ps, c', x, h1, h2, rfl, h3⟩
  · exact ⟨none, trivial, Or.inl ⟨h1, rfl⟩⟩
  · exact ⟨some c'.tree, h3, Or.inr ⟨p, ps, c', h1, h2, rfl⟩⟩

/-- What is printed about the changes. -/
def changesOut (lib : DiffLib) (db : Db) (n : Nat) (kind : Kind) (r : DiffResult) : Res Out :=
  match kind with
  | .stat => (printedStat lib db n r).bind fun l => .ok (.stats l)
  | .patch => (createPatch lib db n r).bind fun l => .ok (.patches l)

theorem displayObj_run {E : Env} {lib : DiffLib} {fs : Fs} {iter : Nat → List Path → List Path} {n : Nat} {kind : Kind} {db : Db} {f : Nat} {k : Key} {c : Commit}
    (out : List Out) {before : Option Key} (hty : ∀ o, getObj db k = .ok o → o.objtype = .commit) (hk : Commit.fromKey db k = .ok c)
    (hb : (c.parents = [] ∧ before = none) ∨ ∃ p ps c', c.parents = p :: ps ∧ Commit.fromKey db p = .ok c' ∧ before = some c'.tree) :
    displayObj E lib fs iter n kind (f + 1) k (db, out) =
      match (compare E fs iter n (.database c.tree) before (db, {})).1.unwrap.bind (changesOut lib db n kind) with
      | .ok o => (.ok (), (db, out ++ [.commit k c.attrs.message, o]))
      | .err e => (.err e, (db, out ++ [.commit k c.attrs.message]))
      | .panic => (.panic, (db, out ++ [.commit k c.attrs.message]))
      | .fuel => (.fuel, (db, out ++ [.commit k c.attrs.message])) := by
  obtain ⟨ob, hg, hoc⟩ := fromKey_eq_ok.mp hk
  unfold displayObj
  simp only [SM.bind_apply, SM.read, hg, Res.unwrap, hty ob hg, SM.lift, hoc, say, SM.modify]
  generalize hx : compare E fs iter n (.database c.tree) before (db, {}) = X
  have h2 : ∀ out, SM.unwrap (compareDb E fs iter n (some c.tree) before) (db, out) = (X.1.unwrap, (db, out)) := by
    intro out
    have := compare_database_state E fs iter n c.tree before (db, {})
    rw [hx] at this
    simp only [SM.unwrap, compareDb, hx, this]
  have key : ∀ out : List Out, displayChanges E lib fs iter n kind c (db, out) =
      match X.1.unwrap.bind (changesOut lib db n kind) with
      | .ok o => (.ok (), (db, out ++ [o]))
      | .err e => (.err e, (db, out))
      | .panic => (.panic, (db, out))
      | .fuel => (.fuel, (db, out)) := by
    intro out
    have tail : ∀ r : DiffResult, (match kind with
        | .stat => (do let l ← SM.read (fun s : Db × List Out => printedStat lib s.1 n r); say (.stats l))
        | .patch => (do let l ← SM.read (fun s : Db × List Out => createPatch lib s.1 n r); say (.patches l)) : P Unit) (db, out) =
        match changesOut lib db n kind r with
        | .ok o => (.ok (), (db, out ++ [o]))
        | .err e => (.err e, (db, out))
        | .panic => (.panic, (db, out))
        | .fuel => (.fuel, (db, out)) := by
      intro r
      cases kind with
      | stat =>
        unfold changesOut
        simp only [SM.bind_apply, SM.read]
        cases printedStat lib db n r <;> rfl
      | patch =>
        unfold changesOut
        simp only [SM.bind_apply, SM.read]
        cases createPatch lib db n r <;> rfl
    unfold displayChanges
    rcases hb with ⟨hp, rfl⟩ | ⟨p, ps, c', hp, hc', rfl⟩
    · rw [hp]
      simp only [SM.bind_apply, SM.pure_apply, h2]
      cases X.1 with
      | ok r => exact tail r
      | _ => rfl
    · rw [hp]
      simp only [SM.bind_apply, SM.read, hc', SM.pure_apply, h2]
      cases X.1 with
      | ok r => exact tail r
      | _ => rfl
  rw [key]
  simp only [List.append_assoc]
  rfl

/-- **C63**: `show` of a commit, in terms of the directory it was made from and that of its first parent. It prints key and message. If something was removed since the
parent, it then panics. Otherwise, asked for patches, it fails if a new file is not text. Otherwise it panics if a file became a directory or the other way round, or if a
directory both have has other visible parts. Otherwise it succeeds and prints exactly the statistics (sorted by path) or the patches of the new and the changed files. -/
theorem C63_show (E : Env) (lib : DiffLib) (fs : Fs) (iter : Nat → List Path → List Path) (hi : IterOk iter) (n f : Nat) (hn : 7 ≤ n) (db : Db) (key : Key) (c : Commit) (s : Src)
    (s' : Option Src) (h : CommitOf E db n key c s s') (out : List Out) :
    (Removed s s' → ∀ kind, displayObj E lib fs iter n kind (f + 1) key (db, out) = (.panic, (db, out ++ [.commit key c.attrs.message]))) ∧
    (¬ Removed s s' → NewBinary s s' → displayObj E lib fs iter n .patch (f + 1) key (db, out) = (.err .binaryPatch, (db, out ++ [.commit key c.attrs.message]))) ∧
    (¬ Removed s s' → Retyped s s' ∨ DirChanged E s s' → ∀ kind, kind = .stat ∨ ¬ NewBinary s s' →
      displayObj E lib fs iter n kind (f + 1) key (db, out) = (.panic, (db, out ++ [.commit key c.attrs.message]))) ∧
    (¬ Removed s s' → ¬ Retyped s s' → ¬ DirChanged E s s' →
      (∃ l, displayObj E lib fs iter n .stat (f + 1) key (db, out) = (.ok (), (db, out ++ [.commit key c.attrs.message, .stats l])) ∧ (l.map FileStat.fname).Pairwise Path.lt ∧ ∀ x, x ∈ l ↔
        (∃ rel c, rel ≠ [] ∧ VisFile s.fs s.filter s.path rel c ∧ (∀ b, ¬ ShownO s' rel b) ∧ x = addedLines (relPath rel) c) ∨
        (∃ rel c c', rel ≠ [] ∧ VisFile s.fs s.filter s.path rel c ∧ VisO s' rel c' ∧ c ≠ c' ∧ x = changedLines lib (relPath rel) c' c)) ∧
      (¬ NewBinary s s' →
        ∃ l, displayObj E lib fs iter n .patch (f + 1) key (db, out) = (.ok (), (db, out ++ [.commit key c.attrs.message, .patches l])) ∧ ∀ x, x ∈ l ↔
          (∃ rel c, rel ≠ [] ∧ VisFile s.fs s.filter s.path rel c ∧ (∀ b, ¬ ShownO s' rel b) ∧ x = newPatch lib (relPath rel) c) ∨
          (∃ rel c c', rel ≠ [] ∧ VisFile s.fs s.filter s.path rel c ∧ VisO s' rel c' ∧ c ≠ c' ∧ x = changedPatch lib (relPath rel) c' c))) := by
  obtain ⟨before, hbs, hb⟩ := h.before
  have hrun := fun kind => displayObj_run (E := E) (lib := lib) (fs := fs) (iter := iter) (n := n) (kind := kind) (f := f) out h.type h.commit hb
  obtain ⟨hc1, hc2⟩ := compare_removed E db {} c.tree before s s' h.tree hbs h.read h.read' fs iter hi n hn h.depth h.depth'
  refine ⟨?_, ?_, ?_, ?_⟩
  · intro hr kind
    rw [hrun, hc1 hr]
    rfl
  · intro hr hbin
    obtain ⟨r, hr⟩ := hc2 hr
    have := (C53_snapshots E lib db {} c.tree before s s' h.tree hbs h.read h.read' fs iter hi n hn h.depth h.depth' r hr).1 hbin
    rw [hrun, hr]
    simp only [Res.unwrap, Res.bind, changesOut, this]
  · intro hr hd kind hk
    obtain ⟨r, hr⟩ := hc2 hr
    have hdm := (dirModified_iff E db {} c.tree before s s' h.tree hbs h.read h.read' fs iter hi n hn h.depth h.depth' h.same r hr).mpr hd
    rw [hrun, hr]
    cases kind with
    | stat =>
      have := (C55_printed lib db n r).2 ((C55_snapshots E lib db {} c.tree before s s' h.tree hbs h.read h.read' fs iter hi n hn h.depth h.depth' r hr).1 hdm)
      simp only [Res.unwrap, Res.bind, changesOut, this]
    | patch =>
      have := (C53_snapshots E lib db {} c.tree before s s' h.tree hbs h.read h.read' fs iter hi n hn h.depth h.depth' r hr).2.1 (hk.resolve_left (by simp)) hdm
      simp only [Res.unwrap, Res.bind, changesOut, this]
  · intro hr hd1 hd2
    obtain ⟨r, hr⟩ := hc2 hr
    have hdm : ¬ DirModified r (some s) s' := by
      rw [dirModified_iff E db {} c.tree before s s' h.tree hbs h.read h.read' fs iter hi n hn h.depth h.depth' h.same r hr]
      rintro (h | h)
      · exact hd1 h
      · exact hd2 h
    constructor
    · obtain ⟨l, hl, hx⟩ := (C55_snapshots E lib db {} c.tree before s s' h.tree hbs h.read h.read' fs iter hi n hn h.depth h.depth' r hr).2 hdm
      obtain ⟨hn1, hn2⟩ := stat_paths E lib db {} c.tree before s s' h.tree hbs h.read h.read' fs iter hi n hn h.depth h.depth' r hr hdm l hl
      have hp : printedStat lib db n r = .ok (sortBy FileStat.le l) := by
        unfold printedStat
        rw [hl]
        rfl
      refine ⟨sortBy FileStat.le l, ?_, ?_, ?_⟩
      · rw [hrun, hr]
        simp only [Res.unwrap, Res.bind, changesOut, hp]
      · exact sorted_paths FileStat.fname (lexLe_pre (pre_of nat_total.toTotalPre _) (pre_of nat_total.toTotalPre _)) hn2 hn1
      · intro x
        rw [(sortBy_perm _ _).mem_iff]
        exact hx x
    · intro hnb
      obtain ⟨l, hl, hx⟩ := (C53_snapshots E lib db {} c.tree before s s' h.tree hbs h.read h.read' fs iter hi n hn h.depth h.depth' r hr).2.2 hnb hdm
      refine ⟨l, ?_, hx⟩
      rw [hrun, hr]
      simp only [Res.unwrap, Res.bind, changesOut, hl]

/-! ### `log` -/

/-- The changes since the parent can be shown. -/
def Displayable (E : Env) (kind : Kind) (s : Src) (s' : Option Src) : Prop :=
  ¬ Removed s s' ∧ ¬ Retyped s s' ∧ ¬ DirChanged E s s' ∧ (kind = .patch → ¬ NewBinary s s')

/-- A commit, its first parent, that one's first parent and so on until one without parents: keys, commits and the directories they were made from. -/
inductive Chain (E : Env) (db : Db) (n : Nat) : List (Key × Commit × Src) → Prop where
  | root {k c s} (h : CommitOf E db n k c s none) : Chain E db n [(k, c, s)]
  | step {k c s p l} (h : CommitOf E db n k c s (some p.2.2)) (hp : c.parents.head? = some p.1) (t : Chain E db n (p :: l)) : Chain E db n ((k, c, s) :: p :: l)

/-- The changes of the commit with index `j` can be shown. -/
def FineAt (E : Env) (kind : Kind) (l : List (Key × Commit × Src)) (j : Nat) : Prop :=
  ∃ x, l[j]? = some x ∧ Displayable E kind x.2.2 ((l[j + 1]?).map fun y => y.2.2)

theorem display_iff {E : Env} {lib : DiffLib} {fs : Fs} {iter : Nat → List Path → List Path} (hi : IterOk iter) {n f : Nat} (hn : 7 ≤ n) {db : Db} {key : Key} {c : Commit} {s : Src}
    {s' : Option Src} (h : CommitOf E db n key c s s') (kind : Kind) (out : List Out) :
    (Displayable E kind s s' ∧ ∃ o, (∀ k m, o ≠ .commit k m) ∧ displayObj E lib fs iter n kind (f + 1) key (db, out) = (.ok (), (db, out ++ [.commit key c.attrs.message, o]))) ∨
    (¬ Displayable E kind s s' ∧ ∃ r, r ≠ .ok () ∧ r ≠ .fuel ∧ (kind = .stat → r = .panic) ∧ displayObj E lib fs iter n kind (f + 1) key (db, out) = (r, (db, out ++ [.commit key c.attrs.message]))) := by
  obtain ⟨h1, h2, h3, h4⟩ := C63_show E lib fs iter hi n f hn db key c s s' h out
  by_cases hr : Removed s s'
  · exact Or.inr ⟨fun hd => hd.1 hr, _, by simp, by simp, fun _ => rfl, h1 hr kind⟩
  by_cases hd : Retyped s s' ∨ DirChanged E s s'
  · right
    refine ⟨fun hh => hd.elim hh.2.1 hh.2.2.1, ?_⟩
    cases kind with
    | stat => exact ⟨_, by simp, by simp, fun _ => rfl, h3 hr hd .stat (Or.inl rfl)⟩
    | patch =>
      by_cases hb : NewBinary s s'
      · exact ⟨_, by simp, by simp, by simp, h2 hr hb⟩
      · exact ⟨_, by simp, by simp, fun _ => rfl, h3 hr hd .patch (Or.inr hb)⟩
  · have hd1 := fun h => hd (Or.inl h)
    have hd2 := fun h => hd (Or.inr h)
    obtain ⟨⟨l, h5, _⟩, h6⟩ := h4 hr hd1 hd2
    cases kind with
    | stat => exact Or.inl ⟨⟨hr, hd1, hd2, by simp⟩, _, by simp, h5⟩
    | patch =>
      by_cases hb : NewBinary s s'
      · exact Or.inr ⟨fun hh => hh.2.2.2 rfl hb, _, by simp, by simp, by simp, h2 hr hb⟩
      · obtain ⟨l, h7, _⟩ := h6 hb
        exact Or.inl ⟨⟨hr, hd1, hd2, fun _ => hb⟩, _, by simp, h7⟩

/-- How a run over a list of commits ends: after the last one if the changes of all can be shown, otherwise at the first whose changes cannot. -/
def LogEnds (E : Env) (kind : Kind) (l : List (Key × Commit × Src)) (r : Res Unit) (outs : List Out) : Prop :=
  ((∀ j, j < l.length → FineAt E kind l j) → r = .ok () ∧ Spec.printedCommits outs = l.map (·.1)) ∧
  ∀ i, i < l.length → (∀ j, j < i → FineAt E kind l j) → ¬ FineAt E kind l i →
    r ≠ .ok () ∧ r ≠ .fuel ∧ (kind = .stat → r = .panic) ∧ Spec.printedCommits outs = (l.take (i + 1)).map (·.1) ∧ ∃ x, l[i]? = some x ∧ outs.getLast? = some (.commit x.1 x.2.1.attrs.message)

theorem fineAt_succ {E : Env} {kind : Kind} {x : Key × Commit × Src} {l : List (Key × Commit × Src)} {j : Nat} : FineAt E kind (x :: l) (j + 1) ↔ FineAt E kind l j := by
  unfold FineAt
  simp

theorem fineAt_zero {E : Env} {kind : Kind} {x : Key × Commit × Src} {l : List (Key × Commit × Src)} :
    FineAt E kind (x :: l) 0 ↔ Displayable E kind x.2.2 (l.head?.map fun y => y.2.2) := by
  unfold FineAt
  cases l <;> simp

theorem printedCommits_append (a b : List Out) : Spec.printedCommits (a ++ b) = Spec.printedCommits a ++ Spec.printedCommits b := by
  simp [Spec.printedCommits]

theorem Chain.commitOf {E : Env} {db : Db} {n : Nat} {k : Key} {c : Commit} {s : Src} {l : List (Key × Commit × Src)} (h : Chain E db n ((k, c, s) :: l)) :
    CommitOf E db n k c s (l.head?.map fun y => y.2.2) ∧ c.parents.head? = l.head?.map (·.1) := by
  cases h with
  | root h =>
    refine ⟨h, ?_⟩
    rcases h.parent with ⟨h1, _⟩ | ⟨_, _, _, _, _, _, h, _⟩
    · rw [h1]; rfl
    · simp at h
  | step h hp t => exact ⟨h, hp⟩

/-- Showing the first and going on. -/
theorem ends_cons {E : Env} {lib : DiffLib} {fs : Fs} {iter : Nat → List Path → List Path} (hi : IterOk iter) {n f : Nat} (hn : 7 ≤ n) {db : Db} {key : Key} {c : Commit} {s : Src}
    {l : List (Key × Commit × Src)} (h : Chain E db n ((key, c, s) :: l)) (kind : Kind) (out : List Out) (next : P Unit)
    (hnext : ∀ out, ∃ r outs, next (db, out) = (r, (db, out ++ outs)) ∧ LogEnds E kind l r outs) :
    ∃ r outs, (do displayObj E lib fs iter n kind (f + 1) key; next : P Unit) (db, out) = (r, (db, out ++ outs)) ∧ LogEnds E kind ((key, c, s) :: l) r outs := by
  rcases display_iff (lib := lib) (fs := fs) (f := f) hi hn h.commitOf.1 kind out with ⟨hd, o, ho, he⟩ | ⟨hd, r, hr1, hr2, hr3, he⟩
  · obtain ⟨r, outs, hnx, e1, e2⟩ := hnext (out ++ [.commit key c.attrs.message, o])
    have hpc : Spec.printedCommits (.commit key c.attrs.message :: o :: outs) = key :: Spec.printedCommits outs := by
      cases o <;> simp [Spec.printedCommits] at ho ⊢
    refine ⟨r, .commit key c.attrs.message :: o :: outs, ?_, ?_, ?_⟩
    · rw [SM.bind_apply, he]
      simp only [hnx, List.append_assoc, List.cons_append, List.nil_append]
    · intro hall
      obtain ⟨a, b⟩ := e1 (fun j hj => fineAt_succ.mp (hall (j + 1) (by simp; omega)))
      exact ⟨a, by rw [hpc, b]; rfl⟩
    · intro i hlt hbefore hnot
      cases i with
      | zero => exact absurd (fineAt_zero.mpr hd) hnot
      | succ i =>
        obtain ⟨a, a', a'', b, x, hx, hlast⟩ := e2 i (by simp at hlt; omega) (fun j hj => fineAt_succ.mp (hbefore (j + 1) (by omega))) (fun hf => hnot (fineAt_succ.mpr hf))
        refine ⟨a, a', a'', by rw [hpc, b]; rfl, x, by simpa using hx, ?_⟩
        rw [List.getLast?_cons_cons, List.getLast?_cons, hlast]
        rfl
  · refine ⟨r, [.commit key c.attrs.message], ?_, ?_, ?_⟩
    · rw [SM.bind_apply, he]
      cases r with
      | ok u => exact absurd rfl hr1
      | _ => rfl
    · intro hall
      exact absurd (fineAt_zero.mp (hall 0 (by simp))) hd
    · intro i hlt hbefore hnot
      cases i with
      | zero => exact ⟨hr1, hr2, hr3, rfl, _, rfl, rfl⟩
      | succ i => exact absurd (fineAt_zero.mp (hbefore 0 (by omega))) hd

theorem logLoop_ends {E : Env} {lib : DiffLib} {fs : Fs} {iter : Nat → List Path → List Path} (hi : IterOk iter) {n : Nat} (hn : 7 ≤ n) {db : Db} (kind : Kind) {f : Nat} {key : Key}
    {c : Commit} {s : Src} {l : List (Key × Commit × Src)} (h : Chain E db n ((key, c, s) :: l)) (hf : l.length < f) (out : List Out) :
    ∃ r outs, logLoop E lib fs iter n kind f c (db, out) = (r, (db, out ++ outs)) ∧ LogEnds E kind l r outs := by
  induction f generalizing key c s l out with
  | zero => omega
  | succ f ih =>
    obtain ⟨m, rfl⟩ : ∃ m, n = m + 1 := ⟨n - 1, by omega⟩
    unfold logLoop
    cases h with
    | root h =>
      rcases h.parent with ⟨h1, _⟩ | ⟨_, _, _, _, _, _, h, _⟩
      · rw [h1]
        exact ⟨.ok (), [], by simp [SM.pure_apply], fun _ => ⟨rfl, rfl⟩, by simp⟩
      · simp at h
    | @step _ _ _ p l h hp t =>
      obtain ⟨kp, cp, sp⟩ := p
      obtain ⟨ps, hps⟩ : ∃ ps, c.parents = kp :: ps := by
        cases hcp : c.parents with
        | nil => rw [hcp] at hp; simp at hp
        | cons a b => rw [hcp] at hp; simp at hp; exact ⟨b, by rw [hp]⟩
      rw [hps]
      refine ends_cons hi hn t kind out _ fun out => ?_
      obtain ⟨r, outs, he, hends⟩ := ih t (by simp at hf; omega) out
      refine ⟨r, outs, ?_, hends⟩
      simp only [SM.bind_apply, SM.read, t.commitOf.1.commit]
      exact he

/-- **C63**: `log`, in terms of the directories the commits of the history were made from. If the changes of every commit can be shown, it succeeds and prints all commits;
otherwise it fails at the first commit whose changes cannot be shown, having printed the commits up to this one, last the key and message of it. -/
theorem C63_log (E : Env) (lib : DiffLib) (fs : Fs) (iter : Nat → List Path → List Path) (hi : IterOk iter) (n : Nat) (hn : 7 ≤ n) (db : Db) (kind : Kind) (key : Key) (c : Commit) (s : Src)
    (l : List (Key × Commit × Src)) (h : Chain E db n ((key, c, s) :: l)) (hf : l.length < n) (out : List Out) :
    ∃ r outs, logObj E lib fs iter n kind key (db, out) = (r, (db, out ++ outs)) ∧ LogEnds E kind ((key, c, s) :: l) r outs := by
  obtain ⟨m, rfl⟩ : ∃ m, n = m + 1 := ⟨n - 1, by omega⟩
  obtain ⟨ob, hg, hoc⟩ := fromKey_eq_ok.mp h.commitOf.1.commit
  unfold logObj
  rw [SM.bind_apply]
  simp only [SM.read, hg, Res.unwrap, h.commitOf.1.type ob hg]
  refine ends_cons hi hn h kind out _ fun out => ?_
  obtain ⟨r, outs, he, hends⟩ := logLoop_ends (lib := lib) (fs := fs) hi hn kind h hf out
  refine ⟨r, outs, ?_, hends⟩
  simp only [SM.bind_apply, SM.read, h.commitOf.1.commit]
  exact he

/-! ### The commands -/

theorem CommitOf.mono {E : Env} {db later : Db} {n : Nat} {key : Key} {c : Commit} {s : Src} {s' : Option Src} (h : CommitOf E db n key c s s') (hl : db.data <+: later.data) :
    CommitOf E later n key c s s' := by
  have sn : ∀ {t : Key} {x : Src}, Snapshot E db t x.fs x.filter x.n x.path → Snapshot E later t x.fs x.filter x.n x.path := by
    rintro t x ⟨h1, h2, d, d', h3, h4, h5, h6⟩
    exact ⟨h1, h2, d, d', h3, h4, h5, h6.trans hl⟩
  refine ⟨fromKey_mono hl h.commit, fun o ho => ?_, sn h.tree, ?_, h.read, h.read', h.same, h.depth, h.depth'⟩
  · obtain ⟨ob, hg, _⟩ := fromKey_eq_ok.mp h.commit
    rw [getObj_mono hl hg] at ho
    have := Res.ok.inj ho
    subst this
    exact h.type ob hg
  · rcases h.parent with h | ⟨p, ps, c', x, h1, h2, h3, h4⟩
    · exact Or.inl h
    · exact Or.inr ⟨p, ps, c', x, h1, fromKey_mono hl h2, h3, sn h4⟩

theorem Chain.mono {E : Env} {db later : Db} {n : Nat} {l : List (Key × Commit × Src)} (h : Chain E db n l) (hl : db.data <+: later.data) : Chain E later n l := by
  induction h with
  | root h => exact .root (h.mono hl)
  | step h hp _ ih => exact .step (h.mono hl) hp ih

/-- **C63**: a `commit` extends the history: if the newest entry of HEAD's ref has a history of commits made of the directories in `l`, the new entry has the history with the
working directory added; if the ref had no entry, the history is the new commit alone. -/
theorem C63_commit (X : Ctx) (message : Bytes) (w : World) (hw : w.fs.Wf) (R : Repo) (q : List Bytes) (hreach : w.Reachable X.E.H)
    (hdir : w.fs.metadata R.root = .ok .dir) (h : Committed X (.commit none message none) w R q)
    (hcoll : NoColl X.E.H ((mainRun X (.commit none message none) w).2.2.dbs q))
    (hread : ∀ rel c, VisFile w.fs (makeFilter X.glob R.folder) R.root rel c → FullyRead X.E (joins R.root rel) c) (depth : Nat) (hdepth : X.depth ≤ depth) :
    ∃ head ck c, getHead (w.dbs q) = .ok (some head) ∧ reflogGet ((mainRun X (.commit none message none) w).2.2.dbs q) head none = .ok ck ∧ c.attrs.message = message ∧
      (reflogGet (w.dbs q) head none = .err .notFound →
        Chain X.E ((mainRun X (.commit none message none) w).2.2.dbs q) depth [(ck, c, ⟨w.fs, makeFilter X.glob R.folder, X.depth, R.root⟩)]) ∧
      ∀ p l, reflogGet (w.dbs q) head none = .ok p.1 → Chain X.E (w.dbs q) depth (p :: l) → p.2.2.path = R.root →
        Chain X.E ((mainRun X (.commit none message none) w).2.2.dbs q) depth ((ck, c, ⟨w.fs, makeFilter X.glob R.folder, X.depth, R.root⟩) :: p :: l) := by
  have hi := World.Reachable.inv hreach q
  obtain ⟨n, ck, tree, ps, g1, g2, g3, gp, ⟨d, g4, g5, g6⟩, _⟩ := C38_commit X none message none w R q hi h hcoll
  have hreach' : World.Reachable X.E.H (mainRun X (.commit none message none) w).2.2 := World.Reachable.step hreach (.run X rfl _ _)
  have hpre : (w.dbs q).data <+: ((mainRun X (.commit none message none) w).2.2.dbs q).data := steps_data ((World.Steps.refl w).tail (.run X rfl _ _)) q
  have hhead : getHead (w.dbs q) = .ok (some n) := by
    simp only [refOrHead] at g1
    exact (headName_ok g1)
  have hty := type_of_fromKey (reach_types hreach' q) g3
  have hsn : Snapshot X.E ((mainRun X (.commit none message none) w).2.2.dbs q) tree w.fs (makeFilter X.glob R.folder) X.depth R.root := ⟨hw, hdir, _, d, hi, g4, g5, g6⟩
  have hro : ReadO X.E (some ⟨w.fs, makeFilter X.glob R.folder, X.depth, R.root⟩) := by
    intro x hx
    simp at hx
    subst hx
    exact hread
  refine ⟨n, ck, ⟨tree, ps, { message := message }⟩, hhead, g2, rfl, ?_, ?_⟩
  · intro hnone
    rcases gp with ⟨k, hk, _⟩ | ⟨_, rfl⟩
    · rw [hnone] at hk; simp at hk
    · exact .root ⟨g3, hty, hsn, Or.inl ⟨rfl, rfl⟩, hro, fun x hx => by simp at hx, fun x hx => by simp at hx, hdepth, fun x hx => by simp at hx⟩
  · rintro ⟨k, cp, sp⟩ l hk hch hpath
    rcases gp with ⟨k', hk', rfl⟩ | ⟨hno, _⟩
    · rw [hk] at hk'
      have := Res.ok.inj hk'
      subst this
      have hc := hch.commitOf.1
      refine .step ⟨g3, hty, hsn, Or.inr ⟨k, [], cp, sp, rfl, fromKey_mono hpre hc.commit, rfl, (hc.mono hpre).tree⟩, hro, hc.read, ?_, hdepth, ?_⟩ rfl (hch.mono hpre)
      · intro x hx
        simp at hx
        subst hx
        intro rel c
        simp only at hpath
        rw [hpath]
      · intro x hx
        simp at hx
        subst hx
        exact hc.depth
    · rw [hk] at hno; simp at hno

/-- Reading commands leave database, cache and files as they are. -/
theorem show_run {X : Ctx} {R : Repo} {q : List Bytes} {w : World} {key : Option Keyish} {k : Key} (hk : keyOrHead (w.dbs q) key = .ok k) {r : Res Unit} {out : List Out}
    (h : displayObj X.E X.lib w.fs X.iter X.depth .patch X.depth k (w.dbs q, []) = (r, (w.dbs q, out))) :
    (Command.show key).inRepo X R (startOf w q) = (r, { startOf w q with out := out }) := by
  have e : readDb (fun db => keyOrHead db key) (startOf w q) = (.ok k, startOf w q) := by
    show (keyOrHead (w.dbs q) key, _) = _
    rw [hk]
  unfold Command.inRepo
  refine (SM.bind_apply (σ := Sys) _ _ _).trans ?_
  rw [e]
  show onP _ _ = _
  unfold onP SM.on
  have : (((startOf w q).db, (startOf w q).out) : Db × List Out) = (w.dbs q, []) := rfl
  simp only [this]
  show ((displayObj X.E X.lib w.fs X.iter X.depth .patch X.depth k (w.dbs q, [])).1, _) = _
  have hfs : (startOf w q).fs = w.fs := rfl
  rw [hfs, h]
  rfl

theorem log_run {X : Ctx} {R : Repo} {q : List Bytes} {w : World} {key : Option Keyish} {k : Key} (hk : keyOrHead (w.dbs q) key = .ok k) {r : Res Unit} {out : List Out}
    (h : logObj X.E X.lib w.fs X.iter X.depth .stat k (w.dbs q, []) = (r, (w.dbs q, out))) :
    (Command.log key).inRepo X R (startOf w q) = (r, { startOf w q with out := out }) := by
  have e : readDb (fun db => keyOrHead db key) (startOf w q) = (.ok k, startOf w q) := by
    show (keyOrHead (w.dbs q) key, _) = _
    rw [hk]
  unfold Command.inRepo
  refine (SM.bind_apply (σ := Sys) _ _ _).trans ?_
  rw [e]
  show onP _ _ = _
  unfold onP SM.on
  have : (((startOf w q).db, (startOf w q).out) : Db × List Out) = (w.dbs q, []) := rfl
  simp only [this]
  have hfs : (startOf w q).fs = w.fs := rfl
  rw [hfs, h]
  rfl

/-- **C63**: the command `log`, on a commit with a history made of the given directories: it ends with success iff the changes of all commits can be shown as statistics, and
then prints all of them; otherwise it panics, having printed the commits up to the first whose changes cannot be shown. -/
theorem C63_log_command (X : Ctx) (hi : IterOk X.iter) (hn : 7 ≤ X.depth) (w : World) (R : Repo) (q : List Bytes) (ho : Opens X w R q) (hf : w.cache.faults = [])
    (arg : Option Keyish) (key : Key) (hk : keyOrHead (w.dbs q) arg = .ok key) (c : Commit) (s : Src) (l : List (Key × Commit × Src))
    (h : Chain X.E (w.dbs q) X.depth ((key, c, s) :: l)) (hl : l.length < X.depth) :
    ((∀ j, j ≤ l.length → FineAt X.E .stat ((key, c, s) :: l) j) → (mainRun X (.log arg) w).1 = .success ∧ Spec.printedCommits (mainRun X (.log arg) w).2.1 = key :: l.map (·.1)) ∧
    ∀ i, i ≤ l.length → (∀ j, j < i → FineAt X.E .stat ((key, c, s) :: l) j) → ¬ FineAt X.E .stat ((key, c, s) :: l) i →
      (mainRun X (.log arg) w).1 = .panicked ∧ Spec.printedCommits (mainRun X (.log arg) w).2.1 = (((key, c, s) :: l).take (i + 1)).map (·.1) := by
  obtain ⟨r, outs, he, h1, h2⟩ := C63_log X.E X.lib w.fs X.iter hi X.depth hn (w.dbs q) .stat key c s l h hl []
  have hrun := log_run (R := R) hk he
  rw [mainRun_open (by simp) ho, runIn_exit, runIn_out, hrun]
  constructor
  · intro hall
    obtain ⟨rfl, hp⟩ := h1 (fun j hj => hall j (by simp at hj; omega))
    refine ⟨?_, by simpa using hp⟩
    have : (startOf w q).cache = w.cache := rfl
    simp [exitOf, Cache.finish, this, hf]
  · intro i hle hbefore hnot
    obtain ⟨_, _, hr, hp, _⟩ := h2 i (by simp; omega) hbefore hnot
    rw [hr rfl]
    exact ⟨rfl, by simpa using hp⟩

/-- **C63**: the command `show`: its exit and what it prints. -/
theorem C63_show_command (X : Ctx) (hi : IterOk X.iter) (hn : 7 ≤ X.depth) (w : World) (R : Repo) (q : List Bytes) (ho : Opens X w R q) (hf : w.cache.faults = [])
    (arg : Option Keyish) (key : Key) (hk : keyOrHead (w.dbs q) arg = .ok key) (c : Commit) (s : Src) (s' : Option Src) (h : CommitOf X.E (w.dbs q) X.depth key c s s') :
    (Removed s s' → (mainRun X (.show arg) w).1 = .panicked ∧ (mainRun X (.show arg) w).2.1 = [.commit key c.attrs.message]) ∧
    (¬ Removed s s' → NewBinary s s' → (mainRun X (.show arg) w).1 = .fatal .binaryPatch ∧ (mainRun X (.show arg) w).2.1 = [.commit key c.attrs.message]) ∧
    (¬ Removed s s' → ¬ NewBinary s s' → Retyped s s' ∨ DirChanged X.E s s' → (mainRun X (.show arg) w).1 = .panicked ∧ (mainRun X (.show arg) w).2.1 = [.commit key c.attrs.message]) ∧
    (Displayable X.E .patch s s' → (mainRun X (.show arg) w).1 = .success ∧ ∃ l, (mainRun X (.show arg) w).2.1 = [.commit key c.attrs.message, .patches l] ∧ ∀ x, x ∈ l ↔
      (∃ rel c, rel ≠ [] ∧ VisFile s.fs s.filter s.path rel c ∧ (∀ b, ¬ ShownO s' rel b) ∧ x = newPatch X.lib (relPath rel) c) ∨
      (∃ rel c c', rel ≠ [] ∧ VisFile s.fs s.filter s.path rel c ∧ VisO s' rel c' ∧ c ≠ c' ∧ x = changedPatch X.lib (relPath rel) c' c)) := by
  obtain ⟨m, hm⟩ : ∃ m, X.depth = m + 1 := ⟨X.depth - 1, by omega⟩
  have hs := C63_show X.E X.lib w.fs X.iter hi X.depth m hn (w.dbs q) key c s s' h []
  rw [← hm] at hs
  obtain ⟨h1, h2, h3, h4⟩ := hs
  have key : ∀ {r out}, displayObj X.E X.lib w.fs X.iter X.depth .patch X.depth key (w.dbs q, []) = (r, (w.dbs q, out)) →
      (mainRun X (.show arg) w).1 = exitOf r (Cache.finish r w.cache w.cache).1 ∧ (mainRun X (.show arg) w).2.1 = out := by
    intro r out he
    have hrun := show_run (R := R) hk he
    rw [mainRun_open (by simp) ho, runIn_exit, runIn_out, hrun]
    exact ⟨rfl, rfl⟩
  refine ⟨fun hr => key (h1 hr .patch), fun hr hb => key (h2 hr hb), fun hr hb hd => key (h3 hr hd .patch (Or.inr hb)), ?_⟩
  rintro ⟨hr, hd1, hd2, hb⟩
  obtain ⟨l, h5, h6⟩ := (h4 hr hd1 hd2).2 (hb rfl)
  obtain ⟨e1, e2⟩ := key h5
  refine ⟨?_, l, e2, h6⟩
  rw [e1]
  simp [exitOf, Cache.finish, hf]

end Snap.Props
