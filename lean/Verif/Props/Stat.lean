import Verif.Props.Diff
/-! Property C55: line statistics. -/
namespace Snap.Props
open Snap
set_option linter.unusedSectionVars false
variable [Serde] [LawfulSerde]

/-- Number of newline bytes. -/
def newlines (c : Bytes) : Nat := (c.filter (· == 10)).length

theorem count_newlines (c : Bytes) : c.count 10 = newlines c := by
  rw [List.count_eq_countP, List.countP_eq_length_filter]
  rfl

/-- The statistic of a whole file, of a change. -/
def addedLines (p : Path) (c : Bytes) : FileStat := ⟨p, newlines c, 0⟩
def removedLines (p : Path) (c : Bytes) : FileStat := ⟨p, 0, newlines c⟩
def changedLines (lib : DiffLib) (p : Path) (before after : Bytes) : FileStat :=
  let ls := lib.lines (lib.lossy before) (lib.lossy after)
  ⟨p, (ls.filter (· == .right)).length, (ls.filter (· == .left)).length⟩

theorem countStat_ok {α} {db : Db} {n : Nat} {isDir : α → Bool} {key : α → Option Key} {mk : α → Nat → FileStat} {l : List α} {cont : Key → Bytes}
    (h : ∀ e ∈ l, isDir e = false → ∀ k, key e = some k → readAll db n k = .ok (cont k)) :
    countStat db n isDir key mk l = .ok ((l.filter fun e => !isDir e).filterMap fun e => (key e).map fun k => mk e (newlines (cont k))) := by
  unfold countStat
  rw [mapRes_ok (g := fun e => (key e).map fun k => mk e (newlines (cont k)))]
  · simp [List.filterMap_map]
  · intro e he
    obtain ⟨h1, h2⟩ := List.mem_filter.mp he
    cases hk : key e with
    | none => rfl
    | some k => simp [lineCt, h e h1 (by simpa using h2) k hk, Res.unwrap, count_newlines]

/-- **C55**: when all contents can be read, the statistic of an added or removed file is its number of newline bytes, that of a modified file the number of added and removed
lines of the line diff, and nothing else is listed: nothing for directories. -/
theorem C55_exact (lib : DiffLib) (db : Db) (n : Nat) (r : DiffResult) (cont : Key → Bytes)
    (ha : ∀ e ∈ r.added, e.isDir = false → ∀ k, e.newKey = some k → readAll db n k = .ok (cont k))
    (hd : ∀ e ∈ r.deleted, e.isDir = false → ∀ k, e.originalKey = some k → readAll db n k = .ok (cont k))
    (hm : ∀ e ∈ r.modified, readAll db n e.originalKey = .ok (cont e.originalKey) ∧ readAll db n e.newKey = .ok (cont e.newKey)) :
    lineStat lib db n r = .ok (
      ((r.added.filter fun e => !e.isDir).filterMap fun e => e.newKey.map fun k => addedLines e.path (cont k)) ++
      ((r.deleted.filter fun e => !e.isDir).filterMap fun e => e.originalKey.map fun k => removedLines e.path (cont k)) ++
      r.modified.map fun e => changedLines lib e.path (cont e.originalKey) (cont e.newKey)) := by
  unfold lineStat
  rw [countStat_ok ha, countStat_ok hd, mapRes_ok (f := modifiedStat lib db n) (g := fun e => changedLines lib e.path (cont e.originalKey) (cont e.newKey))]
  · rfl
  · intro e he
    obtain ⟨h1, h2⟩ := hm e he
    simp [modifiedStat, h1, h2, Res.unwrap, changedLines, List.count_eq_countP, List.countP_eq_length_filter]

/-- What is printed is sorted and has the same entries. -/
theorem C55_printed (lib : DiffLib) (db : Db) (n : Nat) (r : DiffResult) :
    (∀ l, lineStat lib db n r = .ok l → ∃ l', printedStat lib db n r = .ok l' ∧ l'.Perm l) ∧ (lineStat lib db n r = .panic → printedStat lib db n r = .panic) := by
  unfold printedStat
  constructor
  · intro l h
    rw [h]
    exact ⟨_, rfl, sortBy_perm _ _⟩
  · intro h
    rw [h]
    rfl

/-! ### Reading the items of snapshots -/

theorem readAll_file {db : Db} {k ck : Key} {sz : Nat} {nm : List Bytes} {c : Bytes} (ht : Typed db k false) (hg : getItem db k = .ok ⟨sz, .file, nm, [ck]⟩) (hr : ReadsBack db ck c)
    {n : Nat} (hn : 7 ≤ n) : readAll db n k = .ok c := by
  obtain ⟨o, h1, h2⟩ := ht
  have hk : o.keys = [ck] := by
    unfold getItem at hg
    rw [h1] at hg
    simp only [Res.ok_bind] at hg
    exact (FsItem.ofObject_keys hg).symm
  obtain ⟨m, rfl⟩ : ∃ m, n = m + 1 := ⟨n - 1, by omega⟩
  have := hr m (by omega)
  unfold readAll readData
  rw [readDataTo_succ db _ m k h1, h2, hk]
  unfold readData at this
  simp [this]

theorem readAll_dir {db : Db} {k : Key} (ht : Typed db k true) {n : Nat} (hn : 1 ≤ n) : readAll db n k = .panic := by
  obtain ⟨o, h1, h2⟩ := ht
  obtain ⟨m, rfl⟩ : ∃ m, n = m + 1 := ⟨n - 1, by omega⟩
  unfold readAll readData
  rw [readDataTo_succ db _ m k h1, h2]
  rfl

/-- What the walk says about a file of the directory. -/
theorem Walked.read {E : Env} {db : Db} {fs : Fs} {filter : Filter} {path : Path} {m : PMap (Key × Bool)} (w : Walked E db fs filter path m)
    (hr : ∀ rel c, VisFile fs filter path rel c → FullyRead E (joins path rel) c) (hw : fs.Wf) {p : Path} {k : Key} (h : (p, k, false) ∈ m) {n : Nat} (hn : 7 ≤ n) :
    ∃ rel c, p = relPath rel ∧ rel ≠ [] ∧ VisFile fs filter path rel c ∧ readAll db n k = .ok c := by
  obtain ⟨rel, rfl, hs⟩ := w.only _ _ _ h
  rcases hs.2.2 with ⟨e, _⟩ | ⟨_, c, hc⟩
  · simp at e
  obtain ⟨_, sz, nm, ck, c', g1, g2, g3⟩ := w.file rel k c h (hs.okNames hw) hc
  obtain ⟨a1, a2, a3, a4⟩ := hr rel c ⟨hs.2.1, hc⟩
  have := readBackAs_exact g3 a1 (Or.inl ⟨a3, a4⟩)
  subst this
  exact ⟨rel, _, rfl, hs.1, ⟨hs.2.1, hc⟩, readAll_file (w.typed _ _ _ h) g1 g2 hn⟩

theorem mapRes_panic {α β} {f : α → Res β} {l : List α} (h : ∀ a ∈ l, (∃ b, f a = .ok b) ∨ f a = .panic) (hp : ∃ a ∈ l, f a = .panic) : mapRes f l = .panic := by
  induction l with
  | nil => simp at hp
  | cons a l ih =>
    unfold mapRes
    rcases h a (by simp) with ⟨b, hb⟩ | hb
    · rw [hb]
      obtain ⟨x, hx, hxp⟩ := hp
      rcases List.mem_cons.mp hx with rfl | hx
      · rw [hb] at hxp; simp at hxp
      · rw [Res.ok_bind, ih (fun a ha => h a (by simp [ha])) ⟨x, hx, hxp⟩]
        rfl
    · rw [hb]; rfl

/-- A directory that may be stored: file system, filter, depth and path. -/
structure Src where
  fs : Fs
  filter : Filter
  n : Nat
  path : Path

/-- The stored tree, if any, that is compared with. -/
def OptSnapshot (E : Env) (db : Db) : Option Key → Option Src → Prop
  | none, none => True
  | some t, some s => Snapshot E db t s.fs s.filter s.n s.path
  | _, _ => False
/-- What is in it; nothing if there is none. -/
def ShownO (s : Option Src) (rel : List Bytes) (b : Bool) : Prop := ∃ x, s = some x ∧ Shown x.fs x.filter x.path rel b
def VisO (s : Option Src) (rel : List Bytes) (c : Bytes) : Prop := ∃ x, s = some x ∧ VisFile x.fs x.filter x.path rel c
def ReadO (E : Env) (s : Option Src) : Prop := ∀ x, s = some x → ∀ rel c, VisFile x.fs x.filter x.path rel c → FullyRead E (joins x.path rel) c
def DepthO (n : Nat) (s : Option Src) : Prop := ∀ x, s = some x → x.n ≤ n

/-- What is known about the items of one side. -/
structure Side (E : Env) (db : Db) (n : Nat) (s : Option Src) (m : PMap (Key × Bool)) : Prop where
  ok : m.Ok
  shown : ∀ rel b, ShownO s rel b → ∃ k, (relPath rel, k, b) ∈ m
  only : ∀ p k b, (p, k, b) ∈ m → ∃ rel, p = relPath rel ∧ ShownO s rel b
  names : ∀ rel b, ShownO s rel b → ∀ x ∈ rel, okName x
  read : ∀ p k, (p, k, false) ∈ m → ∃ rel c q, p = relPath rel ∧ rel ≠ [] ∧ VisO s rel c ∧ readAll db n k = .ok c ∧ FullyRead E q c ∧
    (∃ d d', putFile E q c d = (.ok k, d')) ∧ ∃ sz nm ck b, getItem db k = .ok ⟨sz, .file, nm, [ck]⟩ ∧ ReadsBack db ck b ∧ ReadBackAs E q c b
  typed : ∀ p k b, (p, k, b) ∈ m → Typed db k b

theorem Walked.side {E : Env} {db : Db} {s : Src} {m : PMap (Key × Bool)} (w : Walked E db s.fs s.filter s.path m) (hw : s.fs.Wf) (hr : ReadO E (some s)) {n : Nat} (hn : 7 ≤ n) :
    Side E db n (some s) m where
  ok := w.ok
  shown := by
    rintro rel b ⟨x, hx, h⟩
    simp at hx
    subst hx
    exact w.shown rel b h
  only := by
    intro p k b h
    obtain ⟨rel, h1, h2⟩ := w.only p k b h
    exact ⟨rel, h1, s, rfl, h2⟩
  names := by
    rintro rel b ⟨x, hx, h⟩
    simp at hx
    subst hx
    exact h.okNames hw
  read := by
    intro p k h
    obtain ⟨rel, rfl, hs⟩ := w.only _ _ _ h
    rcases hs.2.2 with ⟨e, _⟩ | ⟨_, c, hc⟩
    · simp at e
    obtain ⟨g0, sz, nm, ck, c', g1, g2, g3⟩ := w.file rel k c h (hs.okNames hw) hc
    have hf := hr s rfl rel c ⟨hs.2.1, hc⟩
    obtain ⟨a1, a2, a3, a4⟩ := hf
    have e := readBackAs_exact g3 a1 (Or.inl ⟨a3, a4⟩)
    refine ⟨rel, c, _, rfl, hs.1, ⟨s, rfl, hs.2.1, hc⟩, ?_, ⟨a1, a2, a3, a4⟩, g0, sz, nm, ck, c', g1, g2, g3⟩
    rw [← e]
    exact readAll_file (w.typed _ _ _ h) g1 g2 hn
  typed := w.typed

theorem optSnapshot_side {E : Env} {db : Db} {t : Option Key} {s : Option Src} (h : OptSnapshot E db t s) (hr : ReadO E s) {n : Nat} (hn : 7 ≤ n) (hd : DepthO n s) :
    ∃ B, toItems db n t = .ok B ∧ Side E db n s B := by
  cases t with
  | none =>
    cases s with
    | some _ => exact h.elim
    | none =>
      refine ⟨[], rfl, ⟨⟨by simp, by simp⟩, ?_, by simp, ?_, by simp, by simp⟩⟩
      · rintro _ _ ⟨x, hx, _⟩; simp at hx
      · rintro _ _ ⟨x, hx, _⟩; simp at hx
  | some t =>
    cases s with
    | none => exact h.elim
    | some s =>
      obtain ⟨m, h1, h2⟩ := Snapshot.walked h (hd s rfl)
      exact ⟨m, h1, h2.side h.wf hr hn⟩

theorem Side.file {E : Env} {db : Db} {n : Nat} {s : Option Src} {m : PMap (Key × Bool)} (w : Side E db n s m) {rel : List Bytes} {k : Key} (hok : ∀ x ∈ rel, okName x)
    (h : (relPath rel, k, false) ∈ m) : ∃ c q, rel ≠ [] ∧ VisO s rel c ∧ readAll db n k = .ok c ∧ FullyRead E q c ∧
    (∃ d d', putFile E q c d = (.ok k, d')) ∧ ∃ sz nm ck b, getItem db k = .ok ⟨sz, .file, nm, [ck]⟩ ∧ ReadsBack db ck b ∧ ReadBackAs E q c b := by
  obtain ⟨rel', c, q, e, h0, hv, r⟩ := w.read _ _ h
  have : ShownO s rel' false := by
    obtain ⟨x, hx, hv⟩ := hv
    exact ⟨x, hx, h0, hv.1, Or.inr ⟨rfl, c, hv.2⟩⟩
  have := relPath_inj (fun m hm => (hok m hm).comp) (fun m hm => (w.names _ _ this m hm).comp) e
  subst this
  exact ⟨c, q, h0, hv, r⟩

theorem VisO.shown {s : Option Src} {rel : List Bytes} {c : Bytes} (h : VisO s rel c) (h0 : rel ≠ []) : ShownO s rel false := by
  obtain ⟨x, hx, hv⟩ := h
  exact ⟨x, hx, h0, hv.1, Or.inr ⟨rfl, c, hv.2⟩⟩

theorem VisO.unique {s : Option Src} {rel : List Bytes} {c c' : Bytes} (h : VisO s rel c) (h' : VisO s rel c') : c = c' := by
  obtain ⟨x, hx, hv⟩ := h
  obtain ⟨x', hx', hv'⟩ := h'
  rw [hx] at hx'
  simp at hx'
  subst hx'
  have := hv.2.symm.trans hv'.2
  simpa using this

/-- Some entry reported as modified is a directory, on either side. -/
def DirModified (r : DiffResult) (s t : Option Src) : Prop := ∃ e ∈ r.modified, ∃ rel, e.path = relPath rel ∧ (ShownO s rel true ∨ ShownO t rel true)

/-- Contents of the entries of a comparison of two snapshots. -/
theorem compare_entries (E : Env) (db : Db) (ca : Cache) (k : Key) (t : Option Key) (s : Src) (s' : Option Src) (h1 : Snapshot E db k s.fs s.filter s.n s.path)
    (h2 : OptSnapshot E db t s') (hr1 : ReadO E (some s)) (hr2 : ReadO E s') (fs : Fs) (iter : Nat → List Path → List Path) (hi : IterOk iter)
    (n : Nat) (hn : 7 ≤ n) (hn1 : s.n ≤ n) (hn2 : DepthO n s') (r : DiffResult) (hr : (compare E fs iter n (.database k) t (db, ca)).1 = .ok r) :
    ∃ cont : Key → Bytes, r.deleted = [] ∧ (∀ e ∈ r.added, e.isDir = false → ∀ k, e.newKey = some k → readAll db n k = .ok (cont k)) ∧
      (∀ (γ : Type) (f : Path → Bytes → γ) (x : γ), (x ∈ (r.added.filter fun e => !e.isDir).filterMap fun e => e.newKey.map fun k => f e.path (cont k)) ↔
        ∃ rel c, rel ≠ [] ∧ VisFile s.fs s.filter s.path rel c ∧ (∀ b, ¬ ShownO s' rel b) ∧ x = f (relPath rel) c) ∧
      (∀ e ∈ r.modified, readAll db n e.originalKey = .panic ∨ readAll db n e.originalKey = .ok (cont e.originalKey)) ∧
      (∀ e ∈ r.modified, readAll db n e.newKey = .panic ∨ readAll db n e.newKey = .ok (cont e.newKey)) ∧
      (DirModified r (some s) s' → ∃ e ∈ r.modified, readAll db n e.originalKey = .panic ∨ readAll db n e.newKey = .panic) ∧
      (¬ DirModified r (some s) s' → (∀ e ∈ r.modified, readAll db n e.originalKey = .ok (cont e.originalKey) ∧ readAll db n e.newKey = .ok (cont e.newKey)) ∧
        ∀ (γ : Type) (g : Path → Bytes → Bytes → γ) (x : γ), (x ∈ r.modified.map fun e => g e.path (cont e.originalKey) (cont e.newKey)) ↔
          ∃ rel c c', rel ≠ [] ∧ VisFile s.fs s.filter s.path rel c ∧ VisO s' rel c' ∧ c ≠ c' ∧ x = g (relPath rel) c' c) := by
  obtain ⟨A, hA, wA⟩ := h1.walked hn1
  have wA := wA.side h1.wf hr1 hn
  obtain ⟨B, hB, wB⟩ := optSnapshot_side h2 hr2 hn hn2
  have hcmp := C49_exact E fs iter hi n k t db ca A B hA hB
  have hex : Exact A B r := by
    by_cases hc : ∃ e ∈ B, ∀ v, (e.1, v) ∉ A
    · rw [hcmp.1 hc] at hr; simp at hr
    · obtain ⟨r', e, h⟩ := hcmp.2 (fun e he => Classical.byContradiction fun hn => hc ⟨e, he, fun v hv => hn ⟨v, hv⟩⟩)
      rw [e] at hr
      simp at hr
      subst hr
      exact h
  have inj : ∀ {a b : List Bytes}, (∀ m ∈ a, okName m) → (∀ m ∈ b, okName m) → relPath a = relPath b → a = b :=
    fun ha hb h => relPath_inj (fun m hm => (ha m hm).comp) (fun m hm => (hb m hm).comp) h
  have hadd : ∀ e ∈ r.added, e.isDir = false → ∀ k, e.newKey = some k → ∃ c, readAll db n k = .ok c := by
    intro e he hd kf hk
    obtain ⟨k', e1, e2, _⟩ := (hex.added _).mp he
    rw [hk] at e1
    simp at e1
    subst e1
    rw [hd] at e2
    obtain ⟨_, c, _, _, _, _, h, _⟩ := wA.read _ _ e2
    exact ⟨c, h⟩
  -- reading one key of a modified entry
  have hmodA : ∀ e ∈ r.modified, ∃ rel d d', e.path = relPath rel ∧ ShownO (some s) rel d ∧ ShownO s' rel d' ∧ (relPath rel, e.newKey, d) ∈ A ∧ (relPath rel, e.originalKey, d') ∈ B := by
    intro e he
    obtain ⟨⟨d, e1⟩, ⟨d', e2⟩, _⟩ := (hex.modified _).mp he
    obtain ⟨rel, ep, hs⟩ := wA.only _ _ _ e1
    obtain ⟨rel', ep', hs'⟩ := wB.only _ _ _ e2
    have := inj (wA.names _ _ hs) (wB.names _ _ hs') (ep.symm.trans ep')
    subst this
    rw [ep] at e1 e2
    exact ⟨rel, d, d', ep, hs, hs', e1, e2⟩
  let cont : Key → Bytes := fun k => match readAll db n k with | .ok c => c | _ => []
  have hcont : ∀ {k c}, readAll db n k = .ok c → cont k = c := by
    intro k c h
    simp only [cont, h]
  have ha : ∀ e ∈ r.added, e.isDir = false → ∀ k, e.newKey = some k → readAll db n k = .ok (cont k) := by
    intro e he hd k hk
    obtain ⟨c, hc⟩ := hadd e he hd k hk
    rw [hcont hc, hc]
  have readB : ∀ {m : PMap (Key × Bool)} {s : Option Src} {p k d}, Side E db n s m → (p, k, d) ∈ m → if d then readAll db n k = .panic else ∃ c, readAll db n k = .ok c := by
    intro m s p k d w h
    cases d with
    | true => exact readAll_dir (w.typed _ _ _ h) (by omega)
    | false =>
      obtain ⟨_, c, _, _, _, _, h, _⟩ := w.read _ _ h
      exact ⟨c, h⟩
  have visA : ∀ {rel c}, VisO (some s) rel c ↔ VisFile s.fs s.filter s.path rel c := by
    intro rel c
    constructor
    · rintro ⟨x, hx, h⟩
      simp at hx
      subst hx
      exact h
    · intro h
      exact ⟨s, rfl, h⟩
  have rd : ∀ {m : PMap (Key × Bool)} {s : Option Src} {p k d}, Side E db n s m → (p, k, d) ∈ m → readAll db n k = .panic ∨ readAll db n k = .ok (cont k) := by
    intro m s p k d w h
    have := readB w h
    cases d with
    | true => simp at this; exact Or.inl this
    | false => simp at this; obtain ⟨c, hc⟩ := this; right; rw [hcont hc, hc]
  refine ⟨cont, hex.deleted, ha, ?_, ?_, ?_, ?_, ?_⟩
  · intro γ f x
    constructor
    · intro h
      obtain ⟨e, he, hx⟩ := List.mem_filterMap.mp h
      obtain ⟨he, hdir⟩ := List.mem_filter.mp he
      obtain ⟨kf, e1, e2, e3⟩ := (hex.added _).mp he
      simp at hdir
      rw [hdir] at e2
      rw [e1] at hx
      simp at hx
      obtain ⟨rel, c, _, ep, h0, hv, hc, _⟩ := wA.read _ _ e2
      rw [hcont hc, ep] at hx
      refine ⟨rel, c, h0, visA.mp hv, ?_, hx.symm⟩
      intro b hs
      obtain ⟨k', hk'⟩ := wB.shown _ _ hs
      rw [← ep] at hk'
      exact e3 _ hk'
    · rintro ⟨rel, c, h0, hv, hno, rfl⟩
      have hs := (visA.mpr hv).shown h0
      obtain ⟨kf, hk⟩ := wA.shown _ _ hs
      obtain ⟨c2, _, _, hv2, hc, _⟩ := wA.file (wA.names _ _ hs) hk
      have := hv2.unique (visA.mpr hv)
      subst this
      refine List.mem_filterMap.mpr ⟨⟨relPath rel, false, some kf⟩, List.mem_filter.mpr ⟨(hex.added _).mpr ⟨kf, rfl, hk, ?_⟩, rfl⟩, ?_⟩
      · rintro ⟨k', b⟩ hk'
        obtain ⟨rel', e, hs'⟩ := wB.only _ _ _ hk'
        have := inj (wA.names _ _ hs) (wB.names _ _ hs') e
        subst this
        exact hno b hs'
      · simp [hcont hc]
  · intro e he
    obtain ⟨rel, d, d', _, _, _, mA, mB⟩ := hmodA e he
    exact rd wB mB
  · intro e he
    obtain ⟨rel, d, d', _, _, _, mA, mB⟩ := hmodA e he
    exact rd wA mA
  · rintro ⟨e, he, rel, hp, hdir⟩
    obtain ⟨rel', d, d', ep, hs, hs', mA, mB⟩ := hmodA e he
    have rA := readB wA mA
    have rB := readB wB mB
    have hdd : d = true ∨ d' = true := by
      rcases hdir with hdir | hdir
      · have := inj (wA.names _ _ hdir) (wA.names _ _ hs) (hp.symm.trans ep)
        subst this
        obtain ⟨_, e1, h1⟩ := hdir
        obtain ⟨_, e2, h2⟩ := hs
        rw [e1] at e2
        simp at e2
        subst e2
        exact Or.inl (h2.unique h1)
      · have := inj (wB.names _ _ hdir) (wB.names _ _ hs') (hp.symm.trans ep)
        subst this
        obtain ⟨_, e1, h1⟩ := hdir
        obtain ⟨_, e2, h2⟩ := hs'
        rw [e1] at e2
        simp at e2
        subst e2
        exact Or.inr (h2.unique h1)
    refine ⟨e, he, ?_⟩
    rcases hdd with rfl | rfl
    · simp at rA; exact Or.inr rA
    · simp at rB; exact Or.inl rB
  · intro hnd
    have hm2 : ∀ e ∈ r.modified, ∃ rel, e.path = relPath rel ∧ (relPath rel, e.newKey, false) ∈ A ∧ (relPath rel, e.originalKey, false) ∈ B ∧ ∀ x ∈ rel, okName x := by
      intro e he
      obtain ⟨rel, d, d', ep, hs, hs', mA, mB⟩ := hmodA e he
      have e1 : d = false := by
        cases d with
        | false => rfl
        | true => exact (hnd ⟨e, he, rel, ep, Or.inl hs⟩).elim
      have e2 : d' = false := by
        cases d' with
        | false => rfl
        | true => exact (hnd ⟨e, he, rel, ep, Or.inr hs'⟩).elim
      subst e1 e2
      exact ⟨rel, ep, mA, mB, wA.names _ _ hs⟩
    have hm : ∀ e ∈ r.modified, readAll db n e.originalKey = .ok (cont e.originalKey) ∧ readAll db n e.newKey = .ok (cont e.newKey) := by
      intro e he
      obtain ⟨rel, _, mA, mB, _⟩ := hm2 e he
      obtain ⟨c, hc⟩ := (by simpa using readB wA mA : ∃ c, readAll db n e.newKey = .ok c)
      obtain ⟨c', hc'⟩ := (by simpa using readB wB mB : ∃ c, readAll db n e.originalKey = .ok c)
      rw [hcont hc, hcont hc']
      exact ⟨hc', hc⟩
    refine ⟨hm, fun γ g x => ?_⟩
    constructor
    · intro h
      obtain ⟨e, he, hx⟩ := List.mem_map.mp h
      obtain ⟨rel, ep, mA, mB, hok⟩ := hm2 e he
      obtain ⟨c, q, h0, hv, hc, hf, hp, hg⟩ := wA.file hok mA
      obtain ⟨c', q', _, hv', hc', hf', hp', hg'⟩ := wB.file hok mB
      refine ⟨rel, c, c', h0, visA.mp hv, hv', ?_, ?_⟩
      · rw [Ne, ← same_key_iff hf hf' hp hp' hg hg']
        exact ((hex.modified _).mp he).2.2
      · rw [← hx, hcont hc, hcont hc', ep]
    · rintro ⟨rel, c, c', h0, hv, hv', hne, rfl⟩
      have hs := (visA.mpr hv).shown h0
      have hs' := hv'.shown h0
      obtain ⟨kf, hk⟩ := wA.shown _ _ hs
      obtain ⟨kf', hk'⟩ := wB.shown _ _ hs'
      obtain ⟨c2, q, _, hv2, hc, hf, hp, hg⟩ := wA.file (wA.names _ _ hs) hk
      obtain ⟨c2', q', _, hv2', hc', hf', hp', hg'⟩ := wB.file (wB.names _ _ hs') hk'
      have := hv2.unique (visA.mpr hv)
      subst this
      have := hv2'.unique hv'
      subst this
      refine List.mem_map.mpr ⟨⟨relPath rel, kf', kf⟩, (hex.modified _).mpr ⟨⟨_, hk⟩, ⟨_, hk'⟩, ?_⟩, ?_⟩
      · rw [Ne, ← same_key_iff hf hf' hp hp' hg hg'] at hne
        exact hne
      · simp only [hcont hc, hcont hc']

/-- **C55** for snapshots of directories (or of one directory and nothing): if a directory is among the modified entries, computing the statistics panics. Otherwise they
list exactly: for each new file its number of newlines, for each file with changed contents the added and removed lines of the line diff. -/
theorem C55_snapshots (E : Env) (lib : DiffLib) (db : Db) (ca : Cache) (k : Key) (t : Option Key) (s : Src) (s' : Option Src) (h1 : Snapshot E db k s.fs s.filter s.n s.path)
    (h2 : OptSnapshot E db t s') (hr1 : ReadO E (some s)) (hr2 : ReadO E s') (fs : Fs) (iter : Nat → List Path → List Path) (hi : IterOk iter)
    (n : Nat) (hn : 7 ≤ n) (hn1 : s.n ≤ n) (hn2 : DepthO n s') (r : DiffResult) (hr : (compare E fs iter n (.database k) t (db, ca)).1 = .ok r) :
    (DirModified r (some s) s' → lineStat lib db n r = .panic) ∧
    (¬ DirModified r (some s) s' → ∃ l, lineStat lib db n r = .ok l ∧ ∀ x, x ∈ l ↔
      (∃ rel c, rel ≠ [] ∧ VisFile s.fs s.filter s.path rel c ∧ (∀ b, ¬ ShownO s' rel b) ∧ x = addedLines (relPath rel) c) ∨
      (∃ rel c c', rel ≠ [] ∧ VisFile s.fs s.filter s.path rel c ∧ VisO s' rel c' ∧ c ≠ c' ∧ x = changedLines lib (relPath rel) c' c)) := by
  obtain ⟨cont, hdel, ha, hadd, hm1, hm2, hpan, hok⟩ := compare_entries E db ca k t s s' h1 h2 hr1 hr2 fs iter hi n hn hn1 hn2 r hr
  have hd : ∀ e ∈ r.deleted, e.isDir = false → ∀ k, e.originalKey = some k → readAll db n k = .ok (cont k) := by
    rw [hdel]; simp
  constructor
  · intro hdm
    unfold lineStat
    rw [countStat_ok ha, countStat_ok hd, mapRes_panic (f := modifiedStat lib db n)]
    · rfl
    · intro e he
      unfold modifiedStat
      rcases hm1 e he with h | h <;> rcases hm2 e he with h' | h' <;> rw [h] <;> simp [Res.unwrap, h']
    · obtain ⟨e, he, h⟩ := hpan hdm
      refine ⟨e, he, ?_⟩
      unfold modifiedStat
      rcases h with h | h
      · rw [h]; rfl
      · rcases hm1 e he with h' | h' <;> rw [h'] <;> simp [Res.unwrap, h]
  · intro hnd
    obtain ⟨hm, hmod⟩ := hok hnd
    refine ⟨_, C55_exact lib db n r cont ha hd hm, fun x => ?_⟩
    rw [List.mem_append, List.mem_append, hdel, hadd _ (addedLines) x, hmod _ (changedLines lib) x]
    simp

end Snap.Props
