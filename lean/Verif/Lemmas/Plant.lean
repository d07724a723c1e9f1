import Verif.Lemmas.Listed
/-! What fetching does to a file tree when nothing is in the way and no call fails. -/
namespace Snap

/-- Parents are directories. -/
def AtWf (a : AtFn) : Prop := ∀ q n, a (q ++ [n]) ≠ none → a q = some .dir

theorem AtWf.above {a : AtFn} (hw : AtWf a) {q r : List Bytes} (hr : r ≠ []) (h : a (q ++ r) ≠ none) : a q = some .dir := by
  induction r generalizing q with
  | nil => exact absurd rfl hr
  | cons x r ih =>
    by_cases h0 : r = []
    · subst h0; exact hw q x h
    · have : q ++ x :: r = (q ++ [x]) ++ r := by simp
      rw [this] at h
      have := ih h0 h
      exact hw q x (by rw [this]; simp)

theorem AtWf.prefix {a : AtFn} (hw : AtWf a) {r q : List Bytes} (hp : r <+: q) (hd : a q = some .dir) : a r = some .dir := by
  obtain ⟨t, rfl⟩ := hp
  by_cases h : t = []
  · subst h; simpa using hd
  · exact hw.above h (by rw [hd]; simp)

/-- Nothing but directories on the way to `q`. -/
def Open (a : AtFn) (q : List Bytes) : Prop := ∀ r, r <+: q → a r = none ∨ a r = some .dir

theorem Open.prefix {a : AtFn} {q r : List Bytes} (h : Open a q) (hp : r <+: q) : Open a r := fun x hx => h x (hx.trans hp)

/-- All directories down to `q`. -/
def withDirs (a : AtFn) (q : List Bytes) : AtFn := fun x => if x <+: q then some .dir else a x

/-- A path without `..` and NUL. -/
def Clean (p : Path) : Prop := 0 ∉ p ∧ sDotDot ∉ p.comps

/-- Where relative resolution starts for one of the three bases of normal paths. -/
def isBase (b : Path) : Prop := b = [] ∨ b = sSlash ∨ b = sDot

/-- Resolution in which the empty path is the current directory. -/
def Fs.locate' (fs : Fs) (p : Path) : Res (List Bytes) := if p = [] then .ok fs.cwd else fs.locate p

theorem locate'_join (fs : Fs) (hc : fs.at fs.cwd = some .dir) {p : Path} {n : Bytes} (hn : okName n) :
    fs.locate' (Path.join p n) = (fs.locate' p >>= fs.enter n) := by
  have hne : Path.join p n ≠ [] := join_ne_nil hn.comp.notAbs hn.1
  unfold Fs.locate'
  rw [if_neg hne]
  by_cases hp : p = []
  · subst hp
    rw [if_pos rfl, join_nil hn.comp.notAbs]
    unfold Fs.locate
    rw [if_neg hn.1, if_neg hn.2.2.2.2, hn.comp.notAbs, splitSlash_noslash hn.2.2.2.1]
    simp only [Bool.false_eq_true, if_false, Fs.walk, hc, Res.ok_bind, Fs.enter]
    rw [if_neg (by simp [hn.1, hn.2.1]), if_neg hn.2.2.1]
  · rw [if_neg hp, locate_join fs hp hn]

theorem locate'_base (fs : Fs) (hc : fs.at fs.cwd = some .dir) {b : Path} (hb : isBase b) : fs.locate' b = .ok (loc fs.cwd b) := by
  rcases hb with rfl | rfl | rfl
  · rfl
  · simp [Fs.locate', Fs.locate, sSlash, Path.isAbs, splitSlash, Fs.walk, loc, Path.comps, sDot, lexStep, sDotDot]
  · simp [Fs.locate', Fs.locate, sSlash, Path.isAbs, splitSlash, Fs.walk, loc, Path.comps, sDot, lexStep, hc]

theorem snocInd {α} {P : List α → Prop} (h0 : P []) (h1 : ∀ l a, P l → P (l ++ [a])) (l : List α) : P l := by
  have : ∀ n (l : List α), l.length = n → P l := by
    intro n
    induction n with
    | zero => intro l hl; rw [List.length_eq_zero_iff] at hl; exact hl ▸ h0
    | succ n ih =>
      intro l hl
      rcases List.eq_nil_or_concat l with rfl | ⟨l', a, rfl⟩
      · exact h0
      · rw [List.concat_eq_append] at hl ⊢
        exact h1 l' a (ih l' (by simpa using hl))
  exact this _ l rfl

theorem joins_snoc (b : Path) (ns : List Bytes) (n : Bytes) : joins b (ns ++ [n]) = Path.join (joins b ns) n := by simp [joins_append]

/-- On an open way, resolution succeeds, or fails because a directory is missing. -/
theorem locate'_open (fs : Fs) (hc : fs.at fs.cwd = some .dir) {b : Path} (hb : isBase b) (ns : List Bytes) (hn : ∀ n ∈ ns, okName n)
    (ho : Open fs.at (loc fs.cwd (joins b ns))) :
    fs.locate' (joins b ns) = .ok (loc fs.cwd (joins b ns)) ∨ fs.locate' (joins b ns) = .err .enoent := by
  induction ns using snocInd with
  | h0 => exact Or.inl (locate'_base fs hc hb)
  | h1 ns n ih =>
    have hn' : okName n := hn n (by simp)
    rw [joins_snoc] at ho ⊢
    rw [loc_join _ _ hn'] at ho ⊢
    rw [locate'_join fs hc hn']
    rcases ih (fun m hm => hn m (by simp [hm])) (ho.prefix (List.prefix_append _ _)) with h | h
    · rw [h, Res.ok_bind, Fs.enter]
      rcases ho (loc fs.cwd (joins b ns)) (List.prefix_append _ _) with h' | h' <;> rw [h']
      · exact Or.inr rfl
      · exact Or.inl rfl
    · rw [h]; exact Or.inr rfl

/-- If the directory a normal path names exists, resolution succeeds. -/
theorem locate'_dir (fs : Fs) (hc : fs.at fs.cwd = some .dir) (hw : AtWf fs.at) {b : Path} (hb : isBase b) (ns : List Bytes) (hn : ∀ n ∈ ns, okName n)
    (hd : fs.at (loc fs.cwd (joins b ns)) = some .dir) : fs.locate' (joins b ns) = .ok (loc fs.cwd (joins b ns)) := by
  induction ns using snocInd with
  | h0 => exact locate'_base fs hc hb
  | h1 ns n ih =>
    have hn' : okName n := hn n (by simp)
    rw [joins_snoc] at hd ⊢
    rw [loc_join _ _ hn'] at hd ⊢
    have hp := hw _ _ (by rw [hd]; simp)
    rw [locate'_join fs hc hn', ih (fun m hm => hn m (by simp [hm])) hp, Res.ok_bind, Fs.enter, hp]

theorem call_nofault {α} {onFail : Nat → Fs → Fs} {x : SM Fs α} {fs : Fs} (h : fs.faults = []) : Fs.call onFail x fs = x fs := by
  unfold Fs.call
  rw [h]
  have : ({ fs with faults := List.tail [] } : Fs) = fs := by
    cases fs; simp_all
  rw [this]

theorem dropTrailing_snoc (l : List Bytes) {n : Bytes} (hn : n ≠ []) : dropTrailing (l ++ [n]) = l ++ [n] := by
  induction l with
  | nil => simp [dropTrailing, hn]
  | cons a l ih =>
    rw [List.cons_append, dropTrailing, ih]
    cases l <;> simp

theorem splitSlash_join' {p n : Path} (hn : okName n) : ∃ l, splitSlash (Path.join p n) = l ++ [n] := by
  by_cases hp : p = []
  · subst hp; exact ⟨[], by rw [join_nil hn.comp.notAbs, splitSlash_noslash hn.2.2.2.1]; rfl⟩
  · obtain ⟨l, _, h⟩ := splitSlash_join hn.2.2.2.1 hp
    exact ⟨l, h⟩

theorem mkdir_join {fs : Fs} (hf : fs.faults = []) {p : Path} {n : Bytes} (hn : okName n) :
    Fs.mkdir (Path.join p n) fs = match fs.locate' (Path.join p n) with
      | .ok q => match fs.at q with
        | none => (.ok (), fs.set q .dir)
        | some _ => (.err .io, fs)
      | .err e => (.err e, fs)
      | .panic => (.panic, fs)
      | .fuel => (.fuel, fs) := by
  unfold Fs.mkdir
  refine (call_nofault hf).trans ?_
  have hne : Path.join p n ≠ [] := join_ne_nil hn.comp.notAbs hn.1
  obtain ⟨l, hl⟩ := splitSlash_join' (p := p) hn
  unfold Fs.locate' Fs.locate
  rw [if_neg hne, if_neg hne]
  simp only [hne, if_false]
  split
  · rfl
  · rw [hl, dropTrailing_snoc _ hn.1]
    rfl

theorem parent_join (p : Path) {n : Bytes} (hn : okName n) : Path.parent (Path.join p n) = some (Path.norm p) := by
  unfold Path.parent
  rw [comps_join hn.comp]
  simp only [List.getLast?_append, List.getLast?_singleton, Option.some_or, List.dropLast_concat]
  rw [if_neg]
  · rfl
  · rintro rfl; exact hn.2.2.2.1 (by simp [sSlash])

theorem comps_base {b : Path} (hb : isBase b) : b.norm = b := by
  rcases hb with rfl | rfl | rfl <;> decide

theorem norm_joins {b : Path} (hb : isBase b) {ns : List Bytes} (hn : ∀ n ∈ ns, okComp n) : (joins b ns).norm = joins b ns := by
  unfold Path.norm joins
  rw [comps_foldl_join hn]
  rcases hb with rfl | rfl | rfl
  · cases ns with
    | nil => rfl
    | cons n ns =>
      simp only [comps_nil, List.nil_append, Path.ofComps, List.foldl_cons]
      rw [join_nil (hn n (by simp)).notAbs]
  · rw [comps_root]; rfl
  · rw [comps_dot]; rfl

theorem isDir_of {fs : Fs} {p : Path} (hl : fs.locate p = .ok (loc fs.cwd p)) (hd : fs.at (loc fs.cwd p) = some .dir) : fs.isDir p = true := by
  unfold Fs.isDir
  rw [metadata_of hl hd (by simp)]
  decide

theorem withDirs_eq {a : AtFn} (hw : AtWf a) {q : List Bytes} (hd : a q = some .dir) : withDirs a q = a := by
  funext x
  unfold withDirs
  split
  · rename_i h; exact (hw.prefix h hd).symm
  · rfl

theorem prefix_snoc_iff {x q : List Bytes} {n : Bytes} : x <+: q ++ [n] ↔ x = q ++ [n] ∨ x <+: q := List.prefix_concat_iff

theorem withDirs_snoc {a : AtFn} {q : List Bytes} {n : Bytes} : upd (withDirs a q) (q ++ [n]) .dir = withDirs a (q ++ [n]) := by
  funext x
  unfold upd withDirs
  by_cases h1 : x = q ++ [n]
  · simp [h1]
  · simp only [h1, if_false, prefix_snoc_iff, false_or]

theorem createDirAllN_ok {fs : Fs} (hf : fs.faults = []) (hc : fs.at fs.cwd = some .dir) (hw : AtWf fs.at) {b : Path} (hb : isBase b) (ns : List Bytes)
    (hn : ∀ n ∈ ns, okName n) (ho : Open fs.at (loc fs.cwd (joins b ns))) (fuel : Nat) (hfu : (joins b ns).comps.length < fuel) :
    ∃ fs', Fs.createDirAllN fuel (joins b ns) fs = (.ok (), fs') ∧ fs'.faults = [] ∧ fs'.cwd = fs.cwd ∧ fs'.at = withDirs fs.at (loc fs.cwd (joins b ns)) := by
  induction ns using snocInd generalizing fuel with
  | h0 =>
    obtain ⟨fuel, rfl⟩ : ∃ f, fuel = f + 1 := ⟨fuel - 1, by omega⟩
    simp only [joins_nil] at *
    have hd : fs.at (loc fs.cwd b) = some .dir := by
      rcases hb with rfl | rfl | rfl
      · exact hc
      · simp [loc, comps_root, lexStep]
      · rw [loc, comps_dot]; simpa [lexStep, sDot, sSlash] using hc
    refine ⟨fs, ?_, hf, rfl, (withDirs_eq hw hd).symm⟩
    unfold Fs.createDirAllN
    by_cases h0 : b = []
    · subst h0; simp
    · have hcn : b.comps ≠ [] := by
        rcases hb with rfl | rfl | rfl
        · exact absurd rfl h0
        · rw [comps_root]; simp
        · rw [comps_dot]; simp
      rw [if_neg hcn]
      have hl := locate'_base fs hc hb
      rw [Fs.locate', if_neg h0] at hl
      have hm : Fs.mkdir b fs = (.err .io, fs) := by
        unfold Fs.mkdir
        refine (call_nofault hf).trans ?_
        rcases hb with rfl | rfl | rfl
        · exact absurd rfl h0
        · simp [sSlash, Path.isAbs, splitSlash, dropTrailing, Fs.walk]
        · simp [sDot, Path.isAbs, splitSlash, dropTrailing, Fs.walk, hc]
      rw [hm]
      simp only [isDir_of hl hd, if_true]
  | h1 ns n ih =>
    obtain ⟨fuel, rfl⟩ : ∃ f, fuel = f + 1 := ⟨fuel - 1, by omega⟩
    have hn' : okName n := hn n (by simp)
    have hns : ∀ m ∈ ns, okName m := fun m hm => hn m (by simp [hm])
    rw [joins_snoc] at ho hfu ⊢
    rw [loc_join _ _ hn'] at ho ⊢
    generalize hq : loc fs.cwd (joins b ns) = q at ho ih ⊢
    have hne : Path.join (joins b ns) n ≠ [] := join_ne_nil hn'.comp.notAbs hn'.1
    have hcn : (Path.join (joins b ns) n).comps ≠ [] := by rw [comps_join hn'.comp]; simp
    unfold Fs.createDirAllN
    rw [if_neg hcn]
    rcases ho (q ++ [n]) (List.prefix_refl _) with hx | hx
    · -- missing
      rcases ho q (List.prefix_append _ _) with hy | hy
      · -- parent missing
        have hm : Fs.mkdir (Path.join (joins b ns) n) fs = (.err .enoent, fs) := by
          rw [mkdir_join hf hn', locate'_join fs hc hn']
          rcases locate'_open fs hc hb ns hns (by rw [hq]; exact ho.prefix (List.prefix_append _ _)) with h | h
          · rw [h, Res.ok_bind, Fs.enter, hq, hy]
          · rw [h]; rfl
        rw [hm]
        simp only
        rw [parent_join _ hn', norm_joins hb (fun m hm => (hns m hm).comp)]
        simp only
        obtain ⟨fs1, e1, f1, c1, a1⟩ := ih hns (by exact ho.prefix (List.prefix_append _ _)) fuel (by rw [comps_join hn'.comp] at hfu; simp at hfu; omega)
        rw [e1]
        simp only
        have hw1 : AtWf fs1.at := by
          rw [a1]
          intro x m h
          unfold withDirs at h ⊢
          split
          · rfl
          · rename_i hxq
            rw [if_neg] at h
            · exact hw x m h
            · intro h'; exact hxq ((List.prefix_append _ _).trans h')
        have hc1 : fs1.at fs1.cwd = some .dir := by
          rw [a1, c1]; unfold withDirs; split
          · rfl
          · exact hc
        have hd1 : fs1.at q = some .dir := by rw [a1]; simp [withDirs]
        have hx1 : fs1.at (q ++ [n]) = none := by
          rw [a1]; unfold withDirs
          rw [if_neg, hx]
          intro h
          have := h.length_le
          simp at this
          omega
        have hm1 : Fs.mkdir (Path.join (joins b ns) n) fs1 = (.ok (), fs1.set (q ++ [n]) .dir) := by
          rw [mkdir_join f1 hn', locate'_join fs1 hc1 hn', locate'_dir fs1 hc1 hw1 hb ns hns (by rw [c1, hq]; exact hd1), Res.ok_bind, Fs.enter, c1, hq, hd1]
          simp only [hx1]
        rw [hm1]
        refine ⟨_, rfl, f1, c1, ?_⟩
        rw [at_set' _ (by simp), a1, withDirs_snoc]
      · have hm : Fs.mkdir (Path.join (joins b ns) n) fs = (.ok (), fs.set (q ++ [n]) .dir) := by
          rw [mkdir_join hf hn', locate'_join fs hc hn', locate'_dir fs hc hw hb ns hns (by rw [hq]; exact hy), Res.ok_bind, Fs.enter, hq, hy]
          simp only [hx]
        rw [hm]
        refine ⟨_, rfl, hf, rfl, ?_⟩
        rw [at_set' _ (by simp), ← withDirs_snoc, withDirs_eq hw hy]
    · have hy := hw q n (by rw [hx]; simp)
      have hl : fs.locate' (Path.join (joins b ns) n) = .ok (q ++ [n]) := by
        rw [locate'_join fs hc hn', locate'_dir fs hc hw hb ns hns (by rw [hq]; exact hy), Res.ok_bind, Fs.enter, hq, hy]
      have hm : Fs.mkdir (Path.join (joins b ns) n) fs = (.err .io, fs) := by
        rw [mkdir_join hf hn', hl]
        simp only [hx]
      rw [hm]
      have hloc : loc fs.cwd (Path.join (joins b ns) n) = q ++ [n] := by rw [loc_join _ _ hn', hq]
      rw [Fs.locate', if_neg hne] at hl
      simp only [isDir_of (p := Path.join (joins b ns) n) (by rw [hl, hloc]) (by rw [hloc]; exact hx), if_true]
      exact ⟨fs, rfl, hf, rfl, (withDirs_eq hw hx).symm⟩

theorem AtWf.withDirs {a : AtFn} (hw : AtWf a) (q : List Bytes) : AtWf (Snap.withDirs a q) := by
  intro x m h
  unfold Snap.withDirs at h ⊢
  split
  · rfl
  · rename_i hxq
    rw [if_neg] at h
    · exact hw x m h
    · intro h'; exact hxq ((List.prefix_append _ _).trans h')

theorem mem_of_splitSlash {p s : Bytes} {b : UInt8} (h : s ∈ splitSlash p) (hb : b ∈ s) : b ∈ p := by
  induction p generalizing s with
  | nil => simp [splitSlash] at h; subst h; simp at hb
  | cons a p ih =>
    unfold splitSlash at h
    split at h
    · rcases List.mem_cons.mp h with rfl | h
      · simp at hb
      · exact List.mem_cons_of_mem _ (ih h hb)
    · cases hs : splitSlash p with
      | nil => exact absurd hs (splitSlash_ne_nil p)
      | cons t ts =>
        rw [hs] at h ih
        rcases List.mem_cons.mp h with rfl | h
        · rcases List.mem_cons.mp hb with rfl | hb
          · simp
          · exact List.mem_cons_of_mem _ (ih (by simp) hb)
        · exact List.mem_cons_of_mem _ (ih (by simp [h]) hb)

/-- Splitting a clean path that ends in a name. -/
theorem clean_split {P : Path} (hcl : Clean P) (hl : P.lastIsName = true) :
    ∃ b ns n, isBase b ∧ (∀ m ∈ ns, okName m) ∧ okName n ∧ Path.parent P = some (joins b ns) ∧ P.comps = b.comps ++ ns ++ [n] ∧
      ∃ segs, splitSlash P = segs ++ [n] := by
  unfold Path.lastIsName at hl
  cases hs : (splitSlash P).getLast? with
  | none => rw [hs] at hl; simp at hl
  | some n =>
    rw [hs] at hl
    simp only [decide_eq_true_eq] at hl
    obtain ⟨segs, hsegs⟩ := List.getLast?_eq_some_iff.mp hs
    have h0 : 0 ∉ n := by
      intro h
      exact hcl.1 (mem_of_splitSlash (s := n) (by rw [hsegs]; simp) h)
    have hn : okName n := ⟨hl.1, hl.2.1, hl.2.2, splitSlash_mem (p := P) (by rw [hsegs]; simp), h0⟩
    have hname : ∀ m ∈ splitSlash P, m ≠ [] ∧ m ≠ sDot → m ∈ P.comps := by
      intro m hm h
      unfold Path.comps
      simp [hm, h.1, h.2]
    have hok : ∀ m ∈ (splitSlash P).filter (fun s => s ≠ [] ∧ s ≠ sDot), okName m := by
      intro m hm
      obtain ⟨h1, h2⟩ := List.mem_filter.mp hm
      simp only [decide_eq_true_eq] at h2
      refine ⟨h2.1, h2.2, ?_, splitSlash_mem h1, fun h => hcl.1 (mem_of_splitSlash h1 h)⟩
      rintro rfl
      exact hcl.2 (hname _ h1 h2)
    have hfil : (splitSlash P).filter (fun s => s ≠ [] ∧ s ≠ sDot) = segs.filter (fun s => s ≠ [] ∧ s ≠ sDot) ++ [n] := by
      rw [hsegs, List.filter_append]
      congr 1
      simp [hn.1, hn.2.1]
    obtain ⟨b, hb, hbc⟩ : ∃ b, isBase b ∧ P.comps = b.comps ++ segs.filter (fun s => s ≠ [] ∧ s ≠ sDot) ++ [n] := by
      have hc : P.comps = _ ++ (splitSlash P).filter (fun s => s ≠ [] ∧ s ≠ sDot) := rfl
      rw [hfil, ← List.append_assoc] at hc
      split at hc
      · exact ⟨sSlash, Or.inr (Or.inl rfl), by rw [comps_root]; exact hc⟩
      · split at hc
        · exact ⟨sDot, Or.inr (Or.inr rfl), by rw [comps_dot]; exact hc⟩
        · exact ⟨[], Or.inl rfl, by rw [comps_nil]; exact hc⟩
    rw [hfil] at hok
    have hok' : ∀ m ∈ segs.filter (fun s => s ≠ [] ∧ s ≠ sDot), okName m := fun m hm => hok m (List.mem_append_left _ hm)
    refine ⟨b, _, n, hb, hok', hn, ?_, hbc, segs, hsegs⟩
    unfold Path.parent
    rw [hbc]
    simp only [List.getLast?_append, List.getLast?_singleton, Option.some_or, List.dropLast_concat]
    rw [if_neg]
    · rw [← norm_joins hb (fun m hm => (hok' m hm).comp)]
      unfold Path.norm joins
      rw [comps_foldl_join (fun m hm => (hok' m hm).comp)]
    · rintro rfl; exact hn.2.2.2.1 (by simp [sSlash])

theorem walk_clean {fs : Fs} (hw : AtWf fs.at) (cur : List Bytes) (l : List Bytes) (h47 : ∀ s ∈ l, 47 ∉ s) (hdd : sDotDot ∉ l) (n : Bytes) (hn : okName n)
    (hd : fs.at (l.foldl lexStep cur) = some .dir) : fs.walk cur (l ++ [n]) = .ok (l.foldl lexStep cur ++ [n]) := by
  have hpre : ∀ (l : List Bytes) (cur : List Bytes), (∀ s ∈ l, 47 ∉ s) → sDotDot ∉ l → cur <+: l.foldl lexStep cur := by
    intro l
    induction l with
    | nil => intro cur _ _; exact List.prefix_refl _
    | cons s l ih =>
      intro cur h1 h2
      rw [List.foldl_cons]
      refine List.IsPrefix.trans ?_ (ih _ (fun t ht => h1 t (by simp [ht])) (fun h => h2 (by simp [h])))
      unfold lexStep
      rw [if_neg (by rintro rfl; exact h1 sSlash (by simp) (by simp [sSlash]))]
      split
      · exact List.prefix_refl _
      · rw [if_neg (by rintro rfl; exact h2 (by simp))]; exact List.prefix_append _ _
  induction l generalizing cur with
  | nil =>
    simp only [List.nil_append, List.foldl_nil, Fs.walk] at hd ⊢
    rw [hd]
    simp only
    rw [if_neg (by simp [hn.1, hn.2.1]), if_neg hn.2.2.1]
  | cons s l ih =>
    have hcur := hw.prefix (hpre (s :: l) cur h47 hdd) hd
    rw [List.cons_append, Fs.walk, hcur]
    simp only
    have hs : (if s = [] ∨ s = sDot then cur else if s = sDotDot then cur.dropLast else cur ++ [s]) = lexStep cur s :=
      (lexStep_comp (h47 s (by simp))).symm
    rw [hs, List.foldl_cons]
    exact ih _ (fun t ht => h47 t (by simp [ht])) (fun h => hdd (by simp [h])) hd

/-- Writing one file the way `get_fs_item` does. -/
def plantOne (P : Path) (ls : List Bytes) : SM Fs Unit := do
  match Path.parent P with
  | some q => Fs.createDirAll q
  | none => pure ()
  let f ← Fs.createNew P
  SM.each (Fs.writeAll f) ls

theorem each_writeAll {fs : Fs} (hf : fs.faults = []) (q : List Bytes) (c : Bytes) (md : FileMeta) (ha : fs.at q = some (.file c md)) (ls : List Bytes) :
    ∃ fs', SM.each (Fs.writeAll q) ls fs = (.ok (), fs') ∧ fs'.faults = [] ∧ fs'.cwd = fs.cwd ∧ fs'.at = upd fs.at q (.file (c ++ ls.flatten) md) := by
  induction ls generalizing fs c with
  | nil =>
    refine ⟨fs, rfl, hf, rfl, ?_⟩
    funext x
    unfold upd
    split
    · rename_i h; subst h; simpa using ha
    · rfl
  | cons d ls ih =>
    have h1 : Fs.writeAll q d fs = (.ok (), Fs.append q d fs) := by
      unfold Fs.writeAll; rw [call_nofault hf]; rfl
    have hq := at_file_ne_root ha
    have h2 : (Fs.append q d fs).at = upd fs.at q (.file (c ++ d) md) := by
      unfold Fs.append; rw [ha]; exact at_set' _ hq _
    obtain ⟨fs', e, f1, c1, a1⟩ := ih (fs := Fs.append q d fs) (by simp [hf]) (c ++ d) (by rw [h2]; simp [upd])
    refine ⟨fs', ?_, f1, by simpa using c1, ?_⟩
    · unfold SM.each
      show SM.bind _ _ _ = _
      unfold SM.bind
      rw [h1]
      exact e
    · rw [a1, h2]
      funext x
      unfold upd
      split
      · simp
      · rfl

theorem plantOne_ok {fs : Fs} (hf : fs.faults = []) (hc : fs.at fs.cwd = some .dir) (hw : AtWf fs.at) {P : Path} (hcl : Clean P) (hl : P.lastIsName = true)
    (hfree : fs.at (loc fs.cwd P) = none) (ho : Open fs.at (loc fs.cwd P)) (ls : List Bytes) :
    ∃ fs', plantOne P ls fs = (.ok (), fs') ∧ fs'.faults = [] ∧ fs'.cwd = fs.cwd ∧
      ∃ md, fs'.at = upd (withDirs fs.at (loc fs.cwd P).dropLast) (loc fs.cwd P) (.file ls.flatten md) := by
  obtain ⟨b, ns, n, hb, hns, hn, hpar, hcomps, segs, hsegs⟩ := clean_split hcl hl
  have hloc : ∀ cwd, loc cwd P = loc cwd (joins b ns) ++ [n] := by
    intro cwd
    unfold loc joins
    rw [hcomps, comps_foldl_join (fun m hm => (hns m hm).comp), List.foldl_append]
    simp only [List.foldl_cons, List.foldl_nil]
    rw [lexStep_comp hn.2.2.2.1]
    rw [if_neg (by simp [hn.1, hn.2.1]), if_neg hn.2.2.1]
  rw [hloc] at hfree ho ⊢
  generalize hq : loc fs.cwd (joins b ns) = q at hfree ho ⊢
  obtain ⟨fs1, e1, f1, c1, a1⟩ := createDirAllN_ok hf hc hw hb ns hns (by rw [hq]; exact ho.prefix (List.prefix_append _ _)) ((joins b ns).comps.length + 1) (by omega)
  rw [hq] at a1
  have hnq : ¬ (q ++ [n]) <+: q := by intro h; have := h.length_le; simp at this; omega
  have hfree1 : fs1.at (q ++ [n]) = none := by rw [a1]; unfold withDirs; rw [if_neg hnq, hfree]
  have hw1 : AtWf fs1.at := by rw [a1]; exact hw.withDirs q
  have hd1 : fs1.at q = some .dir := by rw [a1]; simp [withDirs]
  have hne : P ≠ [] := by rintro rfl; simp [Path.lastIsName, splitSlash] at hl
  have hl1 : fs1.locate P = .ok (q ++ [n]) := by
    unfold Fs.locate
    rw [if_neg hne, if_neg hcl.1, hsegs, c1]
    have h47 : ∀ s ∈ segs, 47 ∉ s := fun s hs => splitSlash_mem (p := P) (by rw [hsegs]; simp [hs])
    have hfold : segs.foldl lexStep (if Path.isAbs P = true then [] else fs.cwd) = q := by
      have h := loc_segs fs.cwd P
      rw [hloc, hq, hsegs, List.foldl_append] at h
      simp only [List.foldl_cons, List.foldl_nil] at h
      rw [lexStep_comp hn.2.2.2.1, if_neg (by simp [hn.1, hn.2.1]), if_neg hn.2.2.1] at h
      exact (List.append_inj_left' h rfl).symm
    rw [← hfold]
    refine walk_clean hw1 _ segs h47 ?_ n hn (by rw [hfold]; exact hd1)
    intro h
    refine hcl.2 ?_
    unfold Path.comps
    refine List.mem_append_right _ (List.mem_filter.mpr ⟨by rw [hsegs]; simp [h], by decide⟩)
  have h2 : Fs.createNew P fs1 = (.ok (q ++ [n]), { fs1.set (q ++ [n]) (.file [] fs1.nextMeta) with metas := fs1.metas.tail }) := by
    unfold Fs.createNew
    refine (call_nofault f1).trans ?_
    rw [hl1]
    simp only [hl, if_true, hfree1]
  obtain ⟨fs3, e3, f3, c3, a3⟩ := each_writeAll (fs := { fs1.set (q ++ [n]) (.file [] fs1.nextMeta) with metas := fs1.metas.tail }) f1 (q ++ [n]) [] fs1.nextMeta
    (by show (fs1.set (q ++ [n]) (.file [] fs1.nextMeta)).at _ = _; rw [at_set' _ (by simp)]; simp [upd]) ls
  refine ⟨fs3, ?_, f3, by rw [c3]; exact c1, fs1.nextMeta, ?_⟩
  · unfold plantOne
    rw [hpar]
    simp only [SM.bind_apply]
    have e1' : Fs.createDirAll (joins b ns) fs = (.ok (), fs1) := e1
    rw [e1']
    simp only
    rw [h2]
    exact e3
  · rw [a3]
    show upd (fs1.set _ _).at _ _ = _
    rw [at_set' _ (by simp), a1]
    simp only [List.dropLast_concat, List.nil_append]
    funext x
    unfold upd
    split <;> rfl

end Snap
