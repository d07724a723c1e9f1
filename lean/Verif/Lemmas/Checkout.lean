import Verif.Lemmas.Get
import Verif.Lemmas.Listed
/-! What the calls made by `checkout_fs_item` do to the tree. -/
namespace Snap

/-- Names of entries, seen through the lookup. -/
def AtNames (a : AtFn) : Prop := ∀ q n, a (q ++ [n]) ≠ none → okName n

theorem call_ok {α} {onFail : Nat → Fs → Fs} {x : SM Fs α} {fs fs' : Fs} {a : α} (h : Fs.call onFail x fs = (.ok a, fs')) :
    x { fs with faults := fs.faults.tail } = (.ok a, fs') := by
  unfold Fs.call at h
  split at h
  · simp at h
  · exact h

theorem walk_congr {fs fs' : Fs} (h : fs.at = fs'.at) (cur l : List Bytes) : fs.walk cur l = fs'.walk cur l := by
  induction l generalizing cur with
  | nil => rfl
  | cons s l ih => unfold Fs.walk; rw [h]; split <;> first | exact ih _ | rfl

theorem locate_congr {fs fs' : Fs} (h : fs.at = fs'.at) (hc : fs.cwd = fs'.cwd) {p : Path} : fs.locate p = fs'.locate p := by
  unfold Fs.locate; rw [walk_congr h, hc]

/-- As `pres_createDirAllN`; no call is made for the empty path. -/
theorem pres_createDirAllN' {cwd J} (n : Nat) {p : Path}
    (h : ∀ q : Path, q.comps ≠ [] → q.comps <+: p.comps → ∀ a, J a → a (loc cwd q) = none → J (upd a (loc cwd q) .dir)) :
    Pres (TreeInv cwd J) (Fs.createDirAllN n p) (fun _ => True) := by
  induction n generalizing p with
  | zero => exact fun s hs => ⟨hs, fun _ _ => trivial⟩
  | succ n ih =>
    intro fs hs
    refine ⟨?_, fun _ _ => trivial⟩
    unfold Fs.createDirAllN
    split
    · exact hs
    · rename_i hne
      have hm := pres_mkdir (p := p) (h p hne (List.prefix_refl _))
      have h1 := (hm fs hs).1
      split
      · rename_i e; rw [e] at h1; exact h1
      · rename_i e; rw [e] at h1
        split
        · exact h1
        · rename_i q hq
          obtain ⟨c, hc⟩ := parent_comps hq
          have h2 := (ih (p := q) (fun q' h0 hq' => h q' h0 (by rw [hc]; exact hq'.trans (List.prefix_append _ _))) _ h1).1
          split
          · rename_i e2; rw [e2] at h2
            have h3 := (hm _ h2).1
            split
            · rename_i e3; rw [e3] at h3; exact h3
            · rename_i e3; rw [e3] at h3; split <;> exact h3
          · exact h2
      · rename_i e; rw [e] at h1
        split <;> exact h1

theorem foldl_lexStep_names (cur : List Bytes) {l : List Bytes} (h : ∀ s ∈ l, okComp s ∧ s ≠ sDotDot) : l.foldl lexStep cur = cur ++ l := by
  induction l generalizing cur with
  | nil => simp
  | cons s l ih =>
    obtain ⟨h1, h2⟩ := h s (by simp)
    rw [List.foldl_cons, lexStep_comp h1.2.2, if_neg (by simp [h1.1, h1.2.1]), if_neg h2, ih _ fun x hx => h x (by simp [hx])]
    simp

/-- The ancestors that `create_dir_all` would create lie above the location. -/
theorem loc_prefix {cwd : List Bytes} {p q : Path} (hcl : sDotDot ∉ p.comps) (h0 : q.comps ≠ []) (h : q.comps <+: p.comps) : loc cwd q <+: loc cwd p := by
  obtain ⟨r, hr⟩ := h
  obtain ⟨hd, t, hs, hd', ht⟩ := comps_shape p
  have hrt : ∀ s ∈ r, okComp s ∧ s ≠ sDotDot := by
    intro s hsr
    have hdd : s ≠ sDotDot := by rintro rfl; exact hcl (by rw [← hr]; simp [hsr])
    refine ⟨?_, hdd⟩
    rw [hs] at hr
    have hlen : hd.length ≤ q.comps.length := by
      cases hq : q.comps with
      | nil => exact absurd hq h0
      | cons a l => rcases hd' with rfl | rfl | rfl <;> simp
    have : r = (hd ++ t).drop q.comps.length := by rw [← hr]; simp
    rw [this, List.drop_append, List.drop_eq_nil_of_le hlen, List.nil_append] at hsr
    exact ht s (List.drop_subset _ _ hsr)
  refine ⟨r, ?_⟩
  unfold loc
  rw [← hr, List.foldl_append, foldl_lexStep_names _ hrt]

theorem createDirAll_same {fs : Fs} (hw : AtWf fs.at) {path : Path} (hcl : sDotDot ∉ path.comps) (hd : fs.at (loc fs.cwd path) = some .dir) :
    (Fs.createDirAll path fs).2.at = fs.at ∧ (Fs.createDirAll path fs).2.cwd = fs.cwd := by
  have := (pres_createDirAllN' (cwd := fs.cwd) (J := fun a => a = fs.at) (path.comps.length + 1) (p := path) (by
    intro q h0 hq a ha hn
    subst ha
    have h := hw.prefix (loc_prefix (cwd := fs.cwd) hcl h0 hq) hd
    rw [h] at hn; simp at hn) fs ⟨rfl, rfl⟩).1
  exact ⟨this.2, this.1⟩

theorem walk_last {fs : Fs} {cur q : List Bytes} {l : List Bytes} {n : Bytes} (hn : okName n) (h : fs.walk cur (l ++ [n]) = .ok q) :
    ∃ d, q = d ++ [n] ∧ fs.at d = some .dir := by
  rw [walk_append] at h
  obtain ⟨d, h1, h2⟩ := Res.bind_eq_ok h
  unfold Fs.walk at h2
  rw [if_neg (by simp [hn.1, hn.2.1]), if_neg hn.2.2.1] at h2
  cases ha : fs.at d with
  | none => rw [ha] at h2; simp at h2
  | some e =>
    rw [ha] at h2
    cases e with
    | dir =>
      simp only [Fs.walk] at h2
      exact ⟨d, by simpa using h2.symm, ha⟩
    | _ => simp at h2

/-- A successful `File::create`. -/
theorem create_ok {fs fs' : Fs} {p : Path} {q : List Bytes} (hcl : Clean p) (h : Fs.create p fs = (.ok q, fs')) :
    q = loc fs.cwd p ∧ fs'.cwd = fs.cwd ∧ (fs.at q = none ∨ ∃ c md, fs.at q = some (.file c md)) ∧ (∃ md, fs'.at = upd fs.at q (.file [] md)) ∧
      ∃ d n, q = d ++ [n] ∧ okName n ∧ fs.at d = some .dir := by
  have h' := call_ok h
  dsimp only at h'
  have hat : ({ fs with faults := fs.faults.tail } : Fs).at = fs.at := at_congr rfl
  cases hl : ({ fs with faults := fs.faults.tail } : Fs).locate p with
  | ok q' =>
    have hq := locate_loc hl
    rw [hl] at h'
    simp only at h'
    split at h'
    · rename_i hln
      have hlast : ∃ d n, q' = d ++ [n] ∧ okName n ∧ fs.at d = some .dir := by
        obtain ⟨_, _, n, _, _, hn, _, _, segs, hsegs⟩ := clean_split hcl hln
        unfold Fs.locate at hl
        split at hl
        · simp at hl
        · split at hl
          · simp at hl
          · rw [hsegs] at hl
            obtain ⟨d, h1, h2⟩ := walk_last hn hl
            exact ⟨d, n, h1, hn, by rw [hat] at h2; exact h2⟩
      cases ha : ({ fs with faults := fs.faults.tail } : Fs).at q' with
      | none =>
        rw [ha] at h'
        simp at h'
        obtain ⟨rfl, rfl⟩ := h'
        refine ⟨hq, rfl, Or.inl (by rw [← hat]; exact ha), ⟨fs.nextMeta, ?_⟩, hlast⟩
        rw [← hat, ← at_set' _ (at_ne_root ha)]
        exact at_congr rfl
      | some e =>
        rw [ha] at h'
        cases e with
        | file c md =>
          simp at h'
          obtain ⟨rfl, rfl⟩ := h'
          refine ⟨hq, rfl, Or.inr ⟨c, md, by rw [← hat]; exact ha⟩, ⟨⟨md.ino, fs.nextMeta.mtime⟩, ?_⟩, hlast⟩
          rw [← hat, ← at_set' _ (at_file_ne_root ha)]
          exact at_congr rfl
        | dir => simp at h'
        | special => simp at h'
        | broken => simp at h'
    · simp at h'
  | err e => rw [hl] at h'; simp at h'
  | panic => rw [hl] at h'; simp at h'
  | fuel => rw [hl] at h'; simp at h'

theorem each_writeAll_ok {fs fs' : Fs} {q : List Bytes} {c : Bytes} {md : FileMeta} (ha : fs.at q = some (.file c md)) {ls : List Bytes}
    (h : SM.each (Fs.writeAll q) ls fs = (.ok (), fs')) : fs'.cwd = fs.cwd ∧ fs'.at = upd fs.at q (.file (c ++ ls.flatten) md) := by
  induction ls generalizing fs c with
  | nil =>
    have h' : (Res.ok (), fs) = (.ok (), fs') := h
    simp at h'
    subst h'
    refine ⟨rfl, ?_⟩
    funext x
    unfold upd
    split
    · rename_i hx; subst hx; simpa using ha
    · rfl
  | cons d ls ih =>
    obtain ⟨_, fs1, h1, h2⟩ := bind_ok (x := Fs.writeAll q d) (f := fun _ => SM.each (Fs.writeAll q) ls) h
    have h1' := call_ok h1
    have h1'' : (Res.ok (), Fs.append q d { fs with faults := fs.faults.tail }) = (.ok (), fs1) := h1'
    simp at h1''
    subst h1''
    have hat : ({ fs with faults := fs.faults.tail } : Fs).at = fs.at := at_congr rfl
    have h3 : (Fs.append q d { fs with faults := fs.faults.tail }).at = upd fs.at q (.file (c ++ d) md) := by
      unfold Fs.append
      rw [show ({ fs with faults := fs.faults.tail } : Fs).at q = some (.file c md) by rw [hat]; exact ha]
      simp only
      rw [at_set' _ (at_file_ne_root ha), hat]
    obtain ⟨h4, h5⟩ := ih (c := c ++ d) (by rw [h3]; simp [upd]) h2
    refine ⟨by simpa using h4, ?_⟩
    rw [h5, h3]
    funext x
    unfold upd
    split
    · simp
    · rfl

theorem atWf_create {a : AtFn} (hw : AtWf a) {d : List Bytes} {n : Bytes} (hd : a d = some .dir) (hf : a (d ++ [n]) = none ∨ ∃ c md, a (d ++ [n]) = some (.file c md))
    (c : Bytes) (md : FileMeta) : AtWf (upd a (d ++ [n]) (.file c md)) := by
  intro q m h
  unfold upd at h ⊢
  have hno : ∀ m, a (d ++ [n] ++ [m]) = none := by
    intro m
    cases hx : a (d ++ [n] ++ [m]) with
    | none => rfl
    | some e =>
      have := hw (d ++ [n]) m (by rw [hx]; simp)
      rw [this] at hf; simp at hf
  by_cases h1 : q ++ [m] = d ++ [n]
  · have := List.append_inj' h1 rfl
    obtain ⟨rfl, _⟩ := this
    rw [if_neg (by simp)]
    exact hd
  · rw [if_neg h1] at h
    split
    · rename_i hq
      subst hq
      exact absurd (hno m) h
    · exact hw q m h

theorem atNames_create {a : AtFn} (hn : AtNames a) {d : List Bytes} {n : Bytes} (ho : okName n) (e : Ent) : AtNames (upd a (d ++ [n]) e) := by
  intro q m h
  unfold upd at h
  split at h
  · rename_i h1
    have := List.append_inj' h1 rfl
    simp at this
    rw [this.2]; exact ho
  · exact hn q m h

theorem atNames_keep {a : AtFn} (hn : AtNames a) (k : List Bytes → Bool) : AtNames (keep a k) := by
  intro q m h
  unfold keep at h
  split at h
  · exact hn q m h
  · simp at h

theorem atWf_prune {a : AtFn} (hw : AtWf a) (p : List Bytes) : AtWf (keep a fun x => !p.isPrefixOf x) := by
  intro q m h
  unfold keep at h ⊢
  split at h
  · rename_i hk
    have := hw q m h
    rw [if_pos, this]
    simp only [Bool.not_eq_true', Bool.eq_false_iff, ne_eq, List.isPrefixOf_iff_prefix] at hk ⊢
    exact fun hp => hk (hp.trans (List.prefix_append _ _))
  · simp at h

theorem atWf_removeFile {a : AtFn} (hw : AtWf a) {p : List Bytes} (hp : a p ≠ some .dir) : AtWf (keep a fun x => decide (x ≠ p)) := by
  intro q m h
  unfold keep at h ⊢
  split at h
  · have := hw q m h
    rw [if_pos, this]
    simp only [decide_eq_true_eq]
    rintro rfl
    exact hp this
  · simp at h

/-- A successful removal of an extra entry. -/
theorem removeExtra_ok {fs fs' : Fs} {path : Path} {n : Bytes} (hn : okName n) (h : removeExtra path n fs = (.ok (), fs')) :
    Path.startsWith path sGuard = true ∧ fs'.cwd = fs.cwd ∧
      ((fs.at (loc fs.cwd path ++ [n]) = some .dir ∧ fs'.at = keep fs.at (fun x => !(loc fs.cwd path ++ [n]).isPrefixOf x)) ∨
       ((∃ c md, fs.at (loc fs.cwd path ++ [n]) = some (.file c md)) ∧ fs'.at = keep fs.at (fun x => decide (x ≠ loc fs.cwd path ++ [n]))) ∨
       (fs.at (loc fs.cwd path ++ [n]) = some .special ∧ fs'.at = fs.at)) := by
  unfold removeExtra at h
  split at h
  · rename_i hg
    refine ⟨hg, ?_⟩
    dsimp only at h
    obtain ⟨e, fs1, h1, h2⟩ := bind_ok h
    have h1' : (fs.metadata (Path.join path n), fs) = (.ok e, fs1) := h1
    simp at h1'
    obtain ⟨h1', rfl⟩ := h1'
    obtain ⟨hl, ha, hbr⟩ := metadata_ok h1'
    rw [loc_join _ _ hn] at hl ha
    cases e with
    | dir =>
      simp only at h2
      unfold Fs.removeDirAll at h2
      rw [hl] at h2
      simp only at h2
      have h3 := call_ok h2
      split at h3
      · simp at h3
        subst h3
        refine ⟨rfl, Or.inl ⟨ha, ?_⟩⟩
        unfold Fs.prune
        rw [at_keep _ (fun x => !(loc fs.cwd path ++ [n]).isPrefixOf x) (by cases loc fs.cwd path <;> rfl)]
        rw [show ({ fs with faults := fs.faults.tail } : Fs).at = fs.at from at_congr rfl]
      · simp at h3
    | file c md =>
      simp only at h2
      unfold Fs.removeFile at h2
      have h3 := call_ok h2
      dsimp only at h3
      have hl' : ({ fs with faults := fs.faults.tail } : Fs).locate (Path.join path n) = .ok (loc fs.cwd path ++ [n]) := by rw [← hl]; refine locate_congr (at_congr ?_) ?_ <;> rfl
      have ha' : ({ fs with faults := fs.faults.tail } : Fs).at (loc fs.cwd path ++ [n]) = some (.file c md) := ha
      rw [hl'] at h3
      simp only [ha'] at h3
      simp at h3
      subst h3
      refine ⟨rfl, Or.inr (Or.inl ⟨⟨c, md, ha⟩, ?_⟩)⟩
      have := at_keep { fs with faults := fs.faults.tail } (fun x => decide (x ≠ loc fs.cwd path ++ [n])) (by simp)
      rw [show ({ fs with faults := fs.faults.tail } : Fs).at = fs.at from at_congr rfl] at this
      rw [← this]
      refine at_congr ?_
      simp
    | special =>
      simp only at h2
      have h3 : (Res.ok (), fs) = (.ok (), fs') := h2
      simp at h3
      subst h3
      exact ⟨rfl, Or.inr (Or.inr ⟨ha, rfl⟩)⟩
    | broken => exact absurd rfl hbr
  · simp [SM.panic] at h

theorem create_fail {fs fs' : Fs} {p : Path} {r : Res (List Bytes)} (h : Fs.create p fs = (r, fs')) (hr : ∀ q, r ≠ .ok q) : fs'.at = fs.at ∧ fs'.cwd = fs.cwd := by
  unfold Fs.create Fs.call at h
  have hat : ∀ t, ({ fs with faults := t } : Fs).at = fs.at := fun t => at_congr rfl
  split at h
  · simp at h; rw [← h.2]; exact ⟨hat _, rfl⟩
  · dsimp only at h
    split at h
    · split at h
      · split at h
        · simp at h; exact absurd h.1.symm (hr _)
        · simp at h; exact absurd h.1.symm (hr _)
        · simp at h; rw [← h.2]; exact ⟨hat _, rfl⟩
      · simp at h; rw [← h.2]; exact ⟨hat _, rfl⟩
    · simp at h; rw [← h.2]; exact ⟨hat _, rfl⟩
    · simp at h; rw [← h.2]; exact ⟨hat _, rfl⟩
    · simp at h; rw [← h.2]; exact ⟨hat _, rfl⟩

/-- `File::create`, with what is known about the directory. -/
theorem pres_create' {cwd J} {p : Path} (hcl : Clean p)
    (h : ∀ a md d n, J a → loc cwd p = d ++ [n] → okName n → a d = some .dir → (a (loc cwd p) = none ∨ ∃ c md, a (loc cwd p) = some (.file c md)) → J (upd a (loc cwd p) (.file [] md))) :
    Pres (TreeInv cwd J) (Fs.create p) (fun f => f = loc cwd p) := by
  intro fs hs
  cases hr : Fs.create p fs with
  | mk r fs' =>
    cases r with
    | ok q =>
      obtain ⟨rfl, h2, h3, ⟨md, h4⟩, d, n, h5, h6, h7⟩ := create_ok hcl hr
      rw [hs.1] at h3 h4 h5 h2
      refine ⟨⟨h2, ?_⟩, ?_⟩
      · rw [h4]; exact h _ _ _ _ hs.2 h5 h6 h7 h3
      · intro a ha; simp at ha; rw [← ha, hs.1]
    | _ =>
      refine ⟨?_, fun a ha => by simp at ha⟩
      obtain ⟨h1, h2⟩ := create_fail hr (by simp)
      exact ⟨h2.trans hs.1, by rw [h1]; exact hs.2⟩

theorem atWf_keep {a : AtFn} (hw : AtWf a) {k : List Bytes → Bool} (hk : ∀ x m, k (x ++ [m]) = true → k x = true) : AtWf (keep a k) := by
  intro q m h
  unfold keep at h ⊢
  split at h
  · rename_i hkm
    rw [if_pos (hk q m hkm)]
    exact hw q m h
  · simp at h

theorem atWf_file {a : AtFn} (hw : AtWf a) {p : List Bytes} {c c' : Bytes} {md md' : FileMeta} (hf : a p = some (.file c md)) : AtWf (upd a p (.file c' md')) := by
  intro q m h
  unfold upd at h ⊢
  have hq : a (q ++ [m]) ≠ none := by
    split at h
    · rename_i he; rw [he, hf]; simp
    · exact h
  have := hw q m hq
  rw [if_neg]
  · exact this
  · rintro rfl; rw [hf] at this; simp at this

theorem atNames_file {a : AtFn} (hn : AtNames a) {p : List Bytes} {e e' : Ent} (hf : a p = some e) : AtNames (upd a p e') := by
  intro q m h
  unfold upd at h
  refine hn q m ?_
  split at h
  · rename_i he; rw [he, hf]; simp
  · exact h

/-- Removing an extra entry touches only what is at or below it, whatever the outcome. -/
theorem pres_removeExtra {cwd J} {path : Path} {n : Bytes} (hn : okName n)
    (hd : ∀ a k, J a → (∀ x, k x = false → (loc cwd path ++ [n]) <+: x) → (∀ x m, k (x ++ [m]) = true → k x = true) → J (keep a k))
    (hf : ∀ a k, J a → (∀ x, k x = false → x = loc cwd path ++ [n]) → a (loc cwd path ++ [n]) ≠ some .dir → J (keep a k)) :
    Pres (TreeInv cwd J) (removeExtra path n) (fun _ => True) := by
  unfold removeExtra
  split
  · dsimp only
    refine Pres.bind (Pres.read (Q := fun _ => True) fun _ _ _ _ => trivial) fun e _ => ?_
    cases e with
    | dir =>
      refine pres_removeDirAll (by rw [loc_join _ _ hn]; simp) ?_
      rw [loc_join _ _ hn]; exact hd
    | file c md =>
      refine pres_removeFile ?_
      rw [loc_join _ _ hn]; exact hf
    | special => exact Pres.pure trivial
    | broken => exact Pres.pure trivial
  · exact Pres.panic

end Snap
