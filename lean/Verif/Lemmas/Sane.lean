import Verif.Lemmas.Checkout
/-! The calls on the file system keep it a tree, whatever their arguments and outcome. -/
namespace Snap
set_option linter.unusedSectionVars false
variable [Serde] [LawfulSerde]

/-- As `Fs.Wf`, except that the current directory may have been removed. -/
structure Fs.Sane (fs : Fs) : Prop where
  nodup : (fs.ents.map (·.1)).Nodup
  names : ∀ e ∈ fs.ents, ∀ n ∈ e.1, okName n
  parents : ∀ q n, fs.at (q ++ [n]) ≠ none → fs.at q = some .dir

theorem Fs.Wf.sane {fs : Fs} (h : fs.Wf) : fs.Sane := ⟨h.nodup, h.names, h.parents⟩

/-- Nothing but the names and contents of the entries matters. -/
theorem Fs.Sane.congr {a b : Fs} (h : a.Sane) (he : b.ents = a.ents) : b.Sane :=
  ⟨by rw [he]; exact h.nodup, by rw [he]; exact h.names, by rw [at_congr he]; exact h.parents⟩

theorem Fs.Sane.okLoc {fs : Fs} (h : fs.Sane) {q : List Bytes} (hq : fs.at q ≠ none) : ∀ n ∈ q, okName n := by
  by_cases h0 : q = []
  · subst h0; simp
  · cases ha : fs.at q with
    | none => exact absurd ha hq
    | some e => exact h.names _ (at_mem h0 ha)

/-- Where a path leads: to a directory or to a place in one. -/
theorem walk_sane {fs : Fs} (h : fs.Sane) {l : List Bytes} (hl : ∀ s ∈ l, 47 ∉ s ∧ 0 ∉ s) {cur q : List Bytes} (hc : fs.at cur = some .dir ∨ l ≠ []) (hw : fs.walk cur l = .ok q) :
    fs.at q = some .dir ∨ ∃ d n, q = d ++ [n] ∧ fs.at d = some .dir ∧ okName n := by
  induction l generalizing cur with
  | nil =>
    simp only [Fs.walk, Res.ok.injEq] at hw
    subst hw
    exact .inl (hc.resolve_right (by simp))
  | cons s l ih =>
    unfold Fs.walk at hw
    cases ha : fs.at cur with
    | none => rw [ha] at hw; simp at hw
    | some e =>
      cases e with
      | dir =>
        rw [ha] at hw
        simp only at hw
        by_cases hl0 : l = []
        · subst hl0
          simp only [Fs.walk, Res.ok.injEq] at hw
          subst hw
          split
          · exact .inl ha
          · split
            · left
              by_cases hcur : cur = []
              · subst hcur; simp
              · rw [← List.dropLast_concat_getLast hcur] at ha
                exact h.parents _ _ (by rw [ha]; simp)
            · rename_i h1 h2
              exact .inr ⟨cur, s, rfl, ha, fun e => h1 (.inl e), fun e => h1 (.inr e), h2, (hl s (by simp)).1, (hl s (by simp)).2⟩
        · exact ih (fun x hx => hl x (by simp [hx])) (.inr hl0) hw
      | file c md => rw [ha] at hw; simp at hw
      | special => rw [ha] at hw; simp at hw
      | broken => rw [ha] at hw; simp at hw

theorem splitSlash_zero {p s : Bytes} (hp : 0 ∉ p) (h : s ∈ splitSlash p) : 0 ∉ s := by
  induction p generalizing s with
  | nil => simp [splitSlash] at h; subst h; simp
  | cons b bs ih =>
    have hb : 0 ∉ bs := fun hm => hp (by simp [hm])
    have hb0 : (0 : UInt8) ≠ b := fun e => hp (by simp [e])
    unfold splitSlash at h
    split at h
    · rcases List.mem_cons.mp h with rfl | h
      · simp
      · exact ih hb h
    · cases hs : splitSlash bs with
      | nil =>
        rw [hs] at h
        simp only [List.mem_singleton] at h
        subst h
        simpa using hb0
      | cons x xs =>
        rw [hs] at h ih
        rcases List.mem_cons.mp h with rfl | h
        · intro hm
          rcases List.mem_cons.mp hm with e | hm
          · exact hb0 e
          · exact ih (s := x) hb (by simp) hm
        · exact ih hb (by simp [h])

theorem splitSlash_ne (p : Bytes) : splitSlash p ≠ [] := by
  cases p with
  | nil => simp [splitSlash]
  | cons b bs =>
    unfold splitSlash
    split
    · simp
    · cases splitSlash bs <;> simp

theorem locate_sane {fs : Fs} (h : fs.Sane) {p : Path} {q : List Bytes} (hq : fs.locate p = .ok q) : fs.at q = some .dir ∨ ∃ d n, q = d ++ [n] ∧ fs.at d = some .dir ∧ okName n := by
  unfold Fs.locate at hq
  split at hq
  · simp at hq
  · split at hq
    · simp at hq
    · rename_i h0
      exact walk_sane h (fun s hs => ⟨splitSlash_mem hs, splitSlash_zero h0 hs⟩) (.inr (splitSlash_ne p)) hq

/-- A new entry. -/
theorem Fs.Sane.set_new {fs : Fs} (h : fs.Sane) {d : List Bytes} {n : Bytes} (hd : fs.at d = some .dir) (hn : okName n) (hq : fs.at (d ++ [n]) = none) (e : Ent) : (fs.set (d ++ [n]) e).Sane := by
  have hno : fs.ents.any (·.1 == d ++ [n]) = false := by
    rw [Bool.eq_false_iff]
    intro ha
    obtain ⟨x, hx, he⟩ := List.any_eq_true.mp ha
    unfold Fs.at at hq
    rw [if_neg (by simp), Option.map_eq_none_iff, List.find?_eq_none] at hq
    exact hq x hx he
  have hents : (fs.set (d ++ [n]) e).ents = fs.ents ++ [(d ++ [n], e)] := by simp [Fs.set, hno]
  refine ⟨?_, ?_, ?_⟩
  · rw [hents, List.map_append, List.nodup_append]
    refine ⟨h.nodup, by simp, ?_⟩
    intro a ha b hb hab
    simp only [List.map_cons, List.map_nil, List.mem_singleton] at hb
    subst hb
    subst hab
    obtain ⟨x, hx, hxe⟩ := List.mem_map.mp ha
    have : fs.ents.any (·.1 == d ++ [n]) = true := List.any_eq_true.mpr ⟨x, hx, by simpa using hxe⟩
    rw [this] at hno
    simp at hno
  · rw [hents]
    intro x hx
    rcases List.mem_append.mp hx with hx | hx
    · exact h.names x hx
    · simp only [List.mem_singleton] at hx
      subst hx
      intro m hm
      rcases List.mem_append.mp hm with hm | hm
      · exact h.okLoc (by rw [hd]; simp) m hm
      · simp only [List.mem_singleton] at hm; subst hm; exact hn
  · rw [at_set' _ (by simp)]
    intro q m hm
    unfold upd at hm ⊢
    split at hm
    · rename_i e'
      obtain ⟨rfl, _⟩ := List.append_inj' e' rfl
      rw [if_neg (fun h => by simpa using congrArg List.length h)]
      exact hd
    · have := h.parents q m hm
      rw [if_neg]
      · exact this
      · rintro rfl; rw [hq] at this; simp at this

/-- A file is rewritten. -/
theorem Fs.Sane.set_file {fs : Fs} (h : fs.Sane) {q : List Bytes} {c c' : Bytes} {md md' : FileMeta} (hq : fs.at q = some (.file c md)) : (fs.set q (.file c' md')).Sane := by
  have h0 : q ≠ [] := at_file_ne_root hq
  have hyes : fs.ents.any (·.1 == q) = true := List.any_eq_true.mpr ⟨_, at_mem h0 hq, by simp⟩
  have hents : (fs.set q (.file c' md')).ents = fs.ents.map (fun x => if x.1 == q then (q, .file c' md') else x) := by simp [Fs.set, hyes]
  have hfst : ∀ x : List Bytes × Ent, (if x.1 == q then (q, Ent.file c' md') else x).1 = x.1 := by
    intro x
    split
    · rename_i he; simpa using (beq_iff_eq.mp he).symm
    · rfl
  refine ⟨?_, ?_, ?_⟩
  · rw [hents, List.map_map]
    have : ((fun x : List Bytes × Ent => x.1) ∘ fun x => if x.1 == q then (q, Ent.file c' md') else x) = fun x => x.1 := funext hfst
    rw [this]
    exact h.nodup
  · rw [hents]
    intro x hx
    obtain ⟨y, hy, rfl⟩ := List.mem_map.mp hx
    rw [hfst]
    exact h.names y hy
  · rw [at_set' _ h0]
    exact atWf_file (fun q n h' => h.parents q n h') hq

/-- Entries are removed. -/
theorem Fs.Sane.filter {fs : Fs} (h : fs.Sane) {k : List Bytes → Bool} (hk : ∀ x m, x ≠ [] → fs.at x = some .dir → k (x ++ [m]) = true → k x = true) :
    ({ fs with ents := fs.ents.filter fun e => k e.1 } : Fs).Sane := by
  refine ⟨?_, fun e he => h.names e (List.mem_filter.mp he).1, ?_⟩
  · exact List.Nodup.sublist ((List.filter_sublist).map _) h.nodup
  · intro q m hm
    rw [at_filter fs k (by simp)] at hm
    split at hm
    · rename_i hkm
      have hd := h.parents q m hm
      by_cases h0 : q = []
      · subst h0; simp
      · rw [at_filter fs k h0, if_pos (hk q m h0 hd hkm)]
        exact hd
    · simp at hm

section
variable {α : Type}

theorem sane_call {onFail : Nat → Fs → Fs} {x : SM Fs α} {Q : α → Prop} (hf : ∀ n fs, Fs.Sane fs → (onFail n fs).Sane) (hx : Pres Fs.Sane x Q) : Pres Fs.Sane (Fs.call onFail x) Q := by
  intro fs hs
  unfold Fs.call
  split
  · exact ⟨hf _ _ (hs.congr rfl), fun a ha => by simp at ha⟩
  · exact hx _ (hs.congr rfl)

theorem dropTrailing_ne {s : Bytes} {l : List Bytes} (h : s ≠ []) : dropTrailing (s :: l) ≠ [] := by
  unfold dropTrailing
  cases dropTrailing l <;> simp [h]

theorem sane_mkdir (p : Path) : Pres Fs.Sane (Fs.mkdir p) (fun _ => True) := by
  refine sane_call (fun _ _ h => h) fun fs hs => ⟨?_, fun _ _ => trivial⟩
  split
  · exact hs
  · split
    · exact hs
    · rename_i hne h0
      cases hw : fs.walk (if Path.isAbs p then [] else fs.cwd) (dropTrailing (splitSlash p)) with
      | ok q =>
        simp only
        split
        · rename_i hn
          have hcase := walk_sane hs (fun s hm => ⟨splitSlash_mem (dropTrailing_mem hm), splitSlash_zero h0 (dropTrailing_mem hm)⟩) (by
            by_cases ha : Path.isAbs p = true
            · left; simp [ha]
            · right
              rw [if_neg ha] at hw
              cases p with
              | nil => exact (hne rfl).elim
              | cons b bs =>
                have hb : b ≠ 47 := by
                  rintro rfl
                  simp [Path.isAbs] at ha
                unfold splitSlash
                rw [if_neg hb]
                cases splitSlash bs <;> exact dropTrailing_ne (by simp)) hw
          rcases hcase with hd | ⟨d, n, rfl, hd, hok⟩
          · rw [hd] at hn; simp at hn
          · exact hs.set_new hd hok hn _
        · exact hs
      | err e => exact hs
      | panic => exact hs
      | fuel => exact hs

theorem sane_createDirAllN (n : Nat) (p : Path) : Pres Fs.Sane (Fs.createDirAllN n p) (fun _ => True) := by
  induction n generalizing p with
  | zero => exact fun s hs => ⟨hs, fun _ _ => trivial⟩
  | succ n ih =>
    have hm := sane_mkdir p
    intro fs hs
    refine ⟨?_, fun _ _ => trivial⟩
    unfold Fs.createDirAllN
    split
    · exact hs
    · have h1 := (hm fs hs).1
      split
      · rename_i e; rw [e] at h1; exact h1
      · rename_i e; rw [e] at h1
        split
        · exact h1
        · rename_i q hq
          have h2 := (ih q _ h1).1
          split
          · rename_i e2; rw [e2] at h2
            have h3 := (hm _ h2).1
            split
            · rename_i e3; rw [e3] at h3; exact h3
            · rename_i e3; rw [e3] at h3; split <;> exact h3
          · exact h2
      · rename_i e; rw [e] at h1
        split <;> exact h1

theorem sane_createDirAll (p : Path) : Pres Fs.Sane (Fs.createDirAll p) (fun _ => True) := sane_createDirAllN _ p

theorem sane_createNew (p : Path) : Pres Fs.Sane (Fs.createNew p) (fun _ => True) := by
  refine sane_call (fun _ _ h => h) fun fs hs => ⟨?_, fun _ _ => trivial⟩
  cases hl : fs.locate p with
  | ok q =>
    simp only
    split
    · split
      · rename_i hn
        rcases locate_sane hs hl with hd | ⟨d, n, rfl, hd, hok⟩
        · rw [hd] at hn; simp at hn
        · exact (hs.set_new hd hok hn _).congr rfl
      · exact hs
    · exact hs
  | err e => exact hs
  | panic => exact hs
  | fuel => exact hs

theorem sane_create (p : Path) : Pres Fs.Sane (Fs.create p) (fun _ => True) := by
  refine sane_call (fun _ _ h => h) fun fs hs => ⟨?_, fun _ _ => trivial⟩
  cases hl : fs.locate p with
  | ok q =>
    simp only
    split
    · split
      · rename_i hn
        rcases locate_sane hs hl with hd | ⟨d, n, rfl, hd, hok⟩
        · rw [hd] at hn; simp at hn
        · exact (hs.set_new hd hok hn _).congr rfl
      · rename_i hf
        exact (hs.set_file hf).congr rfl
      · exact hs
    · exact hs
  | err e => exact hs
  | panic => exact hs
  | fuel => exact hs

theorem sane_append {fs : Fs} (hs : fs.Sane) (q : List Bytes) (d : Bytes) : (Fs.append q d fs).Sane := by
  unfold Fs.append
  split
  · rename_i h; exact hs.set_file h
  · exact hs

theorem sane_writeAll (q : List Bytes) (d : Bytes) : Pres Fs.Sane (Fs.writeAll q d) (fun _ => True) :=
  sane_call (fun _ _ hs => sane_append hs _ _) fun _ hs => ⟨sane_append hs _ _, fun _ _ => trivial⟩

theorem sane_removeDirAll (p : Path) : Pres Fs.Sane (Fs.removeDirAll p) (fun _ => True) := by
  intro fs hs
  refine ⟨?_, fun _ _ => trivial⟩
  unfold Fs.removeDirAll
  cases hl : fs.locate p with
  | ok q =>
    refine (sane_call (Q := fun _ => True) (fun n fs hs => ?_) (fun fs hs => ⟨?_, fun _ _ => trivial⟩) fs hs).1
    · refine hs.filter (k := fun x => !(q.isPrefixOf x && decide (x.length > q.length + n))) ?_
      intro x m _ _ hk
      simp only [Bool.not_eq_true', Bool.and_eq_false_iff, decide_eq_false_iff_not, List.length_append, List.length_singleton] at hk ⊢
      rcases hk with hk | hk
      · left
        rw [Bool.eq_false_iff, ne_eq, List.isPrefixOf_iff_prefix] at hk ⊢
        exact fun hp => hk (hp.trans (List.prefix_append _ _))
      · right; omega
    · split
      · refine hs.filter (k := fun x => !q.isPrefixOf x) ?_
        intro x m _ _ hk
        simp only [Bool.not_eq_true', Bool.eq_false_iff, ne_eq, List.isPrefixOf_iff_prefix] at hk ⊢
        exact fun hp => hk (hp.trans (List.prefix_append _ _))
      · exact hs
  | err e => exact hs
  | panic => exact hs
  | fuel => exact hs

theorem sane_removeFile (p : Path) : Pres Fs.Sane (Fs.removeFile p) (fun _ => True) := by
  refine sane_call (fun _ _ h => h) fun fs hs => ⟨?_, fun _ _ => trivial⟩
  cases hl : fs.locate p with
  | ok q =>
    simp only
    split
    · exact hs
    · exact hs
    · rename_i e hnd ha
      refine hs.filter (k := fun x => decide (x ≠ q)) ?_
      intro x m _ hd _
      simp only [decide_eq_true_eq]
      rintro rfl
      rw [hd] at ha
      exact hnd (Option.some.inj ha).symm
  | err e => exact hs
  | panic => exact hs
  | fuel => exact hs

theorem sane_getFsItem (db : Db) (n : Nat) (k : Key) (p : Path) : Pres Fs.Sane (getFsItem db n k p) (fun _ => True) := by
  induction n generalizing k p with
  | zero => exact Pres.lift fun _ _ => trivial
  | succ n ih =>
    unfold getFsItem
    refine Pres.bind (Pres.lift (Q := fun _ => True) fun _ _ => trivial) fun item _ => ?_
    split
    · exact Pres.each fun c _ => ih _ _
    · have hrest : Pres Fs.Sane (Fs.createNew p >>= fun f => match item.children with
          | c :: _ => readDataTo db (Fs.writeAll f) n c
          | [] => SM.panic) (fun _ => True) := by
        refine Pres.bind (sane_createNew p) fun f _ => ?_
        split
        · exact pres_readDataTo db (fun d => sane_writeAll _ d) n _
        · exact Pres.panic
      cases p.parent with
      | none => exact hrest
      | some q => exact Pres.bind (sane_createDirAll q) fun _ _ => hrest

theorem sane_removeExtra (p : Path) (n : Bytes) : Pres Fs.Sane (removeExtra p n) (fun _ => True) := by
  unfold removeExtra
  split
  · refine Pres.bind (Pres.read (Q := fun _ => True) fun _ _ _ _ => trivial) fun e _ => ?_
    split
    · exact sane_removeDirAll _
    · exact sane_removeFile _
    · exact Pres.pure trivial
  · exact Pres.panic

theorem sane_checkoutFsItem (db : Db) (filter : Filter) (iter : List Bytes → List Bytes) (n : Nat) (k : Key) (p : Path) : Pres Fs.Sane (checkoutFsItem db filter iter n k p) (fun _ => True) := by
  induction n generalizing k p with
  | zero => exact Pres.lift fun _ _ => trivial
  | succ n ih =>
    unfold checkoutFsItem
    refine Pres.bind (Pres.lift (Q := fun _ => True) fun _ _ => trivial) fun item _ => ?_
    split
    · refine Pres.bind (Pres.read (Q := fun _ => True) fun _ _ _ _ => trivial) fun all _ => Pres.bind (Pres.read (Q := fun _ => True) fun _ _ _ _ => trivial) fun mine _ => ?_
      refine Pres.bind (Pres.each fun x _ => sane_removeExtra _ _) fun _ _ => Pres.each fun c _ => Pres.bind (sane_createDirAll _) fun _ _ => ih _ _
    · refine Pres.bind (sane_create p) fun f _ => ?_
      split
      · split
        · exact pres_readDataTo db (fun d => sane_writeAll _ d) n _
        · exact Pres.panic
      · exact Pres.panic
end

end Snap
