import Verif.Lemmas.Path
import Verif.Model.Fs
/-! Lemmas about the file system model: where paths lead, what calls change. -/
namespace Snap

/-! ### Where paths lead -/

theorem lexStep_comp {cur : List Bytes} {s : Bytes} (h : 47 ∉ s) :
    lexStep cur s = if s = [] ∨ s = sDot then cur else if s = sDotDot then cur.dropLast else cur ++ [s] := by
  unfold lexStep
  rw [if_neg]
  rintro rfl
  simp [sSlash] at h

theorem foldl_lexStep_filter (cur : List Bytes) (l : List Bytes) :
    (l.filter fun s => s ≠ [] ∧ s ≠ sDot).foldl lexStep cur = l.foldl lexStep cur := by
  induction l generalizing cur with
  | nil => rfl
  | cons s l ih =>
    by_cases h : s ≠ [] ∧ s ≠ sDot
    · rw [List.filter_cons_of_pos (by simpa using h)]; simp only [List.foldl_cons, ih]
    · rw [List.filter_cons_of_neg (by simpa using h)]
      simp only [List.foldl_cons, ih]
      congr 1
      unfold lexStep
      have h' : s = [] ∨ s = sDot := by
        by_cases h0 : s = []
        · exact Or.inl h0
        · exact Or.inr (Classical.byContradiction fun h1 => h ⟨h0, h1⟩)
      rw [if_neg, if_pos h']
      rintro rfl
      rcases h' with h' | h' <;> simp [sSlash, sDot] at h'

/-- `loc` in terms of raw segments. -/
theorem loc_segs (cwd : List Bytes) (p : Path) :
    loc cwd p = (splitSlash p).foldl lexStep (if Path.isAbs p then [] else cwd) := by
  unfold loc Path.comps
  rw [List.foldl_append, foldl_lexStep_filter]
  congr 1
  split
  · simp [lexStep]
  · split
    · simp [lexStep, sDot, sSlash]
    · rfl

theorem walk_lex {fs : Fs} {cur q : List Bytes} {l : List Bytes} (hl : ∀ s ∈ l, 47 ∉ s) (h : fs.walk cur l = .ok q) : q = l.foldl lexStep cur := by
  induction l generalizing cur with
  | nil => simp [Fs.walk] at h; exact h.symm
  | cons s l ih =>
    unfold Fs.walk at h
    split at h <;> try (simp at h; done)
    rw [← lexStep_comp (hl s (by simp))] at h
    exact ih (fun t ht => hl t (by simp [ht])) h

/-- A path that resolves leads to its lexical location. -/
theorem locate_loc {fs : Fs} {p : Path} {q : List Bytes} (h : fs.locate p = .ok q) : q = loc fs.cwd p := by
  unfold Fs.locate at h
  split at h
  · simp at h
  · split at h
    · simp at h
    · rw [loc_segs]
      exact walk_lex (fun s hs => splitSlash_mem hs) h

theorem foldl_lexStep_dropTrailing (cur : List Bytes) (l : List Bytes) : (dropTrailing l).foldl lexStep cur = l.foldl lexStep cur := by
  induction l generalizing cur with
  | nil => rfl
  | cons s l ih =>
    unfold dropTrailing
    cases hd : dropTrailing l with
    | nil =>
      have ih' : ∀ c, l.foldl lexStep c = c := fun c => by rw [← ih, hd]; rfl
      by_cases hs : s = []
      · subst hs
        simp [lexStep, sSlash, ih']
      · simp [hs, ih']
    | cons a t =>
      simp only [List.foldl_cons]
      rw [← ih, hd]
      rfl

theorem dropTrailing_mem {l : List Bytes} {s : Bytes} (h : s ∈ dropTrailing l) : s ∈ l := by
  induction l with
  | nil => simp [dropTrailing] at h
  | cons a l ih =>
    unfold dropTrailing at h
    cases hd : dropTrailing l with
    | nil =>
      rw [hd] at h
      simp only at h
      split at h <;> simp at h
      simp [h]
    | cons b t =>
      rw [hd] at h ih
      rcases List.mem_cons.mp h with h | h
      · simp [h]
      · simp [ih h]

theorem loc_join (cwd : List Bytes) (p : Path) {n : Bytes} (h : okName n) : loc cwd (Path.join p n) = loc cwd p ++ [n] := by
  unfold loc
  rw [comps_join h.comp, List.foldl_append]
  simp only [List.foldl_cons, List.foldl_nil]
  rw [lexStep_comp h.2.2.2.1, if_neg, if_neg h.2.2.1]
  simp [h.1, h.2.1]

theorem loc_joins (cwd : List Bytes) (p : Path) {ns : List Bytes} (h : ∀ n ∈ ns, okName n) : loc cwd (joins p ns) = loc cwd p ++ ns := by
  induction ns generalizing p with
  | nil => simp
  | cons n ns ih => rw [joins_cons, ih _ (fun m hm => h m (by simp [hm])), loc_join _ _ (h n (by simp))]; simp

@[simp] theorem loc_norm (cwd : List Bytes) (p : Path) : loc cwd p.norm = loc cwd p := by unfold loc; rw [comps_norm]

theorem parent_comps {p q : Path} (h : Path.parent p = some q) : ∃ c, p.comps = q.comps ++ [c] := by
  unfold Path.parent at h
  cases hl : p.comps.getLast? with
  | none => rw [hl] at h; simp at h
  | some c =>
    rw [hl] at h
    simp only at h
    split at h
    · simp at h
    · rename_i hc
      simp at h
      obtain ⟨l, hl⟩ := List.getLast?_eq_some_iff.mp hl
      refine ⟨c, ?_⟩
      rw [← h, hl]
      simp only [List.dropLast_concat]
      congr 1
      obtain ⟨a, t, e, ha, ht⟩ := comps_shape p
      rw [e] at hl
      -- components of the parent are well formed
      rcases List.eq_nil_or_concat t with rfl | ⟨t', x, rfl⟩
      · rcases ha with rfl | rfl | rfl
        · simp at hl
        · cases l with
          | nil => simp [Path.ofComps]
          | cons b l => simp at hl
        · cases l with
          | nil => simp [Path.ofComps]
          | cons b l => simp at hl
      · rw [List.concat_eq_append] at hl ht
        rw [← List.append_assoc] at hl
        obtain ⟨h1, h2⟩ := List.append_inj' hl (by simp)
        subst h1
        have ht' : ∀ n ∈ t', okComp n := fun n hn => ht n (by simp [hn])
        rcases ha with rfl | rfl | rfl
        · cases t' with
          | nil => rfl
          | cons y t' =>
            simp only [List.nil_append, Path.ofComps]
            rw [comps_foldl_join (fun n hn => ht' n (by simp [hn])), comps_ok (ht' y (by simp))]; rfl
        · simp only [List.cons_append, List.nil_append, Path.ofComps]
          rw [comps_foldl_join ht', comps_root]; rfl
        · simp only [List.cons_append, List.nil_append, Path.ofComps]
          rw [comps_foldl_join ht', comps_dot]; rfl

theorem walk_append (fs : Fs) (cur : List Bytes) (a b : List Bytes) : fs.walk cur (a ++ b) = (fs.walk cur a >>= fun c => fs.walk c b) := by
  induction a generalizing cur with
  | nil => rfl
  | cons s a ih =>
    simp only [List.cons_append, Fs.walk]
    cases h : fs.at cur with
    | none => rfl
    | some e => cases e <;> simp [ih]

/-- Going to a name inside a directory. -/
def Fs.enter (fs : Fs) (n : Bytes) (d : List Bytes) : Res (List Bytes) :=
  match fs.at d with
  | some .dir => .ok (d ++ [n])
  | some .broken => .err .enoent
  | none => .err .enoent
  | some _ => .err .io

theorem mem_join {p n : Path} {b : UInt8} (ha : Path.isAbs n = false) (hb : b ≠ 47) : b ∈ Path.join p n ↔ b ∈ p ∨ b ∈ n := by
  rw [join_sep ha]
  unfold sep
  split <;> simp [hb]

theorem locate_join (fs : Fs) {p : Path} {n : Bytes} (hp : p ≠ []) (hn : okName n) :
    fs.locate (Path.join p n) = (fs.locate p >>= fs.enter n) := by
  have ha := hn.comp.notAbs
  unfold Fs.locate
  rw [if_neg (join_ne_nil ha hn.1), if_neg hp]
  by_cases h0 : 0 ∈ p
  · rw [if_pos ((mem_join ha (by decide)).mpr (Or.inl h0)), if_pos h0]; rfl
  · rw [if_neg (fun h => by rcases (mem_join ha (by decide)).mp h with h | h; exact h0 h; exact hn.2.2.2.2 h), if_neg h0, isAbs_join ha hp]
    obtain ⟨l, hl, e⟩ := splitSlash_join hn.2.2.2.1 hp
    rw [e, walk_append]
    generalize (if Path.isAbs p = true then [] else fs.cwd) = cur
    have hw : ∀ c, fs.walk c [n] = fs.enter n c := by
      intro c
      unfold Fs.walk Fs.enter
      cases fs.at c with
      | none => rfl
      | some e =>
        cases e <;> simp [Fs.walk]
        rw [if_neg (by simp [hn.1, hn.2.1]), if_neg hn.2.2.1]
    simp only [hw]
    rcases hl with hl | hl
    · rw [hl]
    · rw [hl, walk_append]
      cases fs.walk cur l with
      | ok c =>
        simp only [Res.ok_bind]
        unfold Fs.walk
        cases h : fs.at c with
        | none => simp [Fs.enter, h]
        | some e => cases e <;> simp [Fs.enter, h, Fs.walk]
      | err e => rfl
      | panic => rfl
      | fuel => rfl

/-! ### Entries after a change -/

@[simp] theorem at_root (fs : Fs) : fs.at [] = some .dir := by simp [Fs.at]

theorem find_map_set (l : List (List Bytes × Ent)) (q : List Bytes) (e : Ent) (x : List Bytes) :
    (l.map (fun y => if y.1 == q then (q, e) else y)).find? (·.1 == x) =
      if x = q then (if l.any (·.1 == q) then some (q, e) else none) else l.find? (·.1 == x) := by
  induction l with
  | nil => simp
  | cons y l ih =>
    simp only [List.map_cons, List.find?_cons, List.any_cons]
    by_cases hy : y.1 = q
    · by_cases hx : x = q
      · subst hx; simp [hy]
      · have : (y.1 == x) = false := by rw [hy]; simpa using fun h => hx h.symm
        have h2 : (q == x) = false := by simpa using fun h => hx h.symm
        simp only [hy, beq_self_eq_true, if_true, h2]
        rw [ih, if_neg hx]
        simp [hx]
    · have hq : (y.1 == q) = false := by simpa using hy
      simp only [hq, Bool.false_or]
      by_cases hx : x = q
      · subst hx
        rw [if_neg (by simp), hq, ih]
      · rw [if_neg (by simp), ih, if_neg hx, if_neg hx]

theorem at_set (fs : Fs) {q : List Bytes} (hq : q ≠ []) (e : Ent) (x : List Bytes) :
    (fs.set q e).at x = if x = q then some e else fs.at x := by
  unfold Fs.at Fs.set
  by_cases hx0 : x = []
  · subst hx0
    simp [Ne.symm hq]
  · simp only [hx0, if_false]
    split
    · rename_i h
      rw [find_map_set, h]
      by_cases hx : x = q <;> simp [hx]
    · rename_i h
      have hn : fs.ents.find? (·.1 == q) = none := by
        rw [List.find?_eq_none]
        intro y hy hq
        exact h (List.any_eq_true.mpr ⟨y, hy, hq⟩)
      rw [List.find?_append]
      by_cases hx : x = q
      · subst hx; simp [hn]
      · have h2 : (q == x) = false := by simpa using fun h => hx h.symm
        simp [hx, h2]

theorem find_filter (l : List (List Bytes × Ent)) (p : List Bytes → Bool) (x : List Bytes) :
    (l.filter (fun e => p e.1)).find? (·.1 == x) = if p x then l.find? (·.1 == x) else none := by
  induction l with
  | nil => simp
  | cons y l ih =>
    by_cases hy : p y.1 = true
    · rw [List.filter_cons_of_pos (p := fun (e : List Bytes × Ent) => p e.1) hy]
      simp only [List.find?_cons]
      by_cases hx : y.1 = x
      · subst hx; simp [hy]
      · have : (y.1 == x) = false := by simpa using hx
        simp [this, ih]
    · rw [List.filter_cons_of_neg (p := fun (e : List Bytes × Ent) => p e.1) hy]
      rw [ih]
      by_cases hx : y.1 = x
      · subst hx; simp [hy]
      · have : (y.1 == x) = false := by simpa using hx
        simp [this]

/-- Keeping the entries whose location satisfies `p`. -/
theorem at_filter (fs : Fs) (p : List Bytes → Bool) {x : List Bytes} (hx : x ≠ []) :
    ({ fs with ents := fs.ents.filter fun e => p e.1 } : Fs).at x = if p x then fs.at x else none := by
  unfold Fs.at
  simp only [hx, if_false, find_filter]
  split <;> rfl

theorem at_append (fs : Fs) (q : List Bytes) (d : Bytes) (x : List Bytes) :
    (Fs.append q d fs).at x = if x = q then (match fs.at q with | some (.file c md) => some (.file (c ++ d) md) | e => e) else fs.at x := by
  unfold Fs.append
  by_cases hq : q = []
  · subst hq; simp only [at_root]; split <;> simp_all
  · split
    · rename_i h; rw [at_set _ hq, h]
    · split
      · rename_i h hx; subst hx; split
        · rename_i h'; exact absurd h' (h _ _)
        · rfl
      · rfl

@[simp] theorem set_cwd (fs : Fs) (q : List Bytes) (e : Ent) : (fs.set q e).cwd = fs.cwd := rfl
@[simp] theorem set_faults (fs : Fs) (q : List Bytes) (e : Ent) : (fs.set q e).faults = fs.faults := rfl
@[simp] theorem append_cwd (fs : Fs) (q : List Bytes) (d : Bytes) : (Fs.append q d fs).cwd = fs.cwd := by unfold Fs.append; split <;> rfl
@[simp] theorem append_faults (fs : Fs) (q : List Bytes) (d : Bytes) : (Fs.append q d fs).faults = fs.faults := by unfold Fs.append; split <;> rfl

/-! ### Invariants of computations on the file system -/

/-- `x` keeps `I`, and its results satisfy `Q`. -/
def Pres {σ α : Type} (I : σ → Prop) (x : SM σ α) (Q : α → Prop) : Prop :=
  ∀ s, I s → I (x s).2 ∧ ∀ a, (x s).1 = .ok a → Q a

theorem Pres.bind {σ α β : Type} {I : σ → Prop} {x : SM σ α} {f : α → SM σ β} {Q : α → Prop} {R : β → Prop}
    (hx : Pres I x Q) (hf : ∀ a, Q a → Pres I (f a) R) : Pres I (x >>= f) R := by
  intro s hs
  have h := hx s hs
  rw [SM.bind_apply]
  cases hr : x s with
  | mk r s' =>
    rw [hr] at h
    cases r with
    | ok a => exact hf a (h.2 a rfl) s' h.1
    | err e => exact ⟨h.1, fun a ha => by simp at ha⟩
    | panic => exact ⟨h.1, fun a ha => by simp at ha⟩
    | fuel => exact ⟨h.1, fun a ha => by simp at ha⟩

theorem Pres.pure {σ α : Type} {I : σ → Prop} {a : α} {Q : α → Prop} (h : Q a) : Pres I (Pure.pure a : SM σ α) Q :=
  fun s hs => ⟨hs, fun b hb => by simp at hb; exact hb ▸ h⟩

theorem Pres.lift {σ α : Type} {I : σ → Prop} {r : Res α} {Q : α → Prop} (h : ∀ a, r = .ok a → Q a) : Pres I (SM.lift r : SM σ α) Q :=
  fun s hs => ⟨hs, fun b hb => h b hb⟩

theorem Pres.panic {σ α : Type} {I : σ → Prop} {Q : α → Prop} : Pres I (SM.panic : SM σ α) Q :=
  fun _ hs => ⟨hs, fun b hb => by simp at hb⟩

theorem Pres.read {σ α : Type} {I : σ → Prop} {f : σ → Res α} {Q : α → Prop} (h : ∀ s a, I s → f s = .ok a → Q a) : Pres I (SM.read f) Q :=
  fun s hs => ⟨hs, fun b hb => h s b hs hb⟩

theorem Pres.each {σ α : Type} {I : σ → Prop} {f : α → SM σ Unit} {l : List α} (h : ∀ a ∈ l, Pres I (f a) (fun _ => True)) :
    Pres I (SM.each f l) (fun _ => True) := by
  induction l with
  | nil => exact Pres.pure trivial
  | cons a l ih => exact Pres.bind (h a (by simp)) (fun _ _ => ih (fun b hb => h b (by simp [hb])))

theorem Pres.weaken {σ α : Type} {I : σ → Prop} {x : SM σ α} {Q Q' : α → Prop} (h : Pres I x Q) (hq : ∀ a, Q a → Q' a) : Pres I x Q' :=
  fun s hs => ⟨(h s hs).1, fun a ha => hq a ((h s hs).2 a ha)⟩

end Snap
