import Verif.Lemmas.Walk
/-! `HashMap<PathBuf, _>`: the maps made by the walks have pairwise different, normalised keys. -/
namespace Snap
set_option linter.unusedSectionVars false
variable [Serde] [LawfulSerde]

/-- Pairwise different, normalised keys. -/
structure PMap.Ok {α} (m : PMap α) : Prop where
  nodup : (m.map (·.1)).Nodup
  norm : ∀ e ∈ m, Path.norm e.1 = e.1

theorem PMap.ok_nil {α} : PMap.Ok ([] : PMap α) := ⟨by simp, by simp⟩

theorem PMap.insert_keys {α} (m : PMap α) (p : Path) (a : α) :
    (PMap.insert m p a).map (·.1) = if p.norm ∈ m.map (·.1) then m.map (·.1) else m.map (·.1) ++ [p.norm] := by
  unfold PMap.insert
  have : (m.any fun e => e.1 == p.norm) = true ↔ p.norm ∈ m.map (·.1) := by
    rw [List.any_eq_true, List.mem_map]
    simp
  by_cases h : p.norm ∈ m.map (·.1)
  · rw [if_pos (this.mpr h), if_pos h, List.map_map]
    apply List.map_congr_left
    intro e he
    simp only [Function.comp]
    split
    · rename_i h'; simp at h'; exact h'.symm
    · rfl
  · rw [if_neg (fun h' => h (this.mp h')), if_neg h]; simp

theorem PMap.insert_ok {α} {m : PMap α} (h : m.Ok) (p : Path) (a : α) : (PMap.insert m p a).Ok := by
  have hk : ∀ q ∈ (PMap.insert m p a).map (·.1), Path.norm q = q := by
    intro q hq
    rw [PMap.insert_keys] at hq
    split at hq
    · obtain ⟨e, he, rfl⟩ := List.mem_map.mp hq; exact h.norm e he
    · rcases List.mem_append.mp hq with hq | hq
      · obtain ⟨e, he, rfl⟩ := List.mem_map.mp hq; exact h.norm e he
      · simp at hq; subst hq; exact norm_norm p
  refine ⟨?_, fun e he => hk e.1 (List.mem_map_of_mem he)⟩
  rw [PMap.insert_keys]
  split
  · exact h.nodup
  · rename_i hn
    rw [List.nodup_append]
    refine ⟨h.nodup, by simp, ?_⟩
    intro x hx y hy
    simp at hy
    subst hy
    exact fun e => hn (e ▸ hx)

theorem PMap.extend_ok {α} {m : PMap α} (h : m.Ok) (m' : PMap α) : (PMap.extend m m').Ok := by
  unfold PMap.extend
  induction m' generalizing m with
  | nil => exact h
  | cons e m' ih => exact ih (PMap.insert_ok h _ _)

theorem extendAll_ok {α β} {f : β → Res (PMap α)} {m r : PMap α} {l : List β} (h : m.Ok) (he : extendAll f m l = .ok r) : r.Ok := by
  induction l generalizing m with
  | nil => simp [extendAll] at he; exact he ▸ h
  | cons b l ih =>
    unfold extendAll at he
    obtain ⟨x, _, h2⟩ := Res.bind_eq_ok he
    exact ih (PMap.extend_ok h x) h2

theorem walkItemsFrom_okMap {db : Db} {n : Nat} {k : Key} {p : Path} {m : PMap (Key × Bool)} (h : walkItemsFrom db n k p = .ok m) : m.Ok := by
  cases n with
  | zero => simp [walkItemsFrom] at h
  | succ n =>
    unfold walkItemsFrom at h
    obtain ⟨i, _, h⟩ := Res.bind_eq_ok h
    split at h
    · refine extendAll_ok ?_ h
      split
      · exact PMap.ok_nil
      · exact PMap.insert_ok PMap.ok_nil _ _
    · simp at h; subst h; exact PMap.insert_ok PMap.ok_nil _ _

theorem walkRealEntries_okMap {fs : Fs} {filter : Filter} {rec : Path → Res (PMap Bool)} {curr path : Path} {m r : PMap Bool} {l : List Bytes} (h : m.Ok)
    (he : walkRealEntries fs filter rec curr path m l = .ok r) : r.Ok := by
  induction l generalizing m with
  | nil => simp [walkRealEntries] at he; exact he ▸ h
  | cons b l ih =>
    unfold walkRealEntries at he
    obtain ⟨a, _, h2⟩ := Res.bind_eq_ok he
    cases a with
    | false => exact ih h h2
    | true =>
      simp only [if_true] at h2
      obtain ⟨x, _, h3⟩ := Res.bind_eq_ok h2
      exact ih (PMap.extend_ok h x) h3

theorem walkReal_okMap {fs : Fs} {filter : Filter} {n : Nat} {base : Path} {m : PMap Bool} (h : walkReal fs filter n base = .ok m) : m.Ok := by
  unfold walkReal at h
  cases n with
  | zero => simp [walkRealFrom] at h
  | succ n =>
    unfold walkRealFrom at h
    obtain ⟨e, _, h⟩ := Res.bind_eq_ok h
    cases e with
    | dir =>
      obtain ⟨l, _, h⟩ := Res.bind_eq_ok h
      exact walkRealEntries_okMap (by simpa using PMap.ok_nil) h
    | file c md => simp at h; subst h; exact PMap.insert_ok PMap.ok_nil _ _
    | _ => simp at h

theorem PMap.get_iff {α} {m : PMap α} (h : m.Ok) {p : Path} (hp : p.norm = p) {a : α} : m.get p = some a ↔ (p, a) ∈ m := by
  have hd := h.nodup
  clear h
  unfold PMap.get
  rw [hp]
  induction m with
  | nil => simp
  | cons e m ih =>
    simp only [List.map_cons, List.nodup_cons] at hd
    have ih := ih hd.2
    rw [List.find?_cons]
    by_cases he : e.1 = p
    · rw [show (e.1 == p) = true by simpa using he]
      simp only [Option.map_some, Option.some.injEq, List.mem_cons]
      constructor
      · intro h; left; rw [← he, ← h]
      · rintro (h | h)
        · rw [← h]
        · exact absurd (List.mem_map.mpr ⟨_, h, he.symm⟩) hd.1
    · rw [show (e.1 == p) = false by simpa using he]
      simp only [List.mem_cons]
      refine ih.trans ?_
      constructor
      · exact Or.inr
      · rintro (h | h)
        · exact absurd (by rw [← h]) he
        · exact h

theorem PMap.get_none_iff {α} {m : PMap α} {p : Path} (hp : p.norm = p) : m.get p = none ↔ p ∉ m.map (·.1) := by
  unfold PMap.get
  rw [hp, Option.map_eq_none_iff, List.find?_eq_none]
  simp only [List.mem_map, not_exists, not_and, beq_iff_eq]

theorem PMap.get_some_iff {α} {m : PMap α} {p : Path} (hp : p.norm = p) : (∃ a, m.get p = some a) ↔ p ∈ m.map (·.1) := by
  have := PMap.get_none_iff (m := m) hp
  cases h : m.get p with
  | none => simp [this.mp h]
  | some a =>
    simp only [Option.some.injEq, exists_eq', true_iff]
    exact Classical.byContradiction fun hc => by rw [this.mpr hc] at h; simp at h

end Snap
