import Verif.Lemmas.Bits
namespace Snap

/-- number of zero bits needed to fill the last 5-bit group -/
def pad5 (n : Nat) : Nat := (5 - n % 5) % 5

theorem popU5_lt (x : Bits) : (popU5 x).1 < 32 := by
  simp only [popU5]
  generalize x[0]?.getD false = a
  generalize x[1]?.getD false = b
  generalize x[2]?.getD false = c
  generalize x[3]?.getD false = d
  generalize x[4]?.getD false = e
  cases a <;> cases b <;> cases c <;> cases d <;> cases e <;> decide

theorem pushIdx_popU5 (x : Bits) :
    pushIdx (popU5 x).1 = x.take 5 ++ List.replicate (5 - (x.take 5).length) false := by
  match x with
  | [] => decide
  | [a] => cases a <;> decide
  | [a, b] => cases a <;> cases b <;> decide
  | [a, b, c] => cases a <;> cases b <;> cases c <;> decide
  | [a, b, c, d] => cases a <;> cases b <;> cases c <;> cases d <;> decide
  | a :: b :: c :: d :: e :: r =>
    simp only [popU5, List.getElem?_cons_zero, List.getElem?_cons_succ, Option.getD_some]
    cases a <;> cases b <;> cases c <;> cases d <;> cases e <;> simp [pushIdx]

theorem table32_find : ∀ v, v < 32 →
    table32.findIdx? (fun x => x == lowerAZ (table32[v]?.getD 0)) = some v := by decide

theorem table32_isBase32 : ∀ v, v < 32 → Spec.IsBase32 (table32[v]?.getD 0) := by decide

theorem fromBase32Loop_append (x : Bytes) (acc : Bits) :
    fromBase32Loop x acc = (fromBase32Loop x []).map (acc ++ ·) := by
  induction x generalizing acc with
  | nil => simp [fromBase32Loop, Res.map]
  | cons c x ih =>
    simp only [fromBase32Loop]
    split
    · rfl
    · rw [ih, ih ([] ++ _)]
      cases fromBase32Loop x [] <;> simp [Res.map]

theorem fromBase32Loop_toBase32Loop (bs : Bits) :
    fromBase32Loop (toBase32Loop bs) [] = .ok (bs ++ List.replicate (pad5 bs.length) false) := by
  fun_induction toBase32Loop bs with
  | case1 => simp [fromBase32Loop, pad5]
  | case2 bs h ih =>
    simp only [fromBase32Loop]
    rw [table32_find _ (popU5_lt bs)]
    simp only [List.nil_append]
    rw [fromBase32Loop_append, ih, pushIdx_popU5]
    simp only [Res.map, popU5]
    congr 1
    by_cases hl : 5 ≤ bs.length
    · have e1 : 5 - (List.take 5 bs).length = 0 := by simp; omega
      have e2 : pad5 (List.drop 5 bs).length = pad5 bs.length := by simp [pad5]; omega
      rw [e1, e2]; simp
      rw [← List.append_assoc, List.take_append_drop]
    · have e0 : List.take 5 bs = bs := List.take_of_length_le (by omega)
      have e1 : List.drop 5 bs = [] := List.drop_eq_nil_of_le (by omega)
      have h0 : bs.length ≠ 0 := by simpa using h
      have e2 : 5 - bs.length = pad5 bs.length := by simp only [pad5]; omega
      rw [e0, e1, e2]; simp [pad5]

theorem fromBase32_toBase32 (x : Bytes) : fromBase32 (toBase32 x) (8 * x.length) = .ok (fromVec x) := by
  simp only [fromBase32, toBase32, fromBase32Loop_toBase32Loop]
  rw [List.take_append_of_le_length (by simp)]
  rw [List.take_of_length_le (by simp)]

theorem toBase32Loop_length (bs : Bits) : (toBase32Loop bs).length = (bs.length + 4) / 5 := by
  fun_induction toBase32Loop bs with
  | case1 => simp
  | case2 bs h ih =>
    have h0 : bs.length ≠ 0 := by simpa using h
    have e : (popU5 bs).2.length = bs.length - 5 := by simp [popU5]
    rw [List.length_cons, ih, e]
    omega

theorem toBase32Loop_alphabet (bs : Bits) : ∀ c ∈ toBase32Loop bs, Spec.IsBase32 c := by
  fun_induction toBase32Loop bs with
  | case1 => simp
  | case2 bs h ih =>
    intro c hc
    rcases List.mem_cons.mp hc with rfl | hc
    · exact table32_isBase32 _ (popU5_lt bs)
    · exact ih c hc

theorem toBase32_length (x : Bytes) : (toBase32 x).length = (8 * x.length + 4) / 5 := by
  simp [toBase32, toBase32Loop_length]

theorem toBase32_inj {x y : Bytes} (h : toBase32 x = toBase32 y) : x = y := by
  have hl := congrArg List.length h
  rw [toBase32_length, toBase32_length] at hl
  have hl' : x.length = y.length := by omega
  have h1 := fromBase32_toBase32 x
  have h2 := fromBase32_toBase32 y
  rw [h, hl', h2] at h1
  injection h1 with h1
  exact (fromVec_inj h1).symm

/-! decoding a single character -/

/-- index in the table of a (case-insensitive) base32 character -/
def idx32 (c : UInt8) : Nat := if 50 ≤ c ∧ c ≤ 55 then c.toNat - 24 else (Spec.lower c).toNat - 97

theorem lowerAZ_eq_lower : ∀ c, lowerAZ c = Spec.lower c := by
  apply forall_u8; decide +kernel

theorem find_ci : ∀ c, table32.findIdx? (fun x => x == lowerAZ c) =
    if Spec.IsBase32Ci c then some (idx32 c) else none := by
  apply forall_u8; decide +kernel

theorem idx32_lt : ∀ c, Spec.IsBase32Ci c → idx32 c < 32 := by
  apply forall_u8; decide +kernel

theorem table32_idx32 : ∀ c, Spec.IsBase32Ci c → table32[idx32 c]?.getD 0 = Spec.lower c := by
  apply forall_u8; decide +kernel

theorem idx32_lower : ∀ c, idx32 (Spec.lower c) = idx32 c := by
  apply forall_u8; decide +kernel

theorem ci_lower : ∀ c, Spec.IsBase32Ci (Spec.lower c) ↔ Spec.IsBase32Ci c := by
  apply forall_u8; decide +kernel

theorem lower_of_isBase32 : ∀ c, Spec.IsBase32 c → Spec.lower c = c := by
  apply forall_u8; decide +kernel

@[simp] theorem pushIdx_length (i : Nat) : (pushIdx i).length = 5 := rfl

theorem popU5_pushIdx : ∀ i, i < 32 → ∀ r : Bits, popU5 (pushIdx i ++ r) = (i, r) := by
  intro i hi r
  have h5 : (pushIdx i ++ r).drop 5 = r := rfl
  have h1 : (popU5 (pushIdx i ++ r)).1 = (popU5 (pushIdx i)).1 := by simp [popU5, pushIdx]
  have h2 : ∀ i, i < 32 → (popU5 (pushIdx i)).1 = i := by decide
  exact Prod.ext (by rw [h1, h2 i hi]) h5

/-- bits of a list of base32 characters -/
def textBits (t : Bytes) : Bits := t.flatMap (fun c => pushIdx (idx32 c))

@[simp] theorem textBits_length (t : Bytes) : (textBits t).length = 5 * t.length := by
  induction t with
  | nil => rfl
  | cons c t ih => simp [textBits] at *; omega

theorem fromBase32Loop_ok (t : Bytes) (h : ∀ c ∈ t, Spec.IsBase32Ci c) (acc : Bits) :
    fromBase32Loop t acc = .ok (acc ++ textBits t) := by
  induction t generalizing acc with
  | nil => simp [fromBase32Loop, textBits]
  | cons c t ih =>
    simp only [fromBase32Loop]
    rw [find_ci, if_pos (h c (by simp))]
    simp only
    rw [ih (fun c hc => h c (by simp [hc]))]
    simp [textBits]

theorem fromBase32Loop_err (t : Bytes) (h : ¬ ∀ c ∈ t, Spec.IsBase32Ci c) (acc : Bits) :
    ∃ b, fromBase32Loop t acc = .err (.unknownByte b) := by
  induction t generalizing acc with
  | nil => simp at h
  | cons c t ih =>
    simp only [fromBase32Loop]
    rw [find_ci]
    by_cases hc : Spec.IsBase32Ci c
    · rw [if_pos hc]
      exact ih (fun h' => h (fun d hd => by rcases List.mem_cons.mp hd with rfl | hd; exact hc; exact h' d hd)) _
    · rw [if_neg hc]; exact ⟨_, rfl⟩

theorem toBase32Loop_textBits (t : Bytes) (h : ∀ c ∈ t, Spec.IsBase32Ci c) (r : Bits) :
    toBase32Loop (textBits t ++ r) = t.map Spec.lower ++ toBase32Loop r := by
  induction t with
  | nil => simp [textBits]
  | cons c t ih =>
    have hc := h c (by simp)
    have e : textBits (c :: t) ++ r = pushIdx (idx32 c) ++ (textBits t ++ r) := by simp [textBits]
    rw [e, toBase32Loop, popU5_pushIdx _ (idx32_lt c hc)]
    simp only [table32_idx32 c hc]
    rw [ih (fun c hc => h c (by simp [hc]))]
    simp [pushIdx]

/-- A list of base32 characters starts the text of a bit string iff its bits start the bit string. -/
theorem prefix_text_iff (t : Bytes) (h : ∀ c ∈ t, Spec.IsBase32Ci c) (bs : Bits) (hl : 5 * t.length ≤ bs.length) :
    t.map Spec.lower <+: toBase32Loop bs ↔ textBits t <+: bs := by
  constructor
  · intro ⟨r, hr⟩
    have hd := fromBase32Loop_toBase32Loop bs
    rw [← hr, fromBase32Loop_ok] at hd
    · have hm : textBits (t.map Spec.lower ++ r) = textBits t ++ textBits r := by
        simp [textBits, List.flatMap_map, idx32_lower]
      rw [hm] at hd
      simp only [List.nil_append, Res.ok.injEq] at hd
      have : textBits t <+: bs ++ List.replicate (pad5 bs.length) false := ⟨_, hd⟩
      exact List.prefix_of_prefix_length_le this (List.prefix_append _ _) (by simpa using hl)
    · intro c hc
      have : c ∈ toBase32Loop bs := by rw [← hr]; exact hc
      exact Or.inl (toBase32Loop_alphabet bs c this)
  · rintro ⟨r, rfl⟩
    rw [toBase32Loop_textBits t h]
    exact List.prefix_append _ _

end Snap
