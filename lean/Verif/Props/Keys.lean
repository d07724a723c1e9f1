import Verif.Lemmas.Keyish
/-! Properties C01–C07 and C10: text and key encodings. -/
namespace Snap.Props
open Snap

/-! ### C01 base32 text decodes back to the same bytes -/

theorem C01_base32_roundtrip (x : Bytes) :
    fromBase32 (toBase32 x) (8 * x.length) = .ok (Spec.bits x) := by
  rw [← fromVec_eq_bits]; exact fromBase32_toBase32 x

example : toBase32 [0xaa] = [118, 105] ∧ fromBase32 [118, 105] 8 = .ok (Spec.bits [0xaa]) := by
  constructor
  · simp [toBase32, fromVec, byteBits, toBase32Loop, popU5, table32]; decide
  · rfl

/-! ### C02 base32 text is canonical -/

theorem C02_length_alphabet (x : Bytes) :
    (toBase32 x).length = (8 * x.length + 4) / 5 ∧ ∀ c ∈ toBase32 x, Spec.IsBase32 c :=
  ⟨toBase32_length x, toBase32Loop_alphabet _⟩

theorem C02_injective (x y : Bytes) (h : toBase32 x = toBase32 y) : x = y := toBase32_inj h

/-- The `i`-th character carries bits `5 i … 5 i + 4` of the input, missing bits being 0. -/
theorem C02_characters (x : Bytes) (i : Nat) (hi : i < (toBase32 x).length) :
    Spec.val32 ((toBase32 x)[i]) =
      ((Spec.bits x)[5 * i]?.getD false).toNat * 16 + ((Spec.bits x)[5 * i + 1]?.getD false).toNat * 8
      + ((Spec.bits x)[5 * i + 2]?.getD false).toNat * 4 + ((Spec.bits x)[5 * i + 3]?.getD false).toNat * 2
      + ((Spec.bits x)[5 * i + 4]?.getD false).toNat := by
  rw [← fromVec_eq_bits]
  unfold toBase32 at hi ⊢
  generalize fromVec x = bs at *
  have hv : ∀ v, v < 32 → Spec.val32 (table32[v]?.getD 0) = v := by decide
  induction i generalizing bs with
  | zero =>
    have hne : bs ≠ [] := by
      intro h; subst h; rw [toBase32Loop] at hi; simp at hi
    have e : (toBase32Loop bs)[0]'hi = table32[(popU5 bs).1]?.getD 0 := by
      have : (toBase32Loop bs)[0]? = some (table32[(popU5 bs).1]?.getD 0) := by
        rw [toBase32Loop]; simp [hne]
      rw [List.getElem?_eq_getElem hi] at this
      injection this
    rw [e, hv _ (popU5_lt bs)]
    simp only [popU5, Nat.mul_zero, Nat.zero_add]
    generalize bs[0]?.getD false = a
    generalize bs[1]?.getD false = b
    generalize bs[2]?.getD false = c
    generalize bs[3]?.getD false = d
    generalize bs[4]?.getD false = e
    cases a <;> cases b <;> cases c <;> cases d <;> cases e <;> decide
  | succ i ih =>
    have hne : bs ≠ [] := by
      intro h; subst h; rw [toBase32Loop] at hi; simp at hi
    have e0 : toBase32Loop bs = (table32[(popU5 bs).1]?.getD 0) :: toBase32Loop (bs.drop 5) := by
      rw [toBase32Loop]; simp [hne, popU5]
    have hi' : i < (toBase32Loop (bs.drop 5)).length := by rw [e0] at hi; simpa using hi
    have e : (toBase32Loop bs)[i + 1]'hi = (toBase32Loop (bs.drop 5))[i]'hi' := by simp [e0]
    rw [e, ih _ hi']
    simp only [List.getElem?_drop]
    have : ∀ j, 5 + (5 * i + j) = 5 * (i + 1) + j := by intro j; omega
    simp only [this]
    rw [show 5 + 5 * i = 5 * (i + 1) by omega]

/-! ### C03 from_base32 accepts exactly the alphabet, ignoring case -/

theorem C03_accepts_iff (s : Bytes) (m : Nat) :
    (∃ r, fromBase32 s m = .ok r) ↔ ∀ c ∈ s, Spec.IsBase32Ci c := by
  constructor
  · rintro ⟨r, h⟩
    by_cases hc : ∀ c ∈ s, Spec.IsBase32Ci c
    · exact hc
    · obtain ⟨b, hb⟩ := fromBase32Loop_err s hc []
      simp [fromBase32, hb] at h
  · intro hc
    exact ⟨_, by simp only [fromBase32, fromBase32Loop_ok s hc]; rfl⟩

theorem C03_error_is_unknown_byte (s : Bytes) (m : Nat) (h : ¬ ∀ c ∈ s, Spec.IsBase32Ci c) :
    ∃ b, fromBase32 s m = .err (.unknownByte b) := by
  obtain ⟨b, hb⟩ := fromBase32Loop_err s h []
  exact ⟨b, by simp [fromBase32, hb]⟩

theorem C03_case_insensitive (s : Bytes) (m : Nat) (h : ∀ c ∈ s, Spec.IsBase32Ci c) :
    fromBase32 (s.map Spec.lower) m = fromBase32 s m := by
  have h' : ∀ c ∈ s.map Spec.lower, Spec.IsBase32Ci c := by
    intro c hc; obtain ⟨d, hd, rfl⟩ := List.mem_map.mp hc; exact (ci_lower d).mpr (h d hd)
  simp only [fromBase32, fromBase32Loop_ok _ h, fromBase32Loop_ok _ h']
  simp [textBits, List.flatMap_map, idx32_lower]

theorem C03_length (s : Bytes) (m : Nat) (r : Bits) (h : fromBase32 s m = .ok r) :
    r.length = min (5 * s.length) m := by
  have hc := (C03_accepts_iff s m).mp ⟨r, h⟩
  simp only [fromBase32, fromBase32Loop_ok _ hc] at h
  injection h with h
  rw [← h]; simp; omega

example : ∃ r, fromBase32 [65, 98, 55] 100 = .ok r := (C03_accepts_iff _ _).mpr (by decide)
example : ¬ ∃ r, fromBase32 [65, 98, 56] 100 = .ok r := by rw [C03_accepts_iff]; decide

/-! ### C04 database keys -/

theorem C04_roundtrip (k : Key) : fromDbKey k.asDbKey = .ok k := fromDbKey_asDbKey k

theorem C04_accepts_iff (b : Bytes) :
    (∃ k, fromDbKey b = .ok k) ↔ ∃ h, b = 1 :: h ∧ h.length = 32 := by
  constructor
  · rintro ⟨k, hk⟩
    exact ⟨k.hash, (asDbKey_of_fromDbKey hk).symm, k.len32⟩
  · rintro ⟨h, rfl, hl⟩
    exact ⟨⟨h, hl⟩, fromDbKey_asDbKey ⟨h, hl⟩⟩

theorem C04_inverse (b : Bytes) (k : Key) (h : fromDbKey b = .ok k) : k.asDbKey = b := asDbKey_of_fromDbKey h

/-- The three rejections, exactly. -/
theorem C04_errors :
    fromDbKey [] = .err .emptyDbKey
    ∧ (∀ i t, i ≠ 1 → fromDbKey (i :: t) = .err (.unknownHashId i))
    ∧ (∀ t, t.length ≠ 32 → fromDbKey (1 :: t) = .err (.incorrectLength t.length)) := by
  refine ⟨rfl, ?_, ?_⟩
  · intro i t h; simp [fromDbKey, h]
  · intro t h; simp [fromDbKey, h]

theorem C04_injective (a b : Key) (h : a.asDbKey = b.asDbKey) : a = b := asDbKey_inj h

/-! ### C05 printed keys -/

theorem C05_shape (k : Key) :
    ∃ t, k.asUserKey = 98 :: t ∧ t.length = 52 ∧ ∀ c ∈ t, Spec.IsBase32 c := by
  refine ⟨toBase32 k.hash, rfl, ?_, toBase32Loop_alphabet _⟩
  rw [toBase32_length, k.len32]

theorem base32_no_slash {t : Bytes} (h : ∀ c ∈ t, Spec.IsBase32Ci c) : (98 :: t).contains 47 = false := by
  rw [List.contains_eq_any_beq, List.any_eq_false]
  intro c hc
  rcases List.mem_cons.mp hc with rfl | hc
  · decide
  · have := h c hc
    intro h47
    have e : 47 = c := by simpa using h47
    subst e; revert this; decide

theorem ci_ascii : ∀ c, Spec.IsBase32Ci c → c < 128 := by
  apply forall_u8; decide +kernel

theorem fromStr_base32 {t : Bytes} (h : ∀ c ∈ t, Spec.IsBase32Ci c) :
    Keyish.fromStr (98 :: t) =
      if 52 ≤ t.length then .ok (.key (98 :: t) (1 :: intoVec ((textBits t).take 256)))
      else .ok (.range (98 :: t) (1 :: intoVec (textBits t))
        (if (textBits t).all id then none else some (1 :: intoVec (incBits (textBits t))))) := by
  have hb := base32_no_slash h
  have ha : isAscii (98 :: t) = true := by
    simp only [isAscii, List.all_cons, List.all_eq_true, Bool.and_eq_true]
    exact ⟨by decide, fun c hc => by simpa using ci_ascii c (h c hc)⟩
  rw [Keyish.fromStr, if_neg (by rw [hb]; decide)]
  simp only [parseFromBase32, ha, fromBase32, fromBase32Loop_ok t h]
  simp only [List.nil_append, List.length_take, textBits_length]
  by_cases hl : 52 ≤ t.length
  · have h256 : min (32 * 8) (5 * t.length) = 256 := by omega
    simp [hl, h256]
  · have : (textBits t).take (32 * 8) = textBits t := List.take_of_length_le (by simp; omega)
    have h256 : ¬ min (32 * 8) (5 * t.length) = 256 := by omega
    simp only [Nat.reduceMul] at this h256
    simp [this, hl, h256]

theorem C05_parses_back (k : Key) :
    Keyish.fromStr k.asUserKey = .ok (.key k.asUserKey k.asDbKey) := by
  have hc : ∀ c ∈ toBase32 k.hash, Spec.IsBase32Ci c := fun c hc => Or.inl (toBase32Loop_alphabet _ c hc)
  have hl : (toBase32 k.hash).length = 52 := by rw [toBase32_length, k.len32]
  show Keyish.fromStr (98 :: toBase32 k.hash) = _
  rw [fromStr_base32 hc, if_pos (by omega)]
  have h1 := fromBase32_toBase32 k.hash
  simp only [fromBase32, fromBase32Loop_ok _ hc, k.len32] at h1
  injection h1 with h1
  have h2 : (textBits (toBase32 k.hash)).take 256 = fromVec k.hash := h1
  rw [h2, intoVec_fromVec]; rfl

theorem C05_injective (a b : Key) (h : a.asUserKey = b.asUserKey) : a = b := asUserKey_inj h

/-! ### C06 parsing is total and classified -/

theorem C06_ref (s : Bytes) (h : 47 ∈ s) :
    ∃ l r, s = l ++ 47 :: r ∧ 47 ∉ l ∧
      Keyish.fromStr s = .ok (.reflog s (if l = [] then none else some l) r) := by
  have hsplit : ∃ l r, s = l ++ 47 :: r ∧ 47 ∉ l := by
    induction s with
    | nil => simp at h
    | cons a s ih =>
      by_cases ha : a = 47
      · subst ha; exact ⟨[], s, rfl, by simp⟩
      · have hs : 47 ∈ s := by
          rcases List.mem_cons.mp h with h | h
          · exact absurd h.symm ha
          · exact h
        obtain ⟨l, r, rfl, hl⟩ := ih hs
        exact ⟨a :: l, r, rfl, by simp [hl]; exact fun e => ha e.symm⟩
  obtain ⟨l, r, rfl, hl⟩ := hsplit
  refine ⟨l, r, rfl, hl, ?_⟩
  have hf : (l ++ 47 :: r).findIdx? (· == 47) = some l.length := by
    rw [List.findIdx?_append]
    have : l.findIdx? (· == 47) = none := by
      rw [List.findIdx?_eq_none_iff]
      intro x hx; simp; rintro rfl; exact hl hx
    rw [this]; simp [List.findIdx?_cons]
  have hc : (l ++ 47 :: r).contains 47 = true := by simp
  simp only [Keyish.fromStr, hc, parseFromRef, hf]
  cases l with
  | nil => simp
  | cons a l => simp

theorem C06_text (s : Bytes) (h : 47 ∉ s) :
    (s = [] → Keyish.fromStr s = .err .keyishEmpty)
    ∧ ((∃ c ∈ s, 128 ≤ c) → Keyish.fromStr s = .err (.keyishInvalid s))
    ∧ ((∀ c ∈ s, c < 128) → ∀ c t, s = c :: t →
        (c ≠ 98 → Keyish.fromStr s = .err (.keyishUnknownPrefix c))
        ∧ (c = 98 → (¬ ∀ d ∈ t, Spec.IsBase32Ci d) → Keyish.fromStr s = .err (.keyishInvalid s))
        ∧ (c = 98 → (∀ d ∈ t, Spec.IsBase32Ci d) → 52 ≤ t.length → ∃ k : Key, Keyish.fromStr s = .ok (.key s k.asDbKey))
        ∧ (c = 98 → (∀ d ∈ t, Spec.IsBase32Ci d) → t.length < 52 → ∃ a b, Keyish.fromStr s = .ok (.range s a b))) := by
  have hc : ¬ s.contains 47 = true := by simpa using h
  refine ⟨?_, ?_, ?_⟩
  · rintro rfl; rfl
  · rintro ⟨c, hcs, h128⟩
    have : isAscii s = false := by
      simp only [isAscii, List.all_eq_false]
      exact ⟨c, hcs, by simpa using h128⟩
    rw [Keyish.fromStr, if_neg hc]; simp [parseFromBase32, this]
  · intro hasc c t hs
    subst hs
    have ha : isAscii (c :: t) = true := by
      simp only [isAscii, List.all_eq_true]
      intro d hd; simpa using hasc d hd
    refine ⟨?_, ?_, ?_, ?_⟩
    · intro hne
      rw [Keyish.fromStr, if_neg hc]; simp [parseFromBase32, ha, hne]
    · rintro rfl hd
      obtain ⟨b, hb⟩ := fromBase32Loop_err t hd []
      rw [Keyish.fromStr, if_neg hc]; simp [parseFromBase32, ha, fromBase32, hb]
    · rintro rfl hd hl
      refine ⟨⟨intoVec ((textBits t).take 256), ?_⟩, ?_⟩
      · rw [intoVec_length]; simp; omega
      · rw [fromStr_base32 hd, if_pos hl]; rfl
    · rintro rfl hd hl
      rw [fromStr_base32 hd, if_neg (by omega)]
      exact ⟨_, _, rfl⟩

theorem C06_never_panics (s : Bytes) : Keyish.fromStr s ≠ .panic ∧ Keyish.fromStr s ≠ .fuel := by
  by_cases h : 47 ∈ s
  · obtain ⟨l, r, _, _, e⟩ := C06_ref s h
    simp [e]
  · obtain ⟨h1, h2, h3⟩ := C06_text s h
    by_cases h128 : ∃ c ∈ s, 128 ≤ c
    · simp [h2 h128]
    · have ha : ∀ c ∈ s, c < 128 := by
        intro c hc
        rw [← UInt8.not_le]; intro hle; exact h128 ⟨c, hc, hle⟩
      cases s with
      | nil => simp [h1 rfl]
      | cons c t =>
        obtain ⟨ha1, ha2, ha3, ha4⟩ := h3 ha c t rfl
        by_cases hb : c = 98
        · by_cases hd : ∀ d ∈ t, Spec.IsBase32Ci d
          · by_cases hl : 52 ≤ t.length
            · obtain ⟨k, e⟩ := ha3 hb hd hl; simp [e]
            · obtain ⟨a, b, e⟩ := ha4 hb hd (by omega); simp [e]
          · simp [ha2 hb hd]
        · simp [ha1 hb]

/-! ### C07 an abbreviation denotes exactly the keys whose text begins with it -/

theorem C07_abbreviation (t : Bytes) (ht : ∀ c ∈ t, Spec.IsBase32Ci c) (hl : t.length < 52) :
    ∃ start stop, Keyish.fromStr (98 :: t) = .ok (.range (98 :: t) start stop) ∧
      ∀ k : Key, Spec.InRange start stop k.asDbKey ↔ (98 :: t.map Spec.lower) <+: k.asUserKey := by
  rw [fromStr_base32 ht, if_neg (by omega)]
  refine ⟨_, _, rfl, ?_⟩
  intro k
  have hq : (textBits t).length ≤ 8 * k.hash.length := by simp [k.len32]; omega
  have hpt : (98 :: t.map Spec.lower) <+: k.asUserKey ↔ textBits t <+: fromVec k.hash := by
    show (98 :: t.map Spec.lower) <+: 98 :: toBase32Loop (fromVec k.hash) ↔ _
    rw [List.cons_prefix_cons, prefix_text_iff t ht _ (by simp [k.len32]; omega)]
    simp
  rw [hpt]
  simp only [Spec.InRange, Key.asDbKey, Key.hashId]
  have hle : ∀ x : Bytes, (1 :: x : Bytes) ≤ 1 :: k.hash ↔ x ≤ k.hash := by
    intro x; simp [List.cons_le_cons_iff]
  rw [hle]
  by_cases hall : (textBits t).all id = true
  · rw [if_pos hall, range_iff_ones hall hq]; simp
  · rw [if_neg hall, ← range_iff hall hq]
    simp

/-- instance: `"bA7"` abbreviates a key starting with those characters -/
example : ∀ c ∈ ([65, 55] : Bytes), Spec.IsBase32Ci c := by decide

/-! ### C10 over-long key texts -/

theorem textBits_append (a b : Bytes) : textBits (a ++ b) = textBits a ++ textBits b := by simp [textBits]

/-- **Counterexample (the property is false of the code)**: every key text followed by any base32 junk still parses as that exact key. -/
theorem C10_overlong_accepted_counterexample (k : Key) (junk : Bytes) (hj : ∀ c ∈ junk, Spec.IsBase32Ci c) :
    Keyish.fromStr (k.asUserKey ++ junk) = .ok (.key (k.asUserKey ++ junk) k.asDbKey) := by
  have hc : ∀ c ∈ toBase32 k.hash, Spec.IsBase32Ci c := fun c hc => Or.inl (toBase32Loop_alphabet _ c hc)
  have hl : (toBase32 k.hash).length = 52 := by rw [toBase32_length, k.len32]
  have hcj : ∀ c ∈ toBase32 k.hash ++ junk, Spec.IsBase32Ci c := by
    intro c h; rcases List.mem_append.mp h with h | h
    · exact hc c h
    · exact hj c h
  show Keyish.fromStr (98 :: (toBase32 k.hash ++ junk)) = _
  rw [fromStr_base32 hcj, if_pos (by simp [hl])]
  have h1 := fromBase32_toBase32 k.hash
  simp only [fromBase32, fromBase32Loop_ok _ hc, k.len32] at h1
  injection h1 with h1
  have h3 : textBits (toBase32 k.hash ++ junk) = textBits (toBase32 k.hash) ++ textBits junk := by simp [textBits]
  have h2 : (textBits (toBase32 k.hash ++ junk)).take 256 = fromVec k.hash := by
    rw [h3, List.take_append_of_le_length (by simp [hl])]; exact h1
  rw [h2, intoVec_fromVec]; rfl

/-- the counterexample is not vacuous -/
example : ∀ c ∈ ([97, 97] : Bytes), Spec.IsBase32Ci c := by decide

/-- **C10**: a text of full length (53 characters) or more denotes a key iff it agrees with the key's printed form in the first 52
characters (ignoring case) and in the top bit of the 53rd; what follows is ignored. -/
theorem C10_full_length (t : Bytes) (ht : ∀ c ∈ t, Spec.IsBase32Ci c) (hl : 52 ≤ t.length) (k : Key) :
    Keyish.fromStr (98 :: t) = .ok (.key (98 :: t) k.asDbKey) ↔
      (98 :: (t.take 51).map Spec.lower) <+: k.asUserKey ∧
      Spec.val32 (t[51]'(by omega)) / 16 = Spec.val32 (k.asUserKey[52]'(by rw [asUserKey_length]; omega)) / 16 := by
  have hval : ∀ c, Spec.val32 c = idx32 c := by apply forall_u8; decide +kernel
  have hlk : (toBase32 k.hash).length = 52 := by rw [toBase32_length, k.len32]
  have huk : ∀ c ∈ toBase32 k.hash, Spec.IsBase32Ci c := fun c hc => Or.inl (toBase32Loop_alphabet _ c hc)
  have hbits : (textBits (toBase32 k.hash)).take 256 = fromVec k.hash := by
    have h1 := fromBase32_toBase32 k.hash
    simp only [fromBase32, fromBase32Loop_ok _ huk, k.len32] at h1
    injection h1
  have htk : ∀ u : Bytes, 52 ≤ u.length → (textBits u).take 256 = (textBits (u.take 52)).take 256 := by
    intro u hu
    have : textBits u = textBits (u.take 52) ++ textBits (u.drop 52) := by
      rw [← textBits_append, List.take_append_drop]
    rw [this, List.take_append_of_le_length (by simp; omega)]
  have split : ∀ u : Bytes, (hu : 52 ≤ u.length) →
      (textBits u).take 256 = textBits (u.take 51) ++ [decide (idx32 (u[51]'(by omega)) &&& 16 ≠ 0)] := by
    intro u hu
    rw [htk u hu]
    have e : u.take 52 = u.take 51 ++ [u[51]'(by omega)] := by
      rw [List.take_succ_eq_append_getElem (by omega)]
    conv => lhs; rw [e]
    have e2 : textBits (u.take 51 ++ [u[51]'(by omega)]) = textBits (u.take 51) ++ pushIdx (idx32 (u[51]'(by omega))) := by
      simp only [textBits, List.flatMap_append, List.flatMap_cons, List.flatMap_nil, List.append_nil]
    rw [e2, List.take_append, List.take_of_length_le (by simp; omega)]
    congr 1
    have : 256 - (textBits (List.take 51 u)).length = 1 := by simp; omega
    rw [this]; simp [pushIdx, bne]; rfl
  have hbit : ∀ a b, a < 32 → b < 32 → ((decide (a &&& 16 ≠ 0) = decide (b &&& 16 ≠ 0)) ↔ a / 16 = b / 16) := by
    have : ∀ a < 32, ∀ b < 32, ((decide (a &&& 16 ≠ 0) = decide (b &&& 16 ≠ 0)) ↔ a / 16 = b / 16) := by decide +kernel
    intro a b ha hb; exact this a ha b hb
  have hget : k.asUserKey[52]'(by rw [asUserKey_length]; omega) = (toBase32 k.hash)[51]'(by omega) := by
    simp [Key.asUserKey]
  rw [fromStr_base32 ht, if_pos (by omega), hval, hval, hget]
  have h51 : ∀ c ∈ t.take 51, Spec.IsBase32Ci c := fun c hc => ht c (List.mem_of_mem_take hc)
  have hpt : (98 :: (t.take 51).map Spec.lower) <+: k.asUserKey ↔ textBits (t.take 51) <+: fromVec k.hash := by
    show _ <+: 98 :: toBase32Loop (fromVec k.hash) ↔ _
    rw [List.cons_prefix_cons, prefix_text_iff _ h51 _ (by simp [k.len32]; omega)]
    simp
  rw [hpt, ← hbits, split (toBase32 k.hash) (by omega), ← hbit _ _ (idx32_lt _ (ht _ (List.getElem_mem _))) (idx32_lt _ (huk _ (List.getElem_mem _)))]
  have hkd : k.asDbKey = 1 :: intoVec ((textBits (toBase32 k.hash)).take 256) := by
    rw [hbits, intoVec_fromVec]; rfl
  rw [hkd, split (toBase32 k.hash) (by omega), split t hl]
  have hlen : (textBits (t.take 51)).length = (textBits ((toBase32 k.hash).take 51)).length := by simp; omega
  constructor
  · intro h
    simp only [Res.ok.injEq, Keyish.key.injEq, List.cons.injEq, true_and] at h
    have h' := congrArg fromVec h
    rw [fromVec_intoVec, fromVec_intoVec] at h'
    have h'' := (List.append_inj h' (by simp; omega)).1
    have h3 := List.append_inj h'' hlen
    refine ⟨?_, by simpa using h3.2⟩
    rw [h3.1]; exact List.prefix_append _ _
  · rintro ⟨h1, h2⟩
    have h3 : textBits (t.take 51) = textBits ((toBase32 k.hash).take 51) := by
      have := List.prefix_of_prefix_length_le h1 (List.prefix_append _ _) (by omega)
      exact this.eq_of_length hlen
    rw [h3, h2]

end Snap.Props
