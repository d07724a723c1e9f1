import Verif.Lemmas.Base32
import Verif.Model.Keyish
namespace Snap

theorem fromDbKey_asDbKey (k : Key) : fromDbKey k.asDbKey = .ok k := by
  simp [fromDbKey, Key.asDbKey, Key.hashId, k.len32]

theorem asDbKey_of_fromDbKey {b : Bytes} {k : Key} (h : fromDbKey b = .ok k) : k.asDbKey = b := by
  unfold fromDbKey at h
  split at h
  · simp at h
  · split at h
    · split at h
      · simp at h; subst h; simp_all [Key.asDbKey, Key.hashId]
      · simp at h
    · simp at h

theorem asDbKey_inj {a b : Key} (h : a.asDbKey = b.asDbKey) : a = b := by
  have h1 := fromDbKey_asDbKey a
  rw [h, fromDbKey_asDbKey] at h1
  injection h1 with h1; exact h1.symm

@[simp] theorem asDbKey_length (k : Key) : k.asDbKey.length = 33 := by
  simp [Key.asDbKey, k.len32]

theorem asUserKey_length (k : Key) : k.asUserKey.length = 53 := by
  simp [Key.asUserKey, toBase32_length, k.len32]

theorem asUserKey_inj {a b : Key} (h : a.asUserKey = b.asUserKey) : a = b := by
  simp [Key.asUserKey] at h
  have := toBase32_inj h
  cases a; cases b; simp_all

/-! ripple-carry increment -/

theorem addRev_nil_false (a : Bits) : addRev a [] false = a := by
  induction a with
  | nil => simp [addRev]
  | cons x a ih => cases x <;> simp [addRev, ih]

theorem addRev_carry (a : Bits) (h : ¬ a.all id = true) :
    (addRev a [] true).length = a.length ∧ bitsVal (addRev a [] true).reverse = bitsVal a.reverse + 1 := by
  induction a with
  | nil => simp at h
  | cons x a ih =>
    cases x with
    | false =>
      simp [addRev, addRev_nil_false, bitsVal_append, bitsVal_cons]
    | true =>
      have h' : ¬ a.all id = true := by simpa using h
      have := ih h'
      simp [addRev, bitsVal_append, bitsVal_cons, this]
      omega

theorem incBits_spec (x : Bits) (h : ¬ x.all id = true) :
    (incBits x).length = x.length ∧ bitsVal (incBits x) = bitsVal x + 1 := by
  have hr : ¬ x.reverse.all id = true := by simpa using h
  have hx : x = x.reverse.reverse := by simp
  generalize x.reverse = r at *
  subst hx
  simp only [incBits, List.reverse_reverse, List.length_reverse]
  cases r with
  | nil => simp at hr
  | cons a r =>
    cases a with
    | false => simp [addRev, addRev_nil_false, bitsVal_append, bitsVal_cons]
    | true =>
      have h' : ¬ r.all id = true := by simpa using hr
      have := addRev_carry r h'
      simp [addRev, bitsVal_append, bitsVal_cons, this]
      omega

theorem prefix_iff_val {p q : Bits} (h : p.length ≤ q.length) :
    p <+: q ↔ bitsVal q / 2 ^ (q.length - p.length) = bitsVal p := by
  have hq : q = q.take p.length ++ q.drop p.length := (List.take_append_drop _ _).symm
  have hl : (q.take p.length).length = p.length := by simp; omega
  have hd : (q.drop p.length).length = q.length - p.length := by simp
  have hv : bitsVal q / 2 ^ (q.length - p.length) = bitsVal (q.take p.length) := by
    have hqv : bitsVal q = bitsVal (q.take p.length) * 2 ^ (q.length - p.length) + bitsVal (q.drop p.length) := by
      rw [← hd, ← bitsVal_append, ← hq]
    have := bitsVal_lt (q.drop p.length)
    rw [hd] at this
    rw [hqv, Nat.add_comm, Nat.add_mul_div_right _ _ (Nat.two_pow_pos _), Nat.div_eq_of_lt]
    · simp
    · simpa using this
  rw [hv, List.prefix_iff_eq_take]
  constructor
  · intro h; rw [← h]
  · intro h; exact (bitsVal_inj hl h).symm

/-- The byte range of a bit prefix that is not all ones contains exactly the byte strings starting with these bits. -/
theorem range_iff {p : Bits} (h1 : ¬ p.all id = true) {q : Bytes} (hq : p.length ≤ 8 * q.length) :
    (intoVec p ≤ q ∧ q < intoVec (incBits p)) ↔ p <+: fromVec q := by
  obtain ⟨hil, hiv⟩ := incBits_spec p h1
  have hm : (intoVec p).length ≤ q.length := by rw [intoVec_length]; omega
  have hm2 : (intoVec (incBits p)).length = (intoVec p).length := by simp [intoVec_length, hil]
  rw [← List.not_lt, bytes_lt_take rfl hm, bytes_lt_take hm2 hm]
  have htl : (q.take (intoVec p).length).length = (intoVec p).length := by simp; omega
  rw [bytes_lt_iff htl, bytes_lt_iff (by rw [htl, hm2]), fromVec_intoVec, fromVec_intoVec, hil, bitsVal_append, bitsVal_append]
  have hpre : p <+: fromVec q ↔ p <+: fromVec (q.take (intoVec p).length) := by
    have hh : fromVec q = fromVec (q.take (intoVec p).length) ++ fromVec (q.drop (intoVec p).length) := by
      rw [← fromVec_append, List.take_append_drop]
    constructor
    · intro h
      exact List.prefix_of_prefix_length_le h (hh ▸ List.prefix_append _ _) (by
        rw [fromVec_length, htl, intoVec_length]; omega)
    · intro h; rw [hh]; exact h.trans (List.prefix_append _ _)
  have hlen : p.length ≤ (fromVec (q.take (intoVec p).length)).length := by
    rw [fromVec_length, htl, intoVec_length]; omega
  rw [hpre, prefix_iff_val hlen]
  have hpad : (fromVec (q.take (intoVec p).length)).length - p.length = pad8 p.length := by
    rw [fromVec_length, htl, intoVec_length]; simp only [pad8]; omega
  rw [hpad]
  simp only [bitsVal_replicate_false, List.length_replicate, hiv, Nat.add_zero]
  generalize bitsVal (fromVec (q.take (intoVec p).length)) = V
  have hw : 0 < 2 ^ pad8 p.length := Nat.two_pow_pos _
  generalize 2 ^ pad8 p.length = W at *
  generalize bitsVal p = P
  constructor
  · rintro ⟨ha, hb⟩
    apply Nat.div_eq_of_lt_le <;> omega
  · intro h
    have h3 := Nat.div_add_mod V W
    have h4 := Nat.mod_lt V hw
    rw [h] at h3
    rw [Nat.mul_comm] at h3
    rw [Nat.add_mul]; omega

/-- For an all-ones prefix the lower bound alone is enough. -/
theorem range_iff_ones {p : Bits} (h1 : p.all id = true) {q : Bytes} (hq : p.length ≤ 8 * q.length) :
    intoVec p ≤ q ↔ p <+: fromVec q := by
  have hm : (intoVec p).length ≤ q.length := by rw [intoVec_length]; omega
  rw [← List.not_lt, bytes_lt_take rfl hm]
  have htl : (q.take (intoVec p).length).length = (intoVec p).length := by simp; omega
  rw [bytes_lt_iff htl, fromVec_intoVec, bitsVal_append]
  have hpre : p <+: fromVec q ↔ p <+: fromVec (q.take (intoVec p).length) := by
    have hh : fromVec q = fromVec (q.take (intoVec p).length) ++ fromVec (q.drop (intoVec p).length) := by
      rw [← fromVec_append, List.take_append_drop]
    constructor
    · intro h
      exact List.prefix_of_prefix_length_le h (hh ▸ List.prefix_append _ _) (by
        rw [fromVec_length, htl, intoVec_length]; omega)
    · intro h; rw [hh]; exact h.trans (List.prefix_append _ _)
  have hlen : p.length ≤ (fromVec (q.take (intoVec p).length)).length := by
    rw [fromVec_length, htl, intoVec_length]; omega
  rw [hpre, prefix_iff_val hlen]
  have hpad : (fromVec (q.take (intoVec p).length)).length - p.length = pad8 p.length := by
    rw [fromVec_length, htl, intoVec_length]; simp only [pad8]; omega
  rw [hpad]
  simp only [bitsVal_replicate_false, List.length_replicate, Nat.add_zero]
  have hV := bitsVal_lt (fromVec (q.take (intoVec p).length))
  have hL : (fromVec (q.take (intoVec p).length)).length = p.length + pad8 p.length := by omega
  rw [hL, Nat.pow_add] at hV
  have hones : bitsVal p + 1 = 2 ^ p.length := by
    clear hpre hlen hpad hV hL hm htl hq
    induction p with
    | nil => rfl
    | cons a p ih =>
      simp at h1
      have := ih (by simpa using h1.2)
      rw [bitsVal_cons, h1.1, List.length_cons, Nat.pow_succ]
      simp; omega
  have hw : 0 < 2 ^ pad8 p.length := Nat.two_pow_pos _
  rw [← hones] at hV
  generalize bitsVal (fromVec (q.take (intoVec p).length)) = V at *
  generalize 2 ^ pad8 p.length = W at *
  generalize bitsVal p = P at *
  constructor
  · intro ha
    apply Nat.div_eq_of_lt_le <;> omega
  · intro h
    have h3 := Nat.div_add_mod V W
    have h4 := Nat.mod_lt V hw
    rw [h] at h3
    rw [Nat.mul_comm] at h3
    omega

end Snap
