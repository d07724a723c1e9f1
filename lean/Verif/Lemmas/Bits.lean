import Verif.Model.Base32
import Verif.Spec
/-! Bits, bytes and their numeric values. -/
namespace Snap

theorem forall_u8 {P : UInt8 → Prop} (h : ∀ n, n < 256 → P (UInt8.ofNat n)) : ∀ b, P b := by
  intro b
  have := h b.toNat b.toNat_lt
  simpa using this

@[simp] theorem byteBits_length (b : UInt8) : (byteBits b).length = 8 := by simp [byteBits]

@[simp] theorem fromVec_nil : fromVec [] = [] := rfl
@[simp] theorem fromVec_cons (b : UInt8) (x : Bytes) : fromVec (b :: x) = byteBits b ++ fromVec x := by
  simp [fromVec]
@[simp] theorem fromVec_append (x y : Bytes) : fromVec (x ++ y) = fromVec x ++ fromVec y := by
  simp [fromVec]
@[simp] theorem fromVec_length (x : Bytes) : (fromVec x).length = 8 * x.length := by
  induction x with
  | nil => rfl
  | cons b x ih => simp [ih]; omega

theorem fromVec_eq_bits (x : Bytes) : fromVec x = Spec.bits x := by
  apply List.ext_getElem?
  intro i
  induction x generalizing i with
  | nil => simp [Spec.bits]
  | cons b x ih =>
    rw [fromVec_cons, List.getElem?_append]
    have hb : (byteBits b).length = 8 := by simp
    by_cases hi : i < 8
    · rw [if_pos (by omega)]
      have : i = 0 ∨ i = 1 ∨ i = 2 ∨ i = 3 ∨ i = 4 ∨ i = 5 ∨ i = 6 ∨ i = 7 := by omega
      simp only [Spec.bits, List.getElem?_map, List.length_cons]
      rw [List.getElem?_range (by omega)]
      rcases this with h | h | h | h | h | h | h | h <;> subst h <;> simp [byteBits]
    · rw [if_neg (by omega), hb, ih]
      simp only [Spec.bits, List.getElem?_map, List.length_cons]
      by_cases h2 : i < 8 * (x.length + 1)
      · rw [List.getElem?_range (by omega), List.getElem?_range (by omega)]
        have e1 : i / 8 = (i - 8) / 8 + 1 := by omega
        have e2 : i % 8 = (i - 8) % 8 := by omega
        simp [e1, e2]
      · rw [List.getElem?_eq_none (by simp; omega), List.getElem?_eq_none (by simp; omega)]; rfl

/-! numeric value -/

theorem foldl_bits (a : Nat) (bs : Bits) :
    bs.foldl (fun a b => 2 * a + b.toNat) a = a * 2 ^ bs.length + bitsVal bs := by
  induction bs generalizing a with
  | nil => simp [bitsVal]
  | cons b bs ih =>
    simp only [List.foldl_cons, bitsVal, List.length_cons]
    rw [ih, ih (2 * 0 + b.toNat)]
    rw [Nat.pow_succ, Nat.add_mul, Nat.add_mul]
    have : 2 * a * 2 ^ bs.length = a * (2 ^ bs.length * 2) := by
      rw [Nat.mul_comm 2 a, Nat.mul_assoc, Nat.mul_comm 2]
    omega

@[simp] theorem bitsVal_nil : bitsVal [] = 0 := rfl
theorem bitsVal_append (a b : Bits) : bitsVal (a ++ b) = bitsVal a * 2 ^ b.length + bitsVal b := by
  unfold bitsVal; rw [List.foldl_append, foldl_bits]; rfl
theorem bitsVal_cons (a : Bool) (b : Bits) : bitsVal (a :: b) = a.toNat * 2 ^ b.length + bitsVal b := by
  have := bitsVal_append [a] b
  simpa [bitsVal] using this

theorem bitsVal_lt (a : Bits) : bitsVal a < 2 ^ a.length := by
  induction a with
  | nil => simp
  | cons a b ih =>
    rw [bitsVal_cons, List.length_cons, Nat.pow_succ]
    cases a <;> simp <;> omega

theorem bitsVal_inj {a b : Bits} (h : a.length = b.length) (hv : bitsVal a = bitsVal b) : a = b := by
  induction a generalizing b with
  | nil => cases b <;> simp_all
  | cons x a ih =>
    cases b with
    | nil => simp at h
    | cons y b =>
      simp at h
      have h1 := bitsVal_lt a
      have h2 := bitsVal_lt b
      rw [bitsVal_cons, bitsVal_cons, h] at hv
      rw [h] at h1
      cases x <;> cases y <;> simp at hv <;> first | omega | (congr 1; exact ih h (by omega))

@[simp] theorem bitsVal_replicate_false (n : Nat) : bitsVal (List.replicate n false) = 0 := by
  induction n with
  | zero => rfl
  | succ n ih => rw [List.replicate_succ, bitsVal_cons, ih]; simp

theorem bitsVal_byteBits : ∀ b : UInt8, bitsVal (byteBits b) = b.toNat := by
  apply forall_u8
  decide +kernel

theorem byteBits_ofNat {n : Nat} (h : n < 256) : bitsVal (byteBits (UInt8.ofNat n)) = n := by
  rw [bitsVal_byteBits]; simp; omega

theorem byteBits_of_bits {bs : Bits} (h : bs.length = 8) : byteBits (UInt8.ofNat (bitsVal bs)) = bs := by
  apply bitsVal_inj
  · simp [h]
  · rw [byteBits_ofNat]
    have := bitsVal_lt bs
    rw [h] at this; simpa using this

theorem ofNat_byteBits (b : UInt8) : UInt8.ofNat (bitsVal (byteBits b)) = b := by
  rw [bitsVal_byteBits]; simp

/-- number of zero bits needed to fill the last byte -/
def pad8 (n : Nat) : Nat := (8 - n % 8) % 8

theorem intoVec_nil : intoVec [] = [] := by rw [intoVec]; simp

theorem fromVec_intoVec (bs : Bits) : fromVec (intoVec bs) = bs ++ List.replicate (pad8 bs.length) false := by
  fun_induction intoVec bs with
  | case1 => simp [pad8]
  | case2 bs h ih =>
    rw [fromVec_cons, byteBits_of_bits (by simp; omega), ih]
    by_cases hl : 8 ≤ bs.length
    · have e1 : 8 - (List.take 8 bs).length = 0 := by simp; omega
      have e2 : pad8 (List.drop 8 bs).length = pad8 bs.length := by simp [pad8]; omega
      rw [e1, e2]; simp
      rw [← List.append_assoc, List.take_append_drop]
    · have e0 : List.take 8 bs = bs := List.take_of_length_le (by omega)
      have e1 : List.drop 8 bs = [] := List.drop_eq_nil_of_le (by omega)
      have h0 : bs.length ≠ 0 := by simpa using h
      have e2 : 8 - bs.length = pad8 bs.length := by simp only [pad8]; omega
      rw [e0, e1, e2]; simp [pad8]

theorem intoVec_length (bs : Bits) : (intoVec bs).length = (bs.length + 7) / 8 := by
  have h := congrArg List.length (fromVec_intoVec bs)
  simp [pad8] at h; omega

theorem fromVec_inj {x y : Bytes} (h : fromVec x = fromVec y) : x = y := by
  induction x generalizing y with
  | nil =>
    cases y with
    | nil => rfl
    | cons b y => have := congrArg List.length h; simp at this; omega
  | cons a x ih =>
    cases y with
    | nil => have := congrArg List.length h; simp at this
    | cons b y =>
      simp only [fromVec_cons] at h
      have := List.append_inj h (by simp)
      have e := congrArg bitsVal this.1
      rw [bitsVal_byteBits, bitsVal_byteBits] at e
      rw [ih this.2, UInt8.toNat_inj.mp e]

theorem intoVec_fromVec (x : Bytes) : intoVec (fromVec x) = x := by
  apply fromVec_inj
  rw [fromVec_intoVec]; simp [pad8]

/-! lexicographic order of byte strings -/

theorem bytes_lt_iff {x y : Bytes} (h : x.length = y.length) : x < y ↔ bitsVal (fromVec x) < bitsVal (fromVec y) := by
  induction x generalizing y with
  | nil => cases y <;> simp_all
  | cons a x ih =>
    cases y with
    | nil => simp at h
    | cons b y =>
      simp at h
      rw [fromVec_cons, fromVec_cons, bitsVal_append, bitsVal_append, bitsVal_byteBits, bitsVal_byteBits]
      simp only [fromVec_length, h]
      rw [List.cons_lt_cons_iff, ih h]
      have h1 := bitsVal_lt (fromVec x)
      have h2 := bitsVal_lt (fromVec y)
      simp only [fromVec_length, h] at h1 h2
      have hab : a < b ↔ a.toNat < b.toNat := UInt8.lt_iff_toNat_lt
      have hab2 : a = b ↔ a.toNat = b.toNat := UInt8.toNat_inj.symm
      rw [hab, hab2]
      generalize a.toNat = A at *
      generalize b.toNat = B at *
      generalize 2 ^ (8 * y.length) = W at *
      generalize bitsVal (fromVec x) = X at *
      generalize bitsVal (fromVec y) = Y at *
      constructor
      · rintro (h | ⟨h, h'⟩)
        · have : (A + 1) * W ≤ B * W := Nat.mul_le_mul_right _ h
          rw [Nat.add_mul] at this; omega
        · subst h; omega
      · intro h
        rcases Nat.lt_trichotomy A B with h' | h' | h'
        · exact Or.inl h'
        · subst h'; right; exact ⟨rfl, by omega⟩
        · have : (B + 1) * W ≤ A * W := Nat.mul_le_mul_right _ h'
          rw [Nat.add_mul] at this; omega

theorem bytes_lt_take {x y : Bytes} {m : Nat} (hx : x.length = m) (hy : m ≤ y.length) : y < x ↔ y.take m < x := by
  induction m generalizing x y with
  | zero => have : x = [] := by simpa using hx
            subst this; simp
  | succ m ih =>
    cases x with
    | nil => simp at hx
    | cons a x =>
      cases y with
      | nil => simp at hy
      | cons b y =>
        simp at hx hy
        rw [List.take_succ_cons, List.cons_lt_cons_iff, List.cons_lt_cons_iff, ih hx hy]

end Snap
