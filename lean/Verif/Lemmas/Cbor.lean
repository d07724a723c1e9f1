import Verif.Model.Cbor
/-! The CBOR decoder inverts the encoder. -/
namespace Snap

@[simp] theorem beBytes_length (w n : Nat) : (beBytes w n).length = w := by
  induction w generalizing n with
  | zero => rfl
  | succ w ih => simp [beBytes, ih]

theorem beVal_cons (b : UInt8) (l : Bytes) : beVal (b :: l) = b.toNat * 256 ^ l.length + beVal l := by
  have : ∀ (l : Bytes) (a : Nat), l.foldl (fun a x => 256 * a + x.toNat) a = a * 256 ^ l.length + beVal l := by
    intro l
    induction l with
    | nil => intro a; simp [beVal]
    | cons c l ih =>
      intro a
      have h1 := ih (256 * a + c.toNat)
      have h2 := ih (256 * 0 + c.toNat)
      have h3 : beVal (c :: l) = l.foldl (fun a x => 256 * a + x.toNat) (256 * 0 + c.toNat) := rfl
      rw [List.foldl_cons, h1, h3, h2, List.length_cons, Nat.pow_succ, Nat.add_mul, Nat.mul_zero, Nat.zero_add,
        Nat.mul_comm 256 a, Nat.mul_assoc, Nat.mul_comm 256, Nat.add_assoc]
  have h3 : beVal (b :: l) = l.foldl (fun a x => 256 * a + x.toNat) (256 * 0 + b.toNat) := rfl
  rw [h3, this, Nat.mul_zero, Nat.zero_add]

theorem beVal_beBytes_mod (w n : Nat) : beVal (beBytes w n) = n % 256 ^ w := by
  induction w generalizing n with
  | zero => simp [beBytes, beVal, Nat.mod_one]
  | succ w ih =>
    rw [beBytes, beVal_cons, ih, beBytes_length]
    have h1 : (UInt8.ofNat (n / 256 ^ w)).toNat = n / 256 ^ w % 256 := by simp
    rw [h1, Nat.pow_succ, Nat.mod_mul]
    rw [Nat.mul_comm, Nat.add_comm]

theorem beVal_beBytes {w n : Nat} (h : n < 256 ^ w) : beVal (beBytes w n) = n := by
  rw [beVal_beBytes_mod, Nat.mod_eq_of_lt h]

theorem parseHdr_cborHdr {m n : Nat} (hm : m < 8) (hn : n < 2 ^ 64) (r : Bytes) :
    parseHdr (cborHdr m n ++ r) = some (m, n, r) := by
  have hdiv : ∀ a, a < 32 → (UInt8.ofNat (m * 32 + a)).toNat / 32 = m ∧ (UInt8.ofNat (m * 32 + a)).toNat % 32 = a := by
    intro a ha
    have : (UInt8.ofNat (m * 32 + a)).toNat = m * 32 + a := by simp; omega
    rw [this]; omega
  unfold cborHdr
  split
  · rename_i h
    have := hdiv n (by omega)
    simp only [parseHdr, List.cons_append, this.1, this.2, List.nil_append, if_pos h]
  · split
    · rename_i h
      have := hdiv 24 (by omega)
      have hb : beVal (beBytes 1 n) = n := beVal_beBytes (by simpa using h)
      simp only [parseHdr, List.cons_append, this.1, this.2]
      simp [hb]
    · split
      · rename_i h
        have := hdiv 25 (by omega)
        have hb : beVal (beBytes 2 n) = n := beVal_beBytes (by simpa using h)
        simp only [parseHdr, List.cons_append, this.1, this.2]
        simp [hb]
      · split
        · rename_i h
          have := hdiv 26 (by omega)
          have hb : beVal (beBytes 4 n) = n := beVal_beBytes (by simpa using h)
          simp only [parseHdr, List.cons_append, this.1, this.2]
          simp [hb]
        · have := hdiv 27 (by omega)
          have hb : beVal (beBytes 8 n) = n := beVal_beBytes (by simpa using hn)
          simp only [parseHdr, List.cons_append, this.1, this.2]
          simp [hb]


theorem parseSeq_encList {p : Bytes → Option (Cbor × Bytes)} (l : List Cbor)
    (h : ∀ c ∈ l, ∀ r, p (c.enc ++ r) = some (c, r)) (r : Bytes) :
    parseSeq p l.length (Cbor.encList l ++ r) = some (l, r) := by
  induction l with
  | nil => simp [parseSeq, Cbor.encList]
  | cons c l ih =>
    have h1 := h c (by simp) (Cbor.encList l ++ r)
    simp only [List.length_cons, parseSeq, Cbor.encList, List.append_assoc, h1]
    rw [ih (fun c hc => h c (by simp [hc]))]

theorem wfList_iff (l : List Cbor) : Cbor.wfList l = true ↔ ∀ c ∈ l, c.wf = true := by
  induction l with
  | nil => simp [Cbor.wfList]
  | cons c l ih => simp [Cbor.wfList, ih]

theorem depthList_le {l : List Cbor} {c : Cbor} (h : c ∈ l) : c.depth ≤ Cbor.depthList l := by
  induction l with
  | nil => simp at h
  | cons d l ih =>
    simp only [Cbor.depthList]
    rcases List.mem_cons.mp h with rfl | h
    · omega
    · have := ih h; omega

theorem parseItem_enc (fuel : Nat) (c : Cbor) (hw : c.wf = true) (hd : c.depth ≤ fuel) (r : Bytes) :
    parseItem fuel (c.enc ++ r) = some (c, r) := by
  induction fuel generalizing c r with
  | zero => cases c <;> simp [Cbor.depth] at hd
  | succ fuel ih =>
    cases c with
    | uint n =>
      have : n < 2 ^ 64 := by simpa [Cbor.wf] using hw
      simp [parseItem, Cbor.enc, parseHdr_cborHdr (m := 0) (by omega) this]
    | nint n =>
      have : n < 2 ^ 64 := by simpa [Cbor.wf] using hw
      simp [parseItem, Cbor.enc, parseHdr_cborHdr (m := 1) (by omega) this]
    | bytes b =>
      have : b.length < 2 ^ 64 := by simpa [Cbor.wf] using hw
      simp [parseItem, Cbor.enc, parseHdr_cborHdr (m := 2) (by omega) this]
    | text b =>
      have : b.length < 2 ^ 64 ∧ utf8 b = true := by simpa [Cbor.wf] using hw
      simp [parseItem, Cbor.enc, parseHdr_cborHdr (m := 3) (by omega) this.1, this.2]
    | array l =>
      have hw' : l.length < 2 ^ 64 ∧ Cbor.wfList l = true := by simpa [Cbor.wf] using hw
      have hd2 : max 1 (Cbor.depthList l) ≤ fuel := by simpa [Cbor.depth] using hd
      have hd' : Cbor.depthList l ≤ fuel := by omega
      have hf : fuel ≠ 0 := by omega
      have := parseSeq_encList (p := parseItem fuel) l
        (fun c hc r => ih c ((wfList_iff l).mp hw'.2 c hc) (Nat.le_trans (depthList_le hc) hd') r) r
      simp [parseItem, Cbor.enc, parseHdr_cborHdr (m := 4) (by omega) hw'.1, this, hf]
    | map l =>
      have hw' : (l.length % 2 = 0 ∧ l.length / 2 < 2 ^ 64) ∧ Cbor.wfList l = true := by simpa [Cbor.wf] using hw
      have hd2 : max 1 (Cbor.depthList l) ≤ fuel := by simpa [Cbor.depth] using hd
      have hd' : Cbor.depthList l ≤ fuel := by omega
      have hf : fuel ≠ 0 := by omega
      have := parseSeq_encList (p := parseItem fuel) l
        (fun c hc r => ih c ((wfList_iff l).mp hw'.2 c hc) (Nat.le_trans (depthList_le hc) hd') r) r
      have he : 2 * (l.length / 2) = l.length := by omega
      simp [parseItem, Cbor.enc, parseHdr_cborHdr (m := 5) (by omega) hw'.1.2, he, this, hf]

theorem parse_enc {c : Cbor} (hw : c.wf = true) (hd : c.depth ≤ 128) : Cbor.parse c.enc = .ok c := by
  have := parseItem_enc 128 c hw hd []
  simp only [List.append_nil] at this
  simp [Cbor.parse, this]

theorem parseSeq_deep {p : Bytes → Option (Cbor × Bytes)} (l : List Cbor)
    (h : ∀ c ∈ l, (∀ r, p (c.enc ++ r) = some (c, r)) ∨ ∀ r, p (c.enc ++ r) = none) (hn : ∃ c ∈ l, ∀ r, p (c.enc ++ r) = none) (r : Bytes) :
    parseSeq p l.length (Cbor.encList l ++ r) = none := by
  induction l with
  | nil => simp at hn
  | cons c l ih =>
    simp only [List.length_cons, parseSeq, Cbor.encList, List.append_assoc]
    rcases h c (by simp) with h1 | h1
    · rw [h1]
      simp only
      rw [ih (fun c hc => h c (by simp [hc]))]
      obtain ⟨d, hd, h2⟩ := hn
      rcases List.mem_cons.mp hd with rfl | hd
      · have := h1 []; rw [h2] at this; simp at this
      · exact ⟨d, hd, h2⟩
    · rw [h1]

theorem depthList_lt {l : List Cbor} {n : Nat} (h : n < Cbor.depthList l) : ∃ c ∈ l, n < c.depth := by
  induction l with
  | nil => simp [Cbor.depthList] at h
  | cons d l ih =>
    simp only [Cbor.depthList] at h
    by_cases hd : n < d.depth
    · exact ⟨d, by simp, hd⟩
    · obtain ⟨c, hc, h1⟩ := ih (by omega)
      exact ⟨c, by simp [hc], h1⟩

theorem depth_pos (c : Cbor) : 0 < c.depth := by cases c <;> simp [Cbor.depth]

/-- What is nested too deeply is not read. -/
theorem parseItem_deep (fuel : Nat) (c : Cbor) (hw : c.wf = true) (hd : fuel < c.depth) (r : Bytes) : parseItem fuel (c.enc ++ r) = none := by
  induction fuel generalizing c r with
  | zero => rfl
  | succ fuel ih =>
    have key : ∀ l : List Cbor, Cbor.wfList l = true → fuel < Cbor.depthList l → parseSeq (parseItem fuel) l.length (Cbor.encList l ++ r) = none := by
      intro l hw hd
      obtain ⟨d, hd1, hd2⟩ := depthList_lt hd
      refine parseSeq_deep l (fun c hc => ?_) ⟨d, hd1, fun r => ih d ((wfList_iff l).mp hw d hd1) hd2 r⟩ r
      by_cases h : fuel < c.depth
      · exact Or.inr fun r => ih c ((wfList_iff l).mp hw c hc) h r
      · exact Or.inl fun r => parseItem_enc fuel c ((wfList_iff l).mp hw c hc) (by omega) r
    cases c with
    | array l =>
      have hw' : l.length < 2 ^ 64 ∧ Cbor.wfList l = true := by simpa [Cbor.wf] using hw
      simp only [Cbor.depth] at hd
      simp only [parseItem, Cbor.enc, List.append_assoc, parseHdr_cborHdr (m := 4) (by omega) hw'.1]
      by_cases hf : fuel = 0
      · simp [hf]
      · have := key l hw'.2 (by omega)
        simp [hf, this]
    | map l =>
      have hw' : (l.length % 2 = 0 ∧ l.length / 2 < 2 ^ 64) ∧ Cbor.wfList l = true := by simpa [Cbor.wf] using hw
      have he : 2 * (l.length / 2) = l.length := by omega
      simp only [Cbor.depth] at hd
      simp only [parseItem, Cbor.enc, List.append_assoc, parseHdr_cborHdr (m := 5) (by omega) hw'.1.2, he]
      by_cases hf : fuel = 0
      · simp [hf]
      · have := key l hw'.2 (by omega)
        simp [hf, this]
    | uint n => simp [Cbor.depth] at hd
    | nint n => simp [Cbor.depth] at hd
    | bytes n => simp [Cbor.depth] at hd
    | text n => simp [Cbor.depth] at hd

theorem parse_deep {c : Cbor} (hw : c.wf = true) (hd : 128 < c.depth) : Cbor.parse c.enc = .err .decode := by
  have := parseItem_deep 128 c hw hd []
  simp only [List.append_nil] at this
  simp [Cbor.parse, this]

theorem parseHdr_append {b t r : Bytes} {m n : Nat} (h : parseHdr b = some (m, n, r)) : parseHdr (b ++ t) = some (m, n, r ++ t) := by
  cases b with
  | nil => simp [parseHdr] at h
  | cons a b =>
    simp only [parseHdr, List.cons_append] at h ⊢
    generalize hw : (if a.toNat % 32 = 24 then 1 else if a.toNat % 32 = 25 then 2 else if a.toNat % 32 = 26 then 4 else if a.toNat % 32 = 27 then 8 else 0) = w at h ⊢
    by_cases h1 : a.toNat % 32 < 24
    · rw [if_pos h1] at h ⊢
      simp only [Option.some.injEq, Prod.mk.injEq] at h ⊢
      exact ⟨h.1, h.2.1, by rw [h.2.2]⟩
    · rw [if_neg h1] at h ⊢
      by_cases h2 : w = 0
      · rw [if_pos h2] at h; simp at h
      · rw [if_neg h2] at h ⊢
        by_cases h3 : b.length < w
        · rw [if_pos h3] at h; simp at h
        · rw [if_neg h3] at h
          rw [if_neg (by simp; omega)]
          simp only [Option.some.injEq, Prod.mk.injEq] at h ⊢
          rw [List.take_append_of_le_length (by omega), List.drop_append_of_le_length (by omega)]
          exact ⟨h.1, h.2.1, by rw [h.2.2]⟩

theorem parseSeq_append {p : Bytes → Option (Cbor × Bytes)} (hp : ∀ b c r t, p b = some (c, r) → p (b ++ t) = some (c, r ++ t)) (n : Nat) :
    ∀ {b l r} (t : Bytes), parseSeq p n b = some (l, r) → parseSeq p n (b ++ t) = some (l, r ++ t) := by
  induction n with
  | zero => intro b l r t h; simp only [parseSeq, Option.some.injEq, Prod.mk.injEq] at h ⊢; exact ⟨h.1, by rw [h.2]⟩
  | succ n ih =>
    intro b l r t h
    simp only [parseSeq] at h ⊢
    cases h1 : p b with
    | none => simp [h1] at h
    | some x =>
      obtain ⟨c, b1⟩ := x
      rw [hp b c b1 t h1]
      simp only [h1] at h ⊢
      cases h2 : parseSeq p n b1 with
      | none => simp [h2] at h
      | some y =>
        obtain ⟨l1, b2⟩ := y
        rw [ih t h2]
        simp only [h2, Option.some.injEq, Prod.mk.injEq] at h ⊢
        exact ⟨h.1, by rw [h.2]⟩

/-- What an item is does not depend on what follows it. -/
theorem parseItem_append (fuel : Nat) : ∀ (b : Bytes) (c : Cbor) (r t : Bytes), parseItem fuel b = some (c, r) → parseItem fuel (b ++ t) = some (c, r ++ t) := by
  induction fuel with
  | zero => intro b c r t h; simp [parseItem] at h
  | succ fuel ih =>
    intro b c r t h
    simp only [parseItem] at h ⊢
    cases h1 : parseHdr b with
    | none => simp [h1] at h
    | some x =>
      obtain ⟨m, n, r1⟩ := x
      rw [parseHdr_append h1]
      simp only [h1] at h ⊢
      have hs : ∀ n', ((parseSeq (parseItem fuel) n' r1) = none) ∨ ∃ l r2, parseSeq (parseItem fuel) n' r1 = some (l, r2) ∧ parseSeq (parseItem fuel) n' (r1 ++ t) = some (l, r2 ++ t) := by
        intro n'
        cases h2 : parseSeq (parseItem fuel) n' r1 with
        | none => exact .inl rfl
        | some y => exact .inr ⟨y.1, y.2, rfl, parseSeq_append ih n' t h2⟩
      by_cases m0 : m = 0
      · simp only [m0, if_true, Option.some.injEq, Prod.mk.injEq] at h ⊢; exact ⟨h.1, by rw [h.2]⟩
      rw [if_neg m0] at h ⊢
      by_cases m1 : m = 1
      · simp only [m1, if_true, Option.some.injEq, Prod.mk.injEq] at h ⊢; exact ⟨h.1, by rw [h.2]⟩
      rw [if_neg m1] at h ⊢
      by_cases m2 : m = 2
      · rw [if_pos m2] at h ⊢
        by_cases hl : r1.length < n
        · rw [if_pos hl] at h; simp at h
        · rw [if_neg hl] at h
          rw [if_neg (by simp; omega), List.take_append_of_le_length (by omega), List.drop_append_of_le_length (by omega)]
          simp only [Option.some.injEq, Prod.mk.injEq] at h ⊢; exact ⟨h.1, by rw [h.2]⟩
      rw [if_neg m2] at h ⊢
      by_cases m3 : m = 3
      · rw [if_pos m3] at h ⊢
        by_cases hl : r1.length < n
        · rw [if_pos hl] at h; simp at h
        · rw [if_neg hl] at h
          rw [if_neg (by simp; omega), List.take_append_of_le_length (by omega), List.drop_append_of_le_length (by omega)]
          by_cases hu : utf8 (r1.take n) = true
          · rw [if_pos hu] at h ⊢
            simp only [Option.some.injEq, Prod.mk.injEq] at h ⊢; exact ⟨h.1, by rw [h.2]⟩
          · rw [if_neg hu] at h; simp at h
      rw [if_neg m3] at h ⊢
      by_cases hf : fuel = 0
      · rw [if_pos hf] at h; simp at h
      rw [if_neg hf] at h ⊢
      by_cases m4 : m = 4
      · rw [if_pos m4] at h ⊢
        rcases hs n with e | ⟨l, r2, e1, e2⟩
        · simp [e] at h
        · rw [e1] at h; rw [e2]
          simp only [Option.map_some, Option.some.injEq, Prod.mk.injEq] at h ⊢; exact ⟨h.1, by rw [h.2]⟩
      rw [if_neg m4] at h ⊢
      by_cases m5 : m = 5
      · rw [if_pos m5] at h ⊢
        rcases hs (2 * n) with e | ⟨l, r2, e1, e2⟩
        · simp [e] at h
        · rw [e1] at h; rw [e2]
          simp only [Option.map_some, Option.some.injEq, Prod.mk.injEq] at h ⊢; exact ⟨h.1, by rw [h.2]⟩
      rw [if_neg m5] at h; simp at h

/-- No byte string that is one item is the beginning of another such. -/
theorem parse_prefix {b t : Bytes} {c c' : Cbor} (h : Cbor.parse b = .ok c) (h' : Cbor.parse (b ++ t) = .ok c') : t = [] := by
  unfold Cbor.parse at h h'
  cases h1 : parseItem 128 b with
  | none => simp [h1] at h
  | some x =>
    obtain ⟨c1, r⟩ := x
    rw [h1] at h
    cases r with
    | cons a r => simp at h
    | nil =>
      rw [parseItem_append 128 b c1 [] t h1] at h'
      cases t with
      | nil => rfl
      | cons a t => simp at h'
end Snap
