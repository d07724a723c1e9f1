import Verif.Props.Links
import Verif.Props.Store
/-! Further theorems for C19, C68 and C94: fields given twice, what UTF-8 is, where links lead. -/
namespace Snap.Props
open Snap

/-! ### UTF-8 -/

namespace Spec

/-- A Unicode scalar value. -/
def Scalar (n : Nat) : Prop := n < 0x110000 ∧ ¬ (0xd800 ≤ n ∧ n ≤ 0xdfff)

/-- The UTF-8 form of a scalar value. -/
def encoded (n : Nat) : Bytes :=
  if n < 0x80 then [UInt8.ofNat n]
  else if n < 0x800 then [UInt8.ofNat (0xc0 + n / 64), UInt8.ofNat (0x80 + n % 64)]
  else if n < 0x10000 then [UInt8.ofNat (0xe0 + n / 4096), UInt8.ofNat (0x80 + n / 64 % 64), UInt8.ofNat (0x80 + n % 64)]
  else [UInt8.ofNat (0xf0 + n / 262144), UInt8.ofNat (0x80 + n / 4096 % 64), UInt8.ofNat (0x80 + n / 64 % 64), UInt8.ofNat (0x80 + n % 64)]

end Spec

theorem ofNat_u8 {a : UInt8} {n : Nat} (h : n = a.toNat) : UInt8.ofNat n = a := by rw [h]; exact UInt8.ofNat_toNat

theorem toNat_u8 {n : Nat} (h : n < 256) : (UInt8.ofNat n).toNat = n := by rw [UInt8.toNat_ofNat']; exact Nat.mod_eq_of_lt h

/-- `utf8` in terms of numbers. -/
theorem utf8_cons (a : UInt8) (r : Bytes) : utf8 (a :: r) = true ↔
    (a.toNat < 0x80 ∧ utf8 r = true) ∨
    (∃ b r', r = b :: r' ∧ 0xc2 ≤ a.toNat ∧ a.toNat ≤ 0xdf ∧ 0x80 ≤ b.toNat ∧ b.toNat ≤ 0xbf ∧ utf8 r' = true) ∨
    (∃ b c r', r = b :: c :: r' ∧ 0xe0 ≤ a.toNat ∧ a.toNat ≤ 0xef ∧ (if a.toNat = 0xe0 then 0xa0 else 0x80) ≤ b.toNat ∧ b.toNat ≤ (if a.toNat = 0xed then 0x9f else 0xbf) ∧
      0x80 ≤ c.toNat ∧ c.toNat ≤ 0xbf ∧ utf8 r' = true) ∨
    (∃ b c d r', r = b :: c :: d :: r' ∧ 0xf0 ≤ a.toNat ∧ a.toNat ≤ 0xf4 ∧ (if a.toNat = 0xf0 then 0x90 else 0x80) ≤ b.toNat ∧ b.toNat ≤ (if a.toNat = 0xf4 then 0x8f else 0xbf) ∧
      0x80 ≤ c.toNat ∧ c.toNat ≤ 0xbf ∧ 0x80 ≤ d.toNat ∧ d.toNat ≤ 0xbf ∧ utf8 r' = true) := by
  have e0 : a = 0xe0 ↔ a.toNat = 0xe0 := by rw [← UInt8.toNat_inj]; rfl
  have e1 : a = 0xed ↔ a.toNat = 0xed := by rw [← UInt8.toNat_inj]; rfl
  have e2 : a = 0xf0 ↔ a.toNat = 0xf0 := by rw [← UInt8.toNat_inj]; rfl
  have e3 : a = 0xf4 ↔ a.toNat = 0xf4 := by rw [← UInt8.toNat_inj]; rfl
  have hle : ∀ x y : UInt8, x ≤ y ↔ x.toNat ≤ y.toNat := fun x y => UInt8.le_iff_toNat_le
  have hlt : ∀ x y : UInt8, x < y ↔ x.toNat < y.toNat := fun x y => UInt8.lt_iff_toNat_lt
  have n1 : (0x80 : UInt8).toNat = 0x80 := rfl
  have n2 : (0xc2 : UInt8).toNat = 0xc2 := rfl
  have n3 : (0xdf : UInt8).toNat = 0xdf := rfl
  have n4 : (0xbf : UInt8).toNat = 0xbf := rfl
  have n5 : (0xe0 : UInt8).toNat = 0xe0 := rfl
  have n6 : (0xef : UInt8).toNat = 0xef := rfl
  have n7 : (0xa0 : UInt8).toNat = 0xa0 := rfl
  have n8 : (0x9f : UInt8).toNat = 0x9f := rfl
  have n9 : (0xf0 : UInt8).toNat = 0xf0 := rfl
  have n10 : (0xf4 : UInt8).toNat = 0xf4 := rfl
  have n11 : (0x90 : UInt8).toNat = 0x90 := rfl
  have n12 : (0x8f : UInt8).toNat = 0x8f := rfl
  have hite : ∀ (P : Prop) [Decidable P] (x y : UInt8), (if P then x else y).toNat = if P then x.toNat else y.toNat := fun P _ x y => by split <;> rfl
  rw [utf8.eq_def]
  simp only [hle, hlt, n1, n2, n3, n4, n5, n6, n9, n10]
  by_cases c1 : a.toNat < 0x80
  · rw [if_pos c1]
    constructor
    · exact fun h => .inl ⟨c1, h⟩
    · rintro (h | ⟨b, r', _, h, _⟩ | ⟨b, c, r', _, h, _⟩ | ⟨b, c, d, r', _, h, _⟩)
      · exact h.2
      all_goals omega
  rw [if_neg c1]
  by_cases c2 : 0xc2 ≤ a.toNat ∧ a.toNat ≤ 0xdf
  · rw [if_pos c2]
    constructor
    · intro h
      right; left
      cases r with
      | nil => simp at h
      | cons b r => simp only [Bool.and_eq_true, decide_eq_true_eq] at h; exact ⟨b, r, rfl, c2.1, c2.2, h.1.1, h.1.2, h.2⟩
    · rintro (h | ⟨b, r', rfl, h1, h2, h3, h4, h5⟩ | ⟨b, c, r', _, h, _⟩ | ⟨b, c, d, r', _, h, _⟩)
      · omega
      · simp only [Bool.and_eq_true, decide_eq_true_eq]; exact ⟨⟨h3, h4⟩, h5⟩
      all_goals omega
  rw [if_neg c2]
  by_cases c3 : 0xe0 ≤ a.toNat ∧ a.toNat ≤ 0xef
  · rw [if_pos c3]
    constructor
    · intro h
      right; right; left
      match r, h with
      | [], h => simp at h
      | [_], h => simp at h
      | b :: c :: r, h =>
        simp only [Bool.and_eq_true, decide_eq_true_eq, hite, e0, e1, n1, n4, n7, n8] at h
        exact ⟨b, c, r, rfl, c3.1, c3.2, h.1.1.1, h.1.1.2, h.1.2.1, h.1.2.2, h.2⟩
    · rintro (h | ⟨b, r', rfl, h1, h2, h3, h4, h5⟩ | ⟨b, c, r', rfl, h1, h2, h3, h4, h5, h6, h7⟩ | ⟨b, c, d, r', _, h, _⟩)
      · omega
      · omega
      · simp only [Bool.and_eq_true, decide_eq_true_eq, hite, e0, e1, n1, n4, n7, n8]; exact ⟨⟨⟨h3, h4⟩, h5, h6⟩, h7⟩
      · omega
  rw [if_neg c3]
  by_cases c4 : 0xf0 ≤ a.toNat ∧ a.toNat ≤ 0xf4
  · rw [if_pos c4]
    constructor
    · intro h
      right; right; right
      match r, h with
      | [], h => simp at h
      | [_], h => simp at h
      | [_, _], h => simp at h
      | b :: c :: d :: r, h =>
        simp only [Bool.and_eq_true, decide_eq_true_eq, hite, e2, e3, n1, n4, n11, n12] at h
        exact ⟨b, c, d, r, rfl, c4.1, c4.2, h.1.1.1.1, h.1.1.1.2, h.1.1.2.1, h.1.1.2.2, h.1.2.1, h.1.2.2, h.2⟩
    · rintro (h | ⟨b, r', rfl, h1, h2, h3, h4, h5⟩ | ⟨b, c, r', rfl, h1, h2, h3, h4, h5, h6, h7⟩ | ⟨b, c, d, r', rfl, h1, h2, h3, h4, h5, h6, h7, h8, h9⟩)
      · omega
      · omega
      · omega
      · simp only [Bool.and_eq_true, decide_eq_true_eq, hite, e2, e3, n1, n4, n11, n12]; exact ⟨⟨⟨⟨h3, h4⟩, h5, h6⟩, h7, h8⟩, h9⟩
  rw [if_neg c4]
  constructor
  · intro h; simp at h
  · rintro (h | ⟨b, r', rfl, h1, h2, h3, h4, h5⟩ | ⟨b, c, r', rfl, h1, h2, h3, h4, h5, h6, h7⟩ | ⟨b, c, d, r', rfl, h1, h2, h3, h4, h5, h6, h7, h8, h9⟩) <;> omega

theorem utf8_encoded {n : Nat} (h : Spec.Scalar n) (r : Bytes) (hr : utf8 r = true) : utf8 (Spec.encoded n ++ r) = true := by
  obtain ⟨h1, h2⟩ := h
  unfold Spec.encoded
  by_cases c1 : n < 0x80
  · rw [if_pos c1, List.singleton_append, utf8_cons, toNat_u8 (by omega)]
    exact .inl ⟨c1, hr⟩
  rw [if_neg c1]
  by_cases c2 : n < 0x800
  · rw [if_pos c2, List.cons_append, List.singleton_append, utf8_cons, toNat_u8 (by omega)]
    exact .inr (.inl ⟨_, _, rfl, by omega, by omega, by rw [toNat_u8 (by omega)]; omega, by rw [toNat_u8 (by omega)]; omega, hr⟩)
  rw [if_neg c2]
  by_cases c3 : n < 0x10000
  · rw [if_pos c3, List.cons_append, List.cons_append, List.singleton_append, utf8_cons, toNat_u8 (by omega)]
    refine .inr (.inr (.inl ⟨_, _, _, rfl, by omega, by omega, ?_, ?_, by rw [toNat_u8 (by omega)]; omega, by rw [toNat_u8 (by omega)]; omega, hr⟩))
    · rw [toNat_u8 (by omega)]; split <;> omega
    · rw [toNat_u8 (by omega)]; split <;> omega
  · rw [if_neg c3, List.cons_append, List.cons_append, List.cons_append, List.singleton_append, utf8_cons, toNat_u8 (by omega)]
    refine .inr (.inr (.inr ⟨_, _, _, _, rfl, by omega, by omega, ?_, ?_, by rw [toNat_u8 (by omega)]; omega, by rw [toNat_u8 (by omega)]; omega,
      by rw [toNat_u8 (by omega)]; omega, by rw [toNat_u8 (by omega)]; omega, hr⟩))
    · rw [toNat_u8 (by omega)]; split <;> omega
    · rw [toNat_u8 (by omega)]; split <;> omega

/-- **C68** (what UTF-8 is): exactly the sequences of the UTF-8 forms of Unicode scalar values, each in its shortest form. -/
theorem C68_text (b : Bytes) : utf8 b = true ↔ ∃ ns : List Nat, (∀ n ∈ ns, Spec.Scalar n) ∧ b = ns.flatMap Spec.encoded := by
  constructor
  · induction hl : b.length using Nat.strongRecOn generalizing b with
    | _ m ih =>
    intro h
    cases b with
    | nil => exact ⟨[], by simp, rfl⟩
    | cons a r =>
      have go : ∀ (n : Nat) (r' : Bytes), r'.length < m → utf8 r' = true → Spec.Scalar n → a :: r = Spec.encoded n ++ r' →
          ∃ ns : List Nat, (∀ n ∈ ns, Spec.Scalar n) ∧ a :: r = ns.flatMap Spec.encoded := by
        intro n r' hr' hu hs e
        obtain ⟨ns, g1, g2⟩ := ih _ hr' r' rfl hu
        refine ⟨n :: ns, ?_, by rw [e, List.flatMap_cons, ← g2]⟩
        intro x hx
        rcases List.mem_cons.mp hx with rfl | hx
        · exact hs
        · exact g1 x hx
      rw [List.length_cons] at hl
      have ha := a.toNat_lt
      rcases (utf8_cons a r).mp h with ⟨h1, h2⟩ | ⟨b, r', rfl, h1, h2, h3, h4, h5⟩ | ⟨b, c, r', rfl, h1, h2, h3, h4, h5, h6, h7⟩ | ⟨b, c, d, r', rfl, h1, h2, h3, h4, h5, h6, h7, h8, h9⟩
      · refine go a.toNat r (by omega) h2 ⟨by omega, by omega⟩ ?_
        unfold Spec.encoded
        rw [if_pos h1, UInt8.ofNat_toNat]
        rfl
      · have hb := b.toNat_lt
        simp only [List.length_cons] at hl
        refine go (64 * (a.toNat - 0xc0) + (b.toNat - 0x80)) r' (by omega) h5 ⟨by omega, by omega⟩ ?_
        unfold Spec.encoded
        rw [if_neg (by omega), if_pos (by omega), ofNat_u8 (a := a) (by omega), ofNat_u8 (a := b) (by omega)]
        rfl
      · simp only [List.length_cons] at hl
        have hb : 0x80 ≤ b.toNat ∧ b.toNat ≤ 0xbf := by split at h3 <;> split at h4 <;> omega
        have h8 : 0x800 ≤ 4096 * (a.toNat - 0xe0) + 64 * (b.toNat - 0x80) + (c.toNat - 0x80) := by split at h3 <;> omega
        refine go (4096 * (a.toNat - 0xe0) + 64 * (b.toNat - 0x80) + (c.toNat - 0x80)) r' (by omega) h7 ⟨by omega, by split at h4 <;> omega⟩ ?_
        unfold Spec.encoded
        rw [if_neg (by omega), if_neg (by omega), if_pos (by omega), ofNat_u8 (a := a) (by omega), ofNat_u8 (a := b) (by omega), ofNat_u8 (a := c) (by omega)]
        rfl
      · simp only [List.length_cons] at hl
        have hb : 0x80 ≤ b.toNat ∧ b.toNat ≤ 0xbf := by split at h3 <;> split at h4 <;> omega
        have h10 : 0x10000 ≤ 262144 * (a.toNat - 0xf0) + 4096 * (b.toNat - 0x80) + 64 * (c.toNat - 0x80) + (d.toNat - 0x80) := by split at h3 <;> omega
        refine go (262144 * (a.toNat - 0xf0) + 4096 * (b.toNat - 0x80) + 64 * (c.toNat - 0x80) + (d.toNat - 0x80)) r' (by omega) h9 ⟨by split at h4 <;> omega, by omega⟩ ?_
        unfold Spec.encoded
        rw [if_neg (by omega), if_neg (by omega), if_neg (by omega), ofNat_u8 (a := a) (by omega), ofNat_u8 (a := b) (by omega), ofNat_u8 (a := c) (by omega), ofNat_u8 (a := d) (by omega)]
        rfl
  · rintro ⟨ns, h, rfl⟩
    induction ns with
    | nil => rfl
    | cons n ns ih =>
      rw [List.flatMap_cons]
      exact utf8_encoded (h n (by simp)) _ (ih fun x hx => h x (by simp [hx]))

/-- `ä€𝄞` -/
example : utf8 [0xc3, 0xa4, 0xe2, 0x82, 0xac, 0xf0, 0x9d, 0x84, 0x9e] = true ∧ [0xc3, 0xa4, 0xe2, 0x82, 0xac, 0xf0, 0x9d, 0x84, 0x9e] = [0xe4, 0x20ac, 0x1d11e].flatMap Spec.encoded := by
  decide +kernel

/-! ### Fields given twice -/

theorem field_append (name : Bytes) {a : List Cbor} (ha : a.length % 2 = 0) (b : List Cbor) : Cbor.field name (a ++ b) = Cbor.field name a ++ Cbor.field name b := by
  induction hl : a.length using Nat.strongRecOn generalizing a with
  | _ n ih =>
  match a, ha, hl with
  | [], _, _ => simp [Cbor.field]
  | [_], ha, _ => simp at ha
  | x :: y :: a, ha, hl =>
    simp only [List.length_cons] at ha hl
    have := ih a.length (by omega) (a := a) (by omega) rfl
    simp only [List.cons_append]
    cases x <;> simp only [Cbor.field, this]
    split <;> simp

/-- **C19** (fields given twice): a map in which one of the three fields occurs twice is rejected, whatever else is in it. -/
theorem C19_twice (b name : Bytes) (hn : name = [100, 97, 116, 97] ∨ name = [107, 101, 121, 115] ∨ name = [111, 98, 106, 116, 121, 112, 101]) (xs ys zs : List Cbor) (v v' : Cbor)
    (hx : xs.length % 2 = 0) (hy : ys.length % 2 = 0) (hb : Cbor.parse b = .ok (.map (xs ++ (.text name :: v :: (ys ++ (.text name :: v' :: zs)))))) : ∃ e, Subset.object b = .err e := by
  have h2 : 2 ≤ (Cbor.field name (xs ++ (.text name :: v :: (ys ++ (.text name :: v' :: zs))))).length := by
    rw [field_append name hx]
    simp only [Cbor.field, if_true]
    rw [field_append name hy]
    simp only [Cbor.field, if_true, List.length_append, List.length_cons]
    omega
  unfold Subset.object
  rw [hb, Res.ok_bind]
  generalize (xs ++ (.text name :: v :: (ys ++ (.text name :: v' :: zs)))) = kvs at h2
  unfold Object.ofCbor
  simp only
  split
  · rename_i d ks t e1 e2 e3
    rcases hn with rfl | rfl | rfl
    · rw [show ([100, 97, 116, 97] : Bytes) = sData from rfl, e1] at h2; simp at h2
    · rw [show ([107, 101, 121, 115] : Bytes) = sKeys from rfl, e2] at h2; simp at h2
    · rw [show ([111, 98, 106, 116, 121, 112, 101] : Bytes) = sObjtype from rfl, e3] at h2; simp at h2
  · exact ⟨_, rfl⟩

/-- `{"data": h'', "data": h''}` -/
example : ∃ e, Subset.object [0xa2, 0x64, 100, 97, 116, 97, 0x40, 0x64, 100, 97, 116, 97, 0x40] = .err e :=
  C19_twice _ _ (.inl rfl) [] [] [] (.bytes []) (.bytes []) rfl rfl (by rfl)

/-! ### Where links lead -/

theorem lwalk_blank {fs : LinkFs} {k : Nat} {c : List Bytes} {r : Nat × List Bytes} (h : fs.walk k c [[]] = .ok r) : r = (k, c) := by
  have key : ∀ next, fs.steps k next c [[]] = .ok r → r = (k, c) := by
    intro next h
    simp only [LinkFs.steps, true_or, if_true] at h
    split at h
    · exact (Res.ok.inj h).symm
    · simp at h
    · simp at h
  cases k <;> exact key _ h

/-- A relative path with any number of names, from a directory that was found. -/
theorem llocate_rel {fs : LinkFs} {p : Path} (hp : p ≠ []) {t : Bytes} (ha : Path.isAbs t = false) (ht : t ≠ []) (h0 : 0 ∉ t) {k : Nat} {d : List Bytes} (h : fs.locate p = .ok (k, d)) :
    fs.locate (Path.join p t) = fs.walk k d (splitSlash t) := by
  unfold LinkFs.locate at h ⊢
  rw [if_neg hp] at h
  rw [if_neg (join_ne_nil ha ht)]
  by_cases hz : 0 ∈ p
  · rw [if_pos hz] at h; simp at h
  rw [if_neg hz] at h
  rw [if_neg (fun h => by rcases (mem_join ha (by decide)).mp h with h | h; exact hz h; exact h0 h), isAbs_join ha hp]
  generalize (if Path.isAbs p = true then [] else fs.cwd) = cur at h ⊢
  rcases join_cases (p := p) ha with ⟨e, _⟩ | ⟨q, e1, e⟩ | ⟨_, e⟩
  · exact absurd e hp
  · rw [e, splitSlash_append, lwalk_append]
    rw [e1, splitSlash_append, lwalk_append] at h
    obtain ⟨c, h1, h2⟩ := Res.bind_eq_ok h
    have := lwalk_blank h2
    rw [Prod.mk.injEq] at this
    rw [h1, Res.ok_bind, this.1, this.2]
  · rw [e, splitSlash_append, lwalk_append, h, Res.ok_bind]

/-- **C94** (where a link leads): where its target, from the directory the link is in, leads; the target may be absolute, go through other links and upwards. -/
theorem C94_leads (fs : LinkFs) (p : Path) (hp : p ≠ []) (n : Bytes) (hn : okName n) (k : Nat) (d : List Bytes) (t : Bytes) (h : fs.locate p = .ok (k, d))
    (hl : fs.at (d ++ [n]) = some (.link t)) (h0 : 0 ∉ t) (j : Nat) (q : List Bytes) (hq : fs.locate (Path.join p n) = .ok (j, q)) :
    ∃ j', j < j' ∧ fs.locate (Path.join p t) = .ok (j', q) := by
  rw [llocate_join fs hp hn, h, Res.ok_bind] at hq
  obtain ⟨hd, _⟩ := lwalk_name fs hn hq
  have key : ∀ next, fs.steps k next d [n] = .ok (j, q) → t ≠ [] ∧ next (if Path.isAbs t then [] else d) (splitSlash t) = .ok (j, q) := by
    intro next hs
    simp only [LinkFs.steps, hd, hl] at hs
    rw [if_neg (by simp [hn.1, hn.2.1]), if_neg hn.2.2.1] at hs
    split at hs
    · simp at hs
    · rename_i ht
      exact ⟨ht, by rw [List.append_nil] at hs; exact hs⟩
  cases k with
  | zero =>
    have := (key _ hq).2
    simp at this
  | succ k =>
    obtain ⟨ht, hw⟩ := key _ hq
    have hle : k + 1 ≤ fs.limit := by
      unfold LinkFs.locate at h
      rw [if_neg hp] at h
      split at h
      · simp at h
      · exact lwalk_le fs h
    cases ha : Path.isAbs t with
    | true =>
      rw [ha, if_pos rfl] at hw
      obtain ⟨m, hm⟩ := Nat.exists_eq_add_of_le (Nat.le_of_succ_le hle)
      refine ⟨j + m, by omega, ?_⟩
      have : Path.join p t = t := by unfold Path.join; rw [if_pos ha]
      rw [this]
      unfold LinkFs.locate
      rw [if_neg ht, if_neg h0, ha, if_pos rfl, hm]
      exact lwalk_more fs hw m
    | false =>
      rw [ha, if_neg (by simp)] at hw
      exact ⟨j + 1, by omega, by rw [llocate_rel hp ha ht h0 h]; exact lwalk_more fs hw 1⟩

/-- `/a/l` is a link to `../b`, `/b` one to `/c`. -/
example : ∃ j', 38 < j' ∧ LinkFs.locate { ents := [([[97]], .dir), ([[97], [108]], .link [46, 46, 47, 98]), ([[98]], .link [47, 99]), ([[99]], .dir)] } [47, 97, 47, 46, 46, 47, 98] = .ok (j', [[99]]) :=
  C94_leads _ [47, 97] (by decide) [108] (by decide +kernel) 40 [[97]] [46, 46, 47, 98] (by rfl) (by decide +kernel) (by decide) 38 [[99]] (by rfl)

end Snap.Props
