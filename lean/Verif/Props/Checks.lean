import Verif.Model.Checks
import Verif.Props.Show
import Verif.Props.Sharp
/-! C105: the checks that Rust makes by itself never fail in the functions on keys, contents and patches, so that debug and release builds do the same. -/
namespace Snap.Props
open Snap

/-! ### Keys -/

theorem checked_popU5 (x : Bits) : Checked.popU5 x = .ok (popU5 x) := by
  have := popU5_lt x
  simp only [Checked.popU5, Checked.assert, if_pos (show (popU5 x).1 ≤ 31 by omega)]
  rfl

theorem checked_table (i : Nat) (h : i < 32) : Checked.index table32 i = .ok (table32[i]?.getD 0) := by
  unfold Checked.index
  rw [List.getElem?_eq_getElem (show i < table32.length from h)]
  rfl

theorem checked_toBase32Loop (n : Nat) (bs : Bits) (h : bs.length < n) : Checked.toBase32Loop n bs = .ok (toBase32Loop bs) := by
  induction n generalizing bs with
  | zero => omega
  | succ n ih =>
    unfold Checked.toBase32Loop toBase32Loop
    split
    · rfl
    · rename_i hb
      have h0 : bs.length ≠ 0 := by simpa using hb
      rw [checked_popU5, Res.ok_bind, checked_table _ (popU5_lt bs), Res.ok_bind, ih _ (by simp [popU5]; omega)]
      rfl

theorem checked_toBase32 (x : Bytes) : Checked.toBase32 x = .ok (toBase32 x) := checked_toBase32Loop _ _ (by simp)

theorem lower_checked (ch : UInt8) (h : ch ∈ table32) : (97 ≤ ch ∧ ch ≤ 122) ∨ (48 ≤ ch ∧ ch ≤ 57) := by
  have : ∀ c ∈ table32, (97 ≤ c ∧ c ≤ 122) ∨ (48 ≤ c ∧ c ≤ 57) := by decide
  exact this ch h

theorem checked_fromBase32Loop (x : Bytes) (r : Bits) : Checked.fromBase32Loop x r = fromBase32Loop x r := by
  induction x generalizing r with
  | nil => rfl
  | cons c x ih =>
    unfold Checked.fromBase32Loop fromBase32Loop
    simp only
    cases hf : table32.findIdx? (fun x => x == lowerAZ c) with
    | none => rfl
    | some i =>
      obtain ⟨hi, he, _⟩ := List.findIdx?_eq_some_iff_getElem.mp hf
      have hm : lowerAZ c ∈ table32 := by rw [← eq_of_beq he]; exact List.getElem_mem hi
      simp only [Checked.assert, if_pos (lower_checked _ hm)]
      exact ih _

theorem checked_fromBase32 (x : Bytes) (m : Nat) : Checked.fromBase32 x m = fromBase32 x m := by
  unfold Checked.fromBase32 fromBase32
  rw [checked_fromBase32Loop]
  cases fromBase32Loop x [] <;> rfl

/-- **C105**: turning bytes into base32 and back never fails a check: the digit is below 32, the table has it, and every digit accepted is a small letter or a number. -/
theorem C105_base32 (x : Bytes) (m : Nat) : Checked.toBase32 x = .ok (toBase32 x) ∧ Checked.fromBase32 x m = fromBase32 x m :=
  ⟨checked_toBase32 x, checked_fromBase32 x m⟩

theorem charBoundary_end (s : Bytes) : Checked.charBoundary s s.length = true := by
  unfold Checked.charBoundary
  simp

theorem charBoundary_zero (s : Bytes) : Checked.charBoundary s 0 = true := rfl

theorem charBoundary_ascii {s : Bytes} {i : Nat} {b : UInt8} (h : s[i]? = some b) (hb : b < 128) : Checked.charBoundary s i = true := by
  unfold Checked.charBoundary
  rw [h]
  have : ¬ (128 ≤ b) := by rw [UInt8.not_le]; exact hb
  simp [this]

/-- Where a text begins, a character begins. -/
theorem utf8_head {a : UInt8} {r : Bytes} (h : utf8 (a :: r) = true) : ¬ (128 ≤ a ∧ a < 192) := by
  rintro ⟨h1, h2⟩
  have h1 := UInt8.le_iff_toNat_le.mp h1
  have h2 := UInt8.lt_iff_toNat_lt.mp h2
  have n1 : (128 : UInt8).toNat = 128 := rfl
  have n2 : (192 : UInt8).toNat = 192 := rfl
  rcases (utf8_cons a r).mp h with ⟨g, _⟩ | ⟨b, r', _, g, _⟩ | ⟨b, c, r', _, g, _⟩ | ⟨b, c, d, r', _, g, _⟩ <;> omega

/-- What follows a character of one byte is text. -/
theorem utf8_after : ∀ (n : Nat) (s : Bytes), s.length ≤ n → utf8 s = true → ∀ (p r : Bytes) (c : UInt8), s = p ++ c :: r → c.toNat < 128 → utf8 r = true := by
  intro n
  induction n with
  | zero =>
    intro s hn _ p r c hs _
    rw [hs] at hn
    simp at hn
  | succ n ih =>
    intro s hn h p r c hs hc
    cases s with
    | nil => cases p <;> simp at hs
    | cons a t =>
      have hcut : ∀ (x r' : Bytes), t = x ++ r' → utf8 r' = true → (∀ y ∈ a :: x, 128 ≤ y.toNat) → utf8 r = true := by
        intro x r' ht hr hx
        have e : (a :: x) ++ r' = p ++ c :: r := by rw [← hs, ht]; rfl
        rcases List.append_eq_append_iff.mp e with ⟨m, h1, h2⟩ | ⟨m, h1, h2⟩
        · exact ih r' (by rw [ht] at hn; simp at hn; omega) hr m r c h2 hc
        · cases m with
          | nil => exact ih r' (by rw [ht] at hn; simp at hn; omega) hr [] r c (by simpa using h2.symm) hc
          | cons y m =>
            simp at h2
            have := hx c (by rw [h1]; simp [h2.1])
            omega
      rcases (utf8_cons a t).mp h with ⟨g, ht⟩ | ⟨b, r', ht, g, _, g1, _, g2⟩ | ⟨b, c', r', ht, g, _, g1, _, g2, _, g3⟩ | ⟨b, c', d, r', ht, g, _, g1, _, g2, _, g3, _, g4⟩
      · cases p with
        | nil =>
          simp at hs
          rw [← hs.2]; exact ht
        | cons x p =>
          simp at hs
          exact ih t (by simp at hn; omega) ht p r c hs.2 hc
      · exact hcut [b] r' ht g2 (by simp; omega)
      · exact hcut [b, c'] r' ht g3 (by simp; split at g1 <;> omega)
      · exact hcut [b, c', d] r' ht g4 (by simp; split at g1 <;> omega)

/-- A character begins behind a character of one byte. -/
theorem charBoundary_after {s : Bytes} {i : Nat} {b : UInt8} (hu : utf8 s = true) (h : s[i]? = some b) (hb : b < 128) : Checked.charBoundary s (i + 1) = true := by
  obtain ⟨hi, he⟩ := List.getElem?_eq_some_iff.mp h
  have hs : s = s.take i ++ b :: s.drop (i + 1) := by rw [← he, List.getElem_cons_drop, List.take_append_drop]
  have hr := utf8_after s.length s (Nat.le_refl _) hu _ _ b hs (UInt8.lt_iff_toNat_lt.mp hb)
  unfold Checked.charBoundary
  cases hn : s[i + 1]? with
  | none =>
    have := List.getElem?_eq_none_iff.mp hn
    simp
    omega
  | some c =>
    obtain ⟨hj, hc⟩ := List.getElem?_eq_some_iff.mp hn
    have := utf8_head (a := s[i + 1]) (r := s.drop (i + 2)) (by rw [List.getElem_cons_drop]; exact hr)
    rw [hc] at this
    simp
    by_cases g : c < 128
    · exact .inl g
    · exact .inr (UInt8.not_lt.mp fun h' => this ⟨UInt8.not_lt.mp g, h'⟩)

theorem checked_slice {s : Bytes} {i j : Nat} (hij : i ≤ j) (hi : Checked.charBoundary s i = true) (hj : Checked.charBoundary s j = true) :
    Checked.strSlice s i j = .ok ((s.take j).drop i) := by
  unfold Checked.strSlice
  rw [if_pos ⟨hij, hi, hj⟩]

theorem checked_parseFromRef {s : Bytes} (hu : utf8 s = true) (hl : s.length < 2 ^ 64) : Checked.parseFromRef s = parseFromRef s := by
  unfold Checked.parseFromRef parseFromRef
  cases hf : s.findIdx? (· == 47) with
  | none => rfl
  | some i =>
    obtain ⟨hi, he, _⟩ := List.findIdx?_eq_some_iff_getElem.mp hf
    have hg : s[i]? = some 47 := by rw [List.getElem?_eq_getElem hi, eq_of_beq he]
    have h1 := charBoundary_after hu hg (by decide)
    have h0 := charBoundary_ascii hg (by decide)
    have e : Checked.strSlice s (i + 1) s.length = .ok (s.drop (i + 1)) := by rw [checked_slice hi h1 (charBoundary_end s), List.take_length]
    simp only
    split
    · rename_i h
      subst h
      rw [e]; rfl
    · rw [checked_slice (Nat.zero_le _) rfl h0]
      simp only [Checked.add, if_pos (show i + 1 < 2 ^ 64 by omega), Res.ok_bind, e]
      rfl

theorem ascii_get {s : Bytes} (h : isAscii s = true) {i : Nat} {b : UInt8} (hb : s[i]? = some b) : b < 128 := by
  unfold isAscii at h
  exact of_decide_eq_true (List.all_eq_true.mp h b (List.mem_of_getElem? hb))

theorem ascii_boundary {s : Bytes} (h : isAscii s = true) {i : Nat} (hi : i ≤ s.length) : Checked.charBoundary s i = true := by
  cases hg : s[i]? with
  | some b => exact charBoundary_ascii hg (ascii_get h hg)
  | none =>
    have := List.getElem?_eq_none_iff.mp hg
    rw [show i = s.length by omega]
    exact charBoundary_end s

theorem checked_parseFromBase32 (s : Bytes) : Checked.parseFromBase32 s = parseFromBase32 s := by
  unfold Checked.parseFromBase32 parseFromBase32
  cases ha : isAscii s with
  | false => rfl
  | true =>
    cases s with
    | nil => rfl
    | cons c t =>
      rw [checked_slice (by simp) (ascii_boundary ha (by simp)) (charBoundary_end _), List.take_length]
      simp only [List.drop_succ_cons, List.drop_zero, List.head?_cons, checked_fromBase32]
      by_cases hc : c = 98
      · simp only [if_pos hc]
        cases hf : fromBase32 t (32 * 8) with
        | ok r => rfl
        | err e => rfl
        | panic =>
          by_cases ht : ∀ c ∈ t, Spec.IsBase32Ci c
          · obtain ⟨r, hr⟩ := (C03_accepts_iff t (32 * 8)).mpr ht
            rw [hr] at hf; simp at hf
          · obtain ⟨b, hb⟩ := C03_error_is_unknown_byte t (32 * 8) ht
            rw [hb] at hf; simp at hf
        | fuel => rfl
      · simp only [if_neg hc]

/-- **C105**: parsing the text of a key or ref never fails a check: it is cut only between characters. -/
theorem C105_parse (s : Bytes) (hu : utf8 s = true) (hl : s.length < 2 ^ 64) : Checked.fromStr s = Keyish.fromStr s := by
  unfold Checked.fromStr Keyish.fromStr
  rw [checked_parseFromRef hu hl, checked_parseFromBase32]

theorem checked_fromDbKey (x : Bytes) : Checked.fromDbKey x = fromDbKey x := by
  cases x with
  | nil => rfl
  | cons a r =>
    unfold Checked.fromDbKey fromDbKey
    have e : Checked.slice (a :: r) 1 (a :: r).length = .ok r := by
      unfold Checked.slice
      rw [if_pos ⟨by simp, Nat.le_refl _⟩, List.take_length]
      rfl
    rw [if_neg (by simp), e]
    rfl

theorem userKey_ascii (k : Key) : isAscii k.asUserKey = true := by
  unfold isAscii
  rw [List.all_eq_true]
  intro c hc
  rcases List.mem_cons.mp hc with rfl | hc
  · decide
  · refine decide_eq_true ?_
    rcases toBase32Loop_alphabet _ c hc with h | h
    · exact UInt8.lt_of_le_of_lt h.2 (by decide)
    · exact UInt8.lt_of_le_of_lt h.2 (by decide)

/-- **C105**: nor do printing a key, printing the beginning of one, and reading one from the database. -/
theorem C105_keys (k : Key) (x : Bytes) : Checked.asUserKey k = .ok k.asUserKey ∧ Checked.shortKey k = .ok (k.asUserKey.take 8) ∧ Checked.fromDbKey x = fromDbKey x := by
  have e : Checked.asUserKey k = .ok k.asUserKey := by
    unfold Checked.asUserKey
    rw [checked_toBase32]
    rfl
  refine ⟨e, ?_, checked_fromDbKey x⟩
  unfold Checked.shortKey
  rw [e, Res.ok_bind, checked_slice (by omega) rfl (ascii_boundary (userKey_ascii k) ?_), List.drop_zero]
  simp [Key.asUserKey, toBase32_length, k.len32]

/-! ### Storing contents -/

theorem checked_threshold {o : Nat} (h : o < 5) : Checked.threshold o = .ok (blobZeroCount + (o + 1) * perLevelCount) := by
  have h1 : (o + 1) * 7 < 2 ^ 32 := by omega
  have h2 : 13 + (o + 1) * 7 < 2 ^ 32 := by omega
  simp only [Checked.threshold, Checked.add, Checked.mul]
  rw [if_pos (by omega), Res.ok_bind, if_pos (show (o + 1) * perLevelCount < 2 ^ 32 from h1), Res.ok_bind, if_pos (show blobZeroCount + (o + 1) * perLevelCount < 2 ^ 32 from h2)]

theorem lift_ok_bind {σ α β : Type} (a : α) (f : α → SM σ β) : (SM.lift (.ok a) >>= f) = f a := rfl

theorem checked_cascade (H : Bytes → Key) (zeros : Nat) (os : List Nat) (h : ∀ o ∈ os, o < 4) (kb : KeyBufs) : Checked.cascade H zeros os kb = cascade H zeros os kb := by
  induction os generalizing kb with
  | nil => rfl
  | cons o os ih =>
    have ho := h o (by simp)
    unfold Checked.cascade cascade
    simp only [Checked.bufAt, if_pos (show o < 5 by omega), lift_ok_bind, checked_threshold (show o < 5 by omega), Checked.add, if_pos (show o + 1 < 2 ^ 64 by omega),
      if_pos (show o + 1 < 5 by omega), fun kb => ih (fun o ho => h o (by simp [ho])) kb]

theorem checked_emitChunk (H : Bytes → Key) (zeros : Nat) (cur : Bytes) (kb : KeyBufs) : Checked.emitChunk H zeros cur kb = emitChunk H zeros cur kb := by
  unfold Checked.emitChunk emitChunk
  simp only [Checked.bufAt, if_pos (show 0 < 5 by omega), lift_ok_bind, checked_cascade H zeros [0, 1, 2, 3] (by simp)]

theorem nextMatch_mask {table : UInt8 → BitVec 64} {mask h h' : BitVec 64} {buf : Bytes} {n : Nat} (e : nextMatch table mask h buf = (some n, h')) : h' &&& mask = 0#64 := by
  induction buf generalizing h n with
  | nil => simp [nextMatch] at e
  | cons b bs ih =>
    simp only [nextMatch] at e
    split at e
    · rename_i hm
      simp at e
      rw [← e.2]; exact hm
    · split at e
      · rename_i m _ hm
        simp at e
        exact ih (by rw [hm, e.2])
      · simp at e

/-- The assertion in the loop of `put_data`. -/
theorem boundary_zeros {table : UInt8 → BitVec 64} {h h' : BitVec 64} {buf : Bytes} {b : Nat} (e : boundary table h buf = (some b, h')) : leadingZeros h' ≥ blobZeroCount ∨ b = blobMax := by
  unfold boundary at e
  simp only at e
  split at e
  · simp at e
    exact .inr e.1.symm
  · have hm := nextMatch_mask (h' := h') (by rw [← e])
    have := (leadingZeros_gt h' 12 (by omega)).mpr ((mask_zero_iff h').mp hm)
    exact .inl this

theorem checked_feed (table : UInt8 → BitVec 64) (H : Bytes → Key) (n : Nat) (h : BitVec 64) (buf cur : Bytes) (kb : KeyBufs) (hn : buf.length < n) :
    Checked.feed table H n h buf cur kb = feed table H h buf cur kb := by
  induction n generalizing h buf cur kb with
  | zero => omega
  | succ n ih =>
    rw [feed]
    unfold Checked.feed
    rcases hb : boundary table h buf with ⟨_ | b, h'⟩
    · rfl
    · have hbb := boundary_some hb
      simp only
      rw [dif_pos hbb]
      simp only [Checked.slice, if_pos (show 0 ≤ b ∧ b ≤ buf.length from ⟨Nat.zero_le _, hbb.2⟩), if_pos (show b ≤ buf.length ∧ buf.length ≤ buf.length from ⟨hbb.2, Nat.le_refl _⟩),
        lift_ok_bind, Checked.assert, if_pos (boundary_zeros hb), List.drop_zero, List.take_length, checked_emitChunk]
      congr 1
      funext x
      exact ih _ _ _ _ (by simp; omega)

theorem checked_putLoop (table : UInt8 → BitVec 64) (H : Bytes → Key) (evs : List ReadEv) (hr : ∀ d, ReadEv.data d ∈ evs → d.length ≤ 65536) (h : BitVec 64) (buf cur : Bytes) (kb : KeyBufs) :
    Checked.putLoop table H h buf cur kb evs = putLoop table H h buf cur kb evs := by
  induction evs generalizing h buf cur kb with
  | nil =>
    unfold Checked.putLoop putLoop
    rw [checked_feed _ _ _ _ _ _ _ (by omega)]
  | cons ev evs ih =>
    unfold Checked.putLoop putLoop
    rw [checked_feed _ _ _ _ _ _ _ (by omega)]
    congr 1
    funext x
    cases ev with
    | data d =>
      simp only [Checked.assert, if_pos (hr d (by simp)), lift_ok_bind]
      split
      · rfl
      · exact ih (fun d hd => hr d (by simp [hd])) _ _ _ _
    | interrupted => exact ih (fun d hd => hr d (by simp [hd])) _ _ _ _
    | error => rfl

theorem checked_finishTree (H : Bytes → Key) (os : List Nat) (h : ∀ o ∈ os, o < 4) (kb : KeyBufs) : Checked.finishTree H os kb = finishTree H os kb := by
  induction os generalizing kb with
  | nil => rfl
  | cons o os ih =>
    have ho := h o (by simp)
    unfold Checked.finishTree finishTree
    simp only [Checked.bufAt, if_pos (show o < 5 by omega), lift_ok_bind, Checked.add, if_pos (show o + 1 < 2 ^ 64 by omega),
      if_pos (show o + 1 < 5 by omega), fun kb => ih (fun o ho => h o (by simp [ho])) kb]
    congr 1

/-- **C105**: storing contents never fails a check, as long as no `read` claims to have read more than the 65536 bytes it was given room for. -/
theorem C105_store (table : UInt8 → BitVec 64) (H : Bytes → Key) (evs : List ReadEv) (hr : ∀ d, ReadEv.data d ∈ evs → d.length ≤ 65536) :
    Checked.putData table H evs = putData table H evs := by
  unfold Checked.putData putData
  rw [checked_putLoop _ _ _ hr]
  have e : Checked.putFinish H = putFinish H := by
    funext cur kb
    unfold Checked.putFinish putFinish
    simp only [Checked.bufAt, if_pos (show 0 < 5 by omega), lift_ok_bind, fun kb => checked_finishTree H [0, 1, 2, 3] (by simp) kb]
  rw [e]

/-! ### Patches -/

theorem checked_number (ls : List DLine) (b a : Nat) (hb : b + ls.length < 2 ^ 64) (ha : a + ls.length < 2 ^ 64) : Checked.number b a ls = .ok (number b a ls) := by
  induction ls generalizing b a with
  | nil => rfl
  | cons l ls ih =>
    simp only [List.length_cons] at hb ha
    have e : ∀ (c : Bool) (x : Nat), x + 1 < 2 ^ 64 → (if c then Checked.add 64 x 1 else .ok x) = .ok (if c then x + 1 else x) := by
      intro c x hx
      cases c
      · rfl
      · simp only [Checked.add, if_pos hx, if_true]
    unfold Checked.number number
    rw [e _ _ (by omega), Res.ok_bind, e _ _ (by omega), Res.ok_bind, ih _ _ (by split <;> omega) (by split <;> omega)]
    rfl

/-- **C105**: making the hunks of a patch never fails a check, as long as there are fewer than 2^64 - 1 lines: no slice is out of bounds, no subtraction is negative and no counter overflows. -/
theorem C105_patch (cs : List Change) (h : (cs.flatMap Change.lines).length + 1 < 2 ^ 64) : Checked.hunksOf cs = hunksOf cs ∧ ∃ hs, hunksOf cs = .ok hs := by
  refine ⟨?_, _, hunksOf_eq cs⟩
  unfold Checked.hunksOf hunksOf
  rw [checked_number _ _ _ (by omega) (by omega)]
  rfl

end Snap.Props
