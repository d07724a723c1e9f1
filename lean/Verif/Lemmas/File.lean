import Verif.Lemmas.Puts
import Verif.SpecFile
/-! Lemmas about put_data and read_data. -/
namespace Snap

/-! ### Monad laws -/

instance {σ} : LawfulMonad (SM σ) := LawfulMonad.mk'
  (id_map := by
    intro α x; funext s
    show (SM.bind x fun a => SM.pure (id a)) s = x s
    unfold SM.bind SM.pure
    rcases x s with ⟨r, s'⟩
    cases r <;> rfl)
  (pure_bind := by intro α β a f; rfl)
  (bind_assoc := by
    intro α β γ x f g; funext s
    show SM.bind (SM.bind x f) g s = SM.bind x (fun a => SM.bind (f a) g) s
    unfold SM.bind
    rcases x s with ⟨r, s'⟩
    cases r <;> rfl)

/-! ### Hash facts -/

theorem mask_zero_iff (h : BitVec 64) : h &&& blobMask = 0#64 ↔ h.toNat < 2 ^ 51 := by
  have hm : ∀ i, blobMask.getLsbD i = (decide (51 ≤ i) && decide (i < 64)) := by
    intro i
    by_cases hi : i < 64
    · have : ∀ i : Fin 64, blobMask.getLsbD i.val = decide (51 ≤ i.val) := by decide
      have := this ⟨i, hi⟩
      simp only at this
      rw [this]; simp [hi]
    · rw [BitVec.getLsbD_of_ge _ _ (by omega)]; simp [hi]
  constructor
  · intro e
    apply Nat.lt_pow_two_of_testBit
    intro i hi
    by_cases hi64 : i < 64
    · have := congrArg (fun v => v.getLsbD i) e
      simp only [BitVec.getLsbD_and, hm, BitVec.getLsbD_zero] at this
      simpa [hi, hi64, BitVec.getLsbD] using this
    · exact Nat.testBit_lt_two_pow (Nat.lt_of_lt_of_le h.isLt (Nat.pow_le_pow_right (by omega) (by omega)))
  · intro hlt
    apply BitVec.eq_of_getLsbD_eq
    intro i hi
    simp only [BitVec.getLsbD_and, hm, BitVec.getLsbD_zero]
    by_cases h51 : 51 ≤ i
    · have : h.toNat.testBit i = false := Nat.testBit_lt_two_pow (Nat.lt_of_lt_of_le hlt (Nat.pow_le_pow_right (by omega) h51))
      simp [BitVec.getLsbD, this]
    · simp [h51]

theorem gearStep_eq (table : UInt8 → BitVec 64) (h : BitVec 64) (b : UInt8) : gearStep table h b = 2 * h + table b := by
  unfold gearStep
  congr 1

theorem leadingZeros_gt (h : BitVec 64) (n : Nat) (hn : n < 64) : leadingZeros h > n ↔ h.toNat < 2 ^ (63 - n) := by
  unfold leadingZeros
  split
  · rename_i e; simp [e, Nat.two_pow_pos]; exact hn
  · rename_i e
    have hl : h.toNat.log2 < 64 := (Nat.log2_lt e).mpr h.isLt
    rw [← Nat.log2_lt e]
    omega

/-! ### The chunker, without the store -/

theorem nextMatch_some {table : UInt8 → BitVec 64} {h : BitVec 64} {buf : Bytes} {n : Nat} {h' : BitVec 64} {mask}
    (e : nextMatch table mask h buf = (some n, h')) : 0 < n ∧ n ≤ buf.length := by
  induction buf generalizing h n with
  | nil => simp [nextMatch] at e
  | cons b bs ih =>
    simp only [nextMatch] at e
    split at e
    · simp at e; obtain ⟨rfl, _⟩ := e; simp
    · split at e
      · rename_i m _ hm
        simp at e
        have := ih (by rw [hm, e.2])
        simp; omega
      · simp at e

theorem boundary_some {table : UInt8 → BitVec 64} {h : BitVec 64} {buf : Bytes} {n : Nat} {h' : BitVec 64}
    (e : boundary table h buf = (some n, h')) : 0 < n ∧ n ≤ buf.length := by
  unfold boundary at e
  simp only at e
  split at e
  · rename_i hl
    simp at e
    obtain ⟨rfl, _⟩ := e
    exact ⟨by decide, by omega⟩
  · exact nextMatch_some (h' := h') (by rw [← e])

/-- `feed` without the store: finished chunks with the hash at the cut, hash and unfinished chunk. -/
def feedP (table : UInt8 → BitVec 64) (h : BitVec 64) (buf cur : Bytes) : List (Bytes × BitVec 64) × BitVec 64 × Bytes :=
  match boundary table h buf with
  | (some b, h') =>
    if _hb : 0 < b ∧ b ≤ buf.length then
      if (cur ++ buf.take b).length ≥ blobMax then
        let (cs, r) := feedP table h' (buf.drop b) []
        ((cur ++ buf.take b, h') :: cs, r)
      else feedP table h' (buf.drop b) (cur ++ buf.take b)
    else ([], h', cur)
  | (none, h') => ([], h', cur ++ buf)
termination_by buf.length
decreasing_by all_goals (simp; omega)

/-- `putLoop` without the store: finished chunks, unfinished rest, whether the reader failed. -/
def scan (table : UInt8 → BitVec 64) (h : BitVec 64) (buf cur : Bytes) : List ReadEv → List (Bytes × BitVec 64) × Bytes × Bool
  | [] =>
    let (cs, _, cur) := feedP table h buf cur
    (cs, cur, false)
  | ev :: evs =>
    let (cs, h, cur) := feedP table h buf cur
    match ev with
    | .data d => if d = [] then (cs, cur, false) else
      let (cs', r) := scan table h d cur evs
      (cs ++ cs', r)
    | .interrupted =>
      let (cs', r) := scan table h [] cur evs
      (cs ++ cs', r)
    | .error => (cs, cur, true)

/-- Store finished chunks. -/
def addChunks (H : Bytes → Key) : List (Bytes × BitVec 64) → KeyBufs → M KeyBufs
  | [], kb => pure kb
  | (c, h) :: cs, kb => do
    let key ← putObj H (blobObj c)
    let kb ← cascade H (leadingZeros h) [0, 1, 2, 3] (kb.set 0 (kb 0 ++ [key]))
    addChunks H cs kb

theorem addChunks_append (H : Bytes → Key) (a b : List (Bytes × BitVec 64)) (kb : KeyBufs) :
    addChunks H (a ++ b) kb = addChunks H a kb >>= addChunks H b := by
  induction a generalizing kb with
  | nil => simp [addChunks]
  | cons c cs ih => obtain ⟨c, h⟩ := c; simp [addChunks, ih]

theorem feed_eq (table : UInt8 → BitVec 64) (H : Bytes → Key) (h : BitVec 64) (buf cur : Bytes) (kb : KeyBufs) :
    feed table H h buf cur kb = addChunks H (feedP table h buf cur).1 kb >>= fun kb => pure ((feedP table h buf cur).2.1, (feedP table h buf cur).2.2, kb) := by
  generalize hn : buf.length = n
  induction n using Nat.strongRecOn generalizing h buf cur kb with
  | ind n ih =>
    rw [feed, feedP]
    rcases hb : boundary table h buf with ⟨_ | b, h'⟩
    · simp [addChunks]
    · have hbb := boundary_some hb
      simp only
      rw [dif_pos hbb, dif_pos hbb]
      have hlt : (buf.drop b).length < n := by simp; omega
      unfold emitChunk
      split
      · simp only [bind_assoc, pure_bind, addChunks]
        congr 1; funext key; congr 1; funext kb
        rw [ih _ hlt h' _ [] kb rfl]
      · simp only [pure_bind]
        rw [ih _ hlt h' _ _ kb rfl]

theorem putLoop_eq (table : UInt8 → BitVec 64) (H : Bytes → Key) (evs : List ReadEv) (h : BitVec 64) (buf cur : Bytes) (kb : KeyBufs) :
    putLoop table H h buf cur kb evs = addChunks H (scan table h buf cur evs).1 kb >>= fun kb =>
      if (scan table h buf cur evs).2.2 then SM.throw .io else pure ((scan table h buf cur evs).2.1, kb) := by
  induction evs generalizing h buf cur kb with
  | nil => simp [putLoop, scan, feed_eq]
  | cons ev evs ih =>
    unfold putLoop scan
    simp only [feed_eq, bind_assoc, pure_bind]
    cases ev with
    | data d =>
      simp only
      split
      · simp
      · simp only [ih, addChunks_append, bind_assoc]
    | interrupted => simp only [ih, addChunks_append, bind_assoc]
    | error => simp

/-- Chunks, rest and failure of a whole run. -/
def chunks (table : UInt8 → BitVec 64) (evs : List ReadEv) := scan table 0#64 [] [] evs

theorem putData_eq (table : UInt8 → BitVec 64) (H : Bytes → Key) (evs : List ReadEv) :
    putData table H evs = addChunks H (chunks table evs).1 (fun _ => []) >>= fun kb =>
      if (chunks table evs).2.2 then SM.throw .io else putFinish H (chunks table evs).2.1 kb := by
  unfold putData
  rw [putLoop_eq, bind_assoc]
  congr 1; funext kb
  unfold chunks
  split <;> rfl

/-! ### What the chunker delivers -/

theorem feedP_content (table : UInt8 → BitVec 64) (h : BitVec 64) (buf cur : Bytes) :
    ((feedP table h buf cur).1.map Prod.fst).flatten ++ (feedP table h buf cur).2.2 = cur ++ buf := by
  generalize hn : buf.length = n
  induction n using Nat.strongRecOn generalizing h buf cur with
  | ind n ih =>
    rw [feedP]
    split
    · rename_i b h' hb
      have hbb := boundary_some hb
      rw [dif_pos hbb]
      have hlt : (buf.drop b).length < n := by simp; omega
      split
      · have := ih _ hlt h' _ [] rfl
        simp only [List.map_cons, List.flatten_cons, List.append_assoc]
        rw [this]; simp
      · rw [ih _ hlt h' _ _ rfl]; simp
    · simp

theorem feedP_big (table : UInt8 → BitVec 64) (h : BitVec 64) (buf cur : Bytes) :
    ∀ c ∈ (feedP table h buf cur).1, blobMax ≤ c.1.length := by
  generalize hn : buf.length = n
  induction n using Nat.strongRecOn generalizing h buf cur with
  | ind n ih =>
    rw [feedP]
    split
    · rename_i b h' hb
      have hbb := boundary_some hb
      rw [dif_pos hbb]
      have hlt : (buf.drop b).length < n := by simp; omega
      split
      · intro c hc
        simp only [List.mem_cons] at hc
        rcases hc with rfl | hc
        · assumption
        · exact ih _ hlt h' _ [] rfl c hc
      · exact ih _ hlt h' _ _ rfl
    · simp

theorem scan_content (table : UInt8 → BitVec 64) (h : BitVec 64) (buf cur : Bytes) (evs : List ReadEv) :
    ((scan table h buf cur evs).1.map Prod.fst).flatten ++ (scan table h buf cur evs).2.1 = cur ++ buf ++ Spec.delivered evs := by
  induction evs generalizing h buf cur with
  | nil => simp [scan, Spec.delivered, feedP_content]
  | cons ev evs ih =>
    unfold scan Spec.delivered
    have hf := feedP_content table h buf cur
    cases ev with
    | data d =>
      simp only
      split
      · simp [hf]
      · simp only [List.map_append, List.flatten_append, List.append_assoc]
        rw [ih, ← List.append_assoc, ← List.append_assoc, hf]
        simp
    | interrupted =>
      simp only [List.map_append, List.flatten_append, List.append_assoc]
      rw [ih, ← List.append_assoc, ← List.append_assoc, hf]
      simp
    | error => simp [hf]

theorem scan_fails (table : UInt8 → BitVec 64) (h : BitVec 64) (buf cur : Bytes) (evs : List ReadEv) :
    (scan table h buf cur evs).2.2 = Spec.readFails evs := by
  induction evs generalizing h buf cur with
  | nil => simp [scan, Spec.readFails]
  | cons ev evs ih =>
    unfold scan Spec.readFails
    cases ev with
    | data d => simp only; split <;> simp [ih]
    | interrupted => simp [ih]
    | error => simp

theorem scan_big (table : UInt8 → BitVec 64) (h : BitVec 64) (buf cur : Bytes) (evs : List ReadEv) :
    ∀ c ∈ (scan table h buf cur evs).1, blobMax ≤ c.1.length := by
  induction evs generalizing h buf cur with
  | nil => simpa [scan] using feedP_big table h buf cur
  | cons ev evs ih =>
    unfold scan
    have hf := feedP_big table h buf cur
    intro c hc
    cases ev with
    | data d =>
      simp only at hc
      split at hc
      · exact hf c hc
      · rcases List.mem_append.mp hc with hc | hc
        · exact hf c hc
        · exact ih _ _ _ c hc
    | interrupted =>
      rcases List.mem_append.mp hc with hc | hc
      · exact hf c hc
      · exact ih _ _ _ c hc
    | error => exact hf c hc

theorem chunks_content (table : UInt8 → BitVec 64) (evs : List ReadEv) :
    ((chunks table evs).1.map Prod.fst).flatten ++ (chunks table evs).2.1 = Spec.delivered evs := by
  simp [chunks, scan_content]

/-! ### Small reads: the byte-wise chunker -/

/-- `Spec.cuts`, also giving the hash at the end. -/
def byteScan (table : UInt8 → BitVec 64) : BitVec 64 → Bytes → Bytes → List (Bytes × BitVec 64) × BitVec 64 × Bytes
  | h, cur, [] => ([], h, cur)
  | h, cur, b :: bs =>
    let h' := 2 * h + table b
    let cur' := cur ++ [b]
    if h'.toNat < 2 ^ 51 ∧ 32768 ≤ cur'.length then
      let (cs, r) := byteScan table h' [] bs
      ((cur', h') :: cs, r)
    else byteScan table h' cur' bs

theorem byteScan_cuts (table : UInt8 → BitVec 64) (h : BitVec 64) (cur bs : Bytes) :
    Spec.cuts table h cur bs = ((byteScan table h cur bs).1, (byteScan table h cur bs).2.2) := by
  induction bs generalizing h cur with
  | nil => rfl
  | cons b bs ih =>
    simp only [Spec.cuts, byteScan]
    split
    · simp [ih]
    · exact ih _ _

theorem byteScan_append (table : UInt8 → BitVec 64) (h : BitVec 64) (cur a b : Bytes) :
    byteScan table h cur (a ++ b) =
      ((byteScan table h cur a).1 ++ (byteScan table (byteScan table h cur a).2.1 (byteScan table h cur a).2.2 b).1,
        (byteScan table (byteScan table h cur a).2.1 (byteScan table h cur a).2.2 b).2) := by
  induction a generalizing h cur with
  | nil => simp [byteScan]
  | cons x xs ih =>
    simp only [List.cons_append, byteScan]
    split
    · simp [ih]
    · exact ih _ _

theorem nextMatch_byteScan (table : UInt8 → BitVec 64) (h : BitVec 64) (cur buf : Bytes) :
    byteScan table h cur buf = match nextMatch table blobMask h buf with
      | (some n, h') =>
        if 32768 ≤ (cur ++ buf.take n).length then
          ((cur ++ buf.take n, h') :: (byteScan table h' [] (buf.drop n)).1, (byteScan table h' [] (buf.drop n)).2)
        else byteScan table h' (cur ++ buf.take n) (buf.drop n)
      | (none, h') => ([], h', cur ++ buf) := by
  induction buf generalizing h cur with
  | nil => simp [nextMatch, byteScan]
  | cons b bs ih =>
    simp only [nextMatch, byteScan, gearStep_eq, mask_zero_iff]
    by_cases h2 : (2 * h + table b).toNat < 2 ^ 51
    · simp only [h2, true_and, if_true, List.take_succ_cons, List.take_zero, List.drop_succ_cons, List.drop_zero]
    · simp only [h2, false_and, if_false]
      rw [ih]
      rcases nextMatch table blobMask (2 * h + table b) bs with ⟨_ | n, h'⟩ <;> simp

theorem feedP_small (table : UInt8 → BitVec 64) (h : BitVec 64) (buf cur : Bytes) (hs : buf.length ≤ 32768) :
    feedP table h buf cur = byteScan table h cur buf := by
  generalize hn : buf.length = n
  induction n using Nat.strongRecOn generalizing h buf cur with
  | ind n ih =>
    have hb : boundary table h buf = nextMatch table blobMask h buf := by
      unfold boundary
      simp only
      rw [if_neg (by simp [blobMax, blobZeroCountMax, blobZeroCount]; omega)]
    rw [feedP, nextMatch_byteScan, hb]
    rcases e : nextMatch table blobMask h buf with ⟨_ | b, h'⟩
    · rfl
    · have hbb := nextMatch_some e
      have hlt : (buf.drop b).length < n := by simp; omega
      simp only
      rw [dif_pos hbb]
      have hm : blobMax = 32768 := by decide
      rw [hm]
      rw [ih _ hlt h' (buf.drop b) [] (by omega) rfl, ih _ hlt h' (buf.drop b) _ (by omega) rfl]

theorem scan_small (table : UInt8 → BitVec 64) (h : BitVec 64) (buf cur : Bytes) (evs : List ReadEv) (hs : buf.length ≤ 32768) (he : Spec.smallReads evs) :
    (scan table h buf cur evs).1 = (byteScan table h cur (buf ++ Spec.delivered evs)).1 ∧
    (scan table h buf cur evs).2.1 = (byteScan table h cur (buf ++ Spec.delivered evs)).2.2 := by
  induction evs generalizing h buf cur with
  | nil => simp [scan, Spec.delivered, feedP_small _ _ _ _ hs]
  | cons ev evs ih =>
    unfold scan Spec.delivered
    simp only [feedP_small _ _ _ _ hs]
    cases ev with
    | data d =>
      simp only
      split
      · simp
      · rename_i hne
        rcases he with he | ⟨hd, he'⟩
        · exact absurd he hne
        have := ih (byteScan table h cur buf).2.1 d (byteScan table h cur buf).2.2 hd he'
        rw [byteScan_append]
        simp [this]
    | interrupted =>
      have := ih (byteScan table h cur buf).2.1 [] (byteScan table h cur buf).2.2 (by simp) he
      rw [byteScan_append]
      simp only [List.nil_append] at this
      simp [this]
    | error => simp

theorem smallReads_of_short {evs : List ReadEv} (h : (Spec.delivered evs).length ≤ 32768) : Spec.smallReads evs := by
  induction evs with
  | nil => trivial
  | cons ev evs ih =>
    cases ev with
    | data d =>
      by_cases hd : d = []
      · exact .inl hd
      · simp only [Spec.delivered, if_neg hd, List.length_append] at h
        exact .inr ⟨by omega, ih (by omega)⟩
    | interrupted => exact ih h
    | error => trivial

theorem chunks_small (table : UInt8 → BitVec 64) (evs : List ReadEv) (he : Spec.smallReads evs) :
    chunks table evs = ((Spec.cuts table 0#64 [] (Spec.delivered evs)).1, (Spec.cuts table 0#64 [] (Spec.delivered evs)).2, Spec.readFails evs) := by
  have h := scan_small table 0#64 [] [] evs (by simp) he
  have hf := scan_fails table 0#64 [] [] evs
  simp only [List.nil_append] at h
  rw [byteScan_cuts]
  unfold chunks
  rw [← h.1, ← h.2, ← hf]

end Snap
