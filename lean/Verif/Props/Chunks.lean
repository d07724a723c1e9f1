import Verif.Lemmas.FileTree
import Verif.Lemmas.FileMore
/-! C73: which chunks files have in common. -/
namespace Snap.Props
open Snap
set_option linter.unusedSectionVars false
variable [Serde] [LawfulSerde]

/-- The contents of the file chunks among some encoded objects. -/
def Spec.blobs (ws : List Bytes) : List Bytes := ws.filterMap fun w => match Object.decode w with
  | .ok o => if o.objtype = .fileBlob then some o.data else none
  | _ => none

/-- If `x` succeeds, it has stored objects among which the file chunks are `bs` with `P bs`, in order, and nothing else. -/
def Wrote {α} (H : Bytes → Key) (x : M α) (P : List Bytes → Prop) : Prop := ∀ db a db', x db = (.ok a, db') →
  ∃ ws, P (Spec.blobs ws) ∧ (∀ w ∈ ws, (∃ o : Object, o.encode = .ok w ∧ (o.objtype = .fileBlob → o.keys = [])) ∧ (H w).asDbKey ∈ db'.data.map (·.1) ∧ w ∈ db'.hashed) ∧ db.data <+: db'.data ∧ db.hashed <:+ db'.hashed ∧
    ∀ r ∈ db'.data, r ∈ db.data ∨ r.2 ∈ ws

variable {α β : Type} {H : Bytes → Key}

theorem blobs_append (a b : List Bytes) : Spec.blobs (a ++ b) = Spec.blobs a ++ Spec.blobs b := by simp [Spec.blobs]

theorem Wrote.pure (a : α) : Wrote H (Pure.pure a : M α) (· = []) := by
  intro db b db' h
  cases h
  exact ⟨[], rfl, by simp, List.prefix_refl _, List.suffix_refl _, fun r hr => .inl hr⟩

theorem Wrote.bind {x : M α} {f : α → M β} {P Q : List Bytes → Prop} (hx : Wrote H x P) (hf : ∀ a, Wrote H (f a) Q) :
    Wrote H (x >>= f) (fun l => ∃ a b, l = a ++ b ∧ P a ∧ Q b) := by
  intro db b db' h
  rw [SM.bind_apply] at h
  rcases hxd : x db with ⟨r, db1⟩
  rw [hxd] at h
  cases r with
  | ok a =>
    obtain ⟨ws, p, h1, h2, h3, h4⟩ := hx db a db1 hxd
    obtain ⟨ws', p', h1', h2', h3', h4'⟩ := hf a db1 b db' h
    refine ⟨ws ++ ws', ⟨_, _, blobs_append _ _, p, p'⟩, ?_, h2.trans h2', h3.trans h3', ?_⟩
    · intro w hw
      rcases List.mem_append.mp hw with hw | hw
      · exact ⟨(h1 w hw).1, (List.map_subset _ h2'.subset) (h1 w hw).2.1, h3'.subset (h1 w hw).2.2⟩
      · exact h1' w hw
    · intro r hr
      rcases h4' r hr with h | h
      · rcases h4 r h with h | h
        · exact .inl h
        · exact .inr (by simp [h])
      · exact .inr (by simp [h])
  | err e => cases h
  | panic => cases h
  | fuel => cases h

theorem Wrote.imp {x : M α} {P Q : List Bytes → Prop} (h : Wrote H x P) (hpq : ∀ l, P l → Q l) : Wrote H x Q := by
  intro db a db' hx
  obtain ⟨ws, p, r⟩ := h db a db' hx
  exact ⟨ws, hpq _ p, r⟩

theorem Wrote.ite {c : Prop} [Decidable c] {x y : M α} {P : List Bytes → Prop} (hx : c → Wrote H x P) (hy : ¬ c → Wrote H y P) : Wrote H (if c then x else y) P := by
  by_cases h : c
  · rw [if_pos h]; exact hx h
  · rw [if_neg h]; exact hy h

theorem wrote_throw (e : Err) (P : List Bytes → Prop) : Wrote H (SM.throw e : M α) P := by intro db a db' h; cases h
theorem wrote_panic (P : List Bytes → Prop) : Wrote H (SM.panic : M α) P := by intro db a db' h; cases h

theorem wrote_putObj (H : Bytes → Key) (o : Object) (ho : o.objtype = .fileBlob → o.keys = []) : Wrote H (putObj H o) (· = if o.objtype = .fileBlob then [o.data] else []) := by
  intro db k db' h
  rcases putObj_cases H o db with ⟨_, e⟩ | ⟨b, hb, e | e⟩
  · rw [e] at h; cases h
  · rw [e] at h; cases h
  · rw [e] at h
    simp only [Prod.mk.injEq, Res.ok.injEq] at h
    obtain ⟨rfl, rfl⟩ := h
    refine ⟨[b], ?_, ?_, insertIgnore_prefix _ _ _, List.suffix_cons _ _, ?_⟩
    · simp only [Spec.blobs, List.filterMap_cons, Object.decode_encode hb, List.filterMap_nil]
      by_cases ht : o.objtype = .fileBlob <;> simp [ht]
    · intro w hw
      simp only [List.mem_singleton] at hw
      subst hw
      refine ⟨⟨o, hb, ho⟩, ?_, List.mem_cons_self⟩
      rcases insertIgnore_cases db.data (H w).asDbKey w with ⟨h1, h2⟩ | ⟨h1, h2⟩
      · show _ ∈ (insertIgnore db.data (H w).asDbKey w).map _
        rw [h2]; obtain ⟨r, hr, e⟩ := h1; exact List.mem_map.mpr ⟨r, hr, e⟩
      · show _ ∈ (insertIgnore db.data (H w).asDbKey w).map _
        rw [h2]; simp
    · intro r hr
      rcases insertIgnore_cases db.data (H b).asDbKey b with ⟨h1, h2⟩ | ⟨h1, h2⟩
      · left; simpa [h2] using hr
      · have : r ∈ db.data ++ [((H b).asDbKey, b)] := by rw [← h2]; exact hr
        rcases List.mem_append.mp this with h | h
        · exact .inl h
        · simp only [List.mem_singleton] at h
          exact .inr (by simp [h])

theorem wrote_tree (H : Bytes → Key) (ks : List Key) : Wrote H (putObj H (treeObj ks)) (· = []) := by
  have := wrote_putObj H (treeObj ks) (by simp [treeObj])
  simpa [treeObj] using this

theorem wrote_cascade (H : Bytes → Key) (z : Nat) (os : List Nat) (kb : KeyBufs) : Wrote H (cascade H z os kb) (· = []) := by
  induction os generalizing kb with
  | nil => exact Wrote.pure _
  | cons o os ih =>
    unfold cascade
    refine Wrote.ite (fun _ => ?_) (fun _ => Wrote.pure _)
    exact ((wrote_tree H _).bind fun _ => ih _).imp (by rintro l ⟨a, b, rfl, rfl, rfl⟩; rfl)

theorem wrote_addChunks (H : Bytes → Key) (cs : List (Bytes × BitVec 64)) (kb : KeyBufs) : Wrote H (addChunks H cs kb) (· = cs.map (·.1)) := by
  induction cs generalizing kb with
  | nil => exact Wrote.pure _
  | cons c cs ih =>
    obtain ⟨c, h⟩ := c
    unfold addChunks
    refine ((wrote_putObj H (blobObj c) (fun _ => rfl)).bind fun _ => (wrote_cascade H _ _ _).bind fun _ => ih _).imp ?_
    rintro l ⟨a, b, rfl, rfl, a', b', rfl, rfl, rfl⟩
    simp [blobObj]

theorem wrote_finishTree (H : Bytes → Key) (os : List Nat) (kb : KeyBufs) : Wrote H (finishTree H os kb) (· = []) := by
  induction os generalizing kb with
  | nil => exact wrote_tree H _
  | cons o os ih =>
    unfold finishTree
    refine ((wrote_tree H _).bind (Q := (· = [])) fun k => ?_).imp (by rintro l ⟨a, b, rfl, rfl, rfl⟩; rfl)
    refine Wrote.ite (fun _ => ?_) (fun _ => ih _)
    cases (kb o).getLast? with
    | some k => exact Wrote.pure k
    | none => exact wrote_panic _

theorem wrote_putFinish (H : Bytes → Key) (cur : Bytes) (kb : KeyBufs) : Wrote H (putFinish H cur kb) (fun l => l = [cur] ∨ l = [] ∧ cur = []) := by
  unfold putFinish
  refine Wrote.ite (fun _ => ?_) (fun _ => ?_)
  · exact (wrote_putObj H (blobObj cur) (fun _ => rfl)).imp (by rintro l rfl; simp [blobObj])
  · refine (Wrote.bind (P := fun l => l = [cur] ∨ l = [] ∧ cur = []) ?_ fun _ => wrote_finishTree H _ _).imp (by rintro l ⟨a, b, rfl, h, rfl⟩; simpa using h)
    refine Wrote.ite (fun h => ?_) (fun h => ?_)
    · exact (Wrote.pure _).imp (by rintro l rfl; exact .inr ⟨rfl, List.isEmpty_iff.mp h⟩)
    · exact ((wrote_putObj H (blobObj cur) (fun _ => rfl)).bind fun _ => Wrote.pure _).imp (by rintro l ⟨a, b, rfl, rfl, rfl⟩; simp [blobObj])

/-- The chunks stored are those of the scanner, and what remains. -/
theorem wrote_putData (table : UInt8 → BitVec 64) (H : Bytes → Key) (evs : List ReadEv) : Wrote H (putData table H evs)
    (fun l => l = (chunks table evs).1.map (·.1) ++ [(chunks table evs).2.1] ∨ l = (chunks table evs).1.map (·.1) ∧ (chunks table evs).2.1 = []) := by
  rw [putData_eq]
  refine ((wrote_addChunks H _ _).bind (Q := fun l => l = [(chunks table evs).2.1] ∨ l = [] ∧ (chunks table evs).2.1 = []) fun kb => ?_).imp ?_
  · exact Wrote.ite (fun _ => wrote_throw _ _) fun _ => wrote_putFinish H _ kb
  · rintro l ⟨a, b, rfl, rfl, rfl | ⟨rfl, h⟩⟩
    · exact .inl rfl
    · exact .inr ⟨by simp, h⟩

/-! ### The gear hash looks at the last 64 bytes -/

theorem gear_lin (table : UInt8 → BitVec 64) (h : BitVec 64) (w : Bytes) : Spec.gear table h w = Spec.gear table 0#64 w + h * BitVec.ofNat 64 (2 ^ w.length) := by
  induction w generalizing h with
  | nil => simp [Spec.gear]
  | cons b w ih =>
    have e : ∀ h, Spec.gear table h (b :: w) = Spec.gear table (2 * h + table b) w := fun h => rfl
    rw [e, e, ih, ih (2 * 0#64 + table b)]
    have : BitVec.ofNat 64 (2 ^ (b :: w).length) = 2 * BitVec.ofNat 64 (2 ^ w.length) := by
      rw [List.length_cons, Nat.pow_succ, Nat.mul_comm, BitVec.ofNat_mul]
      rfl
    rw [this]
    generalize BitVec.ofNat 64 (2 ^ w.length) = x
    have e1 : (2 * h + table b) * x = h * (2 * x) + (2 * 0#64 + table b) * x := by
      rw [BitVec.add_mul, BitVec.add_mul, BitVec.mul_comm 2 h, BitVec.mul_assoc]
      simp
    rw [e1]
    ac_rfl

/-- The hash after 64 bytes does not depend on what it was before. -/
theorem gear_forget (table : UInt8 → BitVec 64) (h h' : BitVec 64) (w : Bytes) (hw : 64 ≤ w.length) : Spec.gear table h w = Spec.gear table h' w := by
  have : BitVec.ofNat 64 (2 ^ w.length) = 0#64 := by
    apply BitVec.eq_of_toNat_eq
    simp only [BitVec.toNat_ofNat]
    exact Nat.mod_eq_zero_of_dvd (Nat.pow_dvd_pow 2 hw)
  rw [gear_lin table h, gear_lin table h', this]
  simp

theorem byteScan_hash (table : UInt8 → BitVec 64) (h : BitVec 64) (cur w : Bytes) : (byteScan table h cur w).2.1 = Spec.gear table h w := by
  induction w generalizing h cur with
  | nil => rfl
  | cons b w ih =>
    simp only [byteScan]
    split
    · exact ih _ _
    · exact ih _ _

/-- Without a match there is no cut. -/
theorem byteScan_quiet (table : UInt8 → BitVec 64) (h : BitVec 64) (cur v : Bytes) (hq : ∀ n, 0 < n → n ≤ v.length → 2 ^ 51 ≤ (Spec.gear table h (v.take n)).toNat) :
    byteScan table h cur v = ([], Spec.gear table h v, cur ++ v) := by
  induction v generalizing h cur with
  | nil => simp [byteScan, Spec.gear]
  | cons b v ih =>
    have h1 := hq 1 (by omega) (by simp)
    have e1 : Spec.gear table h ((b :: v).take 1) = 2 * h + table b := by simp [Spec.gear]
    rw [e1] at h1
    simp only [byteScan]
    rw [if_neg (by omega), ih]
    · simp [Spec.gear]
    · intro n h0 hn
      have := hq (n + 1) (by omega) (by simp; omega)
      simpa [Spec.gear] using this

/-- A match that no other precedes within 32768 bytes is a cut, whatever comes before. -/
theorem byteScan_sync (table : UInt8 → BitVec 64) (h : BitVec 64) (cur s : Bytes) (hs : 32832 ≤ s.length) (hm : (Spec.gear table 0#64 s).toNat < 2 ^ 51)
    (hq : ∀ n, s.length - 32768 < n → n < s.length → 2 ^ 51 ≤ (Spec.gear table 0#64 (s.take n)).toNat) :
    (byteScan table h cur s).2 = (Spec.gear table 0#64 s, []) := by
  obtain ⟨t, b, rfl⟩ : ∃ t b, s = t ++ [b] := by
    rcases List.eq_nil_or_concat s with rfl | ⟨t, b, h⟩
    · simp at hs
    · exact ⟨t, b, by simpa using h⟩
  obtain ⟨u, v, rfl, hv⟩ : ∃ u v, t = u ++ v ∧ v.length = 32767 := by
    refine ⟨t.take (t.length - 32767), t.drop (t.length - 32767), (List.take_append_drop _ _).symm, ?_⟩
    simp only [List.length_append, List.length_singleton] at hs
    simp; omega
  have hu : 64 ≤ u.length := by simp only [List.length_append, List.length_singleton] at hs; omega
  rw [byteScan_append, byteScan_append]
  simp only
  rw [byteScan_quiet table (byteScan table h cur u).2.1]
  · have hg : ∀ x, Spec.gear table (byteScan table h cur u).2.1 x = Spec.gear table 0#64 (u ++ x) := by
      intro x
      rw [byteScan_hash, ← gear_append, gear_forget table h 0#64 _ (by simp; omega)]
    simp only [hg]
    have hg2 : 2 * Spec.gear table 0#64 (u ++ v) + table b = Spec.gear table 0#64 (u ++ v ++ [b]) := by
      rw [gear_append table 0#64 (u ++ v)]; rfl
    simp only [byteScan, hg2]
    rw [if_pos ⟨hm, by simp; omega⟩]
  · intro n h0 hn
    rw [byteScan_hash, ← gear_append, gear_forget table h 0#64 _ (by simp; omega)]
    have := hq (u.length + n) (by simp; omega) (by simp; omega)
    rw [List.append_assoc, List.take_append, List.take_of_length_le (by omega)] at this
    rw [show u.length + n - u.length = n from by omega, List.take_append_of_le_length (by omega)] at this
    exact this

/-! ### C73 -/

/-- Position `p` of `s` is a landmark: the hash of the 64 bytes before it has its top 13 bits zero, and this is so at no other place in the 32768 bytes before it. All the
bytes needed to see this are in `s`. -/
structure Spec.Landmark (table : UInt8 → BitVec 64) (s : Bytes) (p : Nat) : Prop where
  inside : 32832 ≤ p ∧ p ≤ s.length
  here : (Spec.gear table 0#64 (s.take p)).toNat < 2 ^ 51
  alone : ∀ q, p - 32768 < q → q < p → 2 ^ 51 ≤ (Spec.gear table 0#64 (s.take q)).toNat

/-- A stored object that is a file chunk. -/
def Spec.IsBlob (v d : Bytes) : Prop := (⟨d, [], .fileBlob⟩ : Object).encode = .ok v

theorem byteScan_content (table : UInt8 → BitVec 64) (h : BitVec 64) (cur w : Bytes) :
    ((byteScan table h cur w).1.map (·.1)).flatten ++ (byteScan table h cur w).2.2 = cur ++ w := by
  induction w generalizing h cur with
  | nil => simp [byteScan]
  | cons b w ih =>
    simp only [byteScan]
    split
    · simpa using ih (2 * h + table b) []
    · simpa using ih (2 * h + table b) (cur ++ [b])

theorem landmark_cut {table : UInt8 → BitVec 64} {s : Bytes} {p : Nat} (h : Spec.Landmark table s p) (a : Bytes) :
    ∃ g, byteScan table 0#64 [] (a ++ s) = ((byteScan table 0#64 [] (a ++ s.take p)).1 ++ (byteScan table g [] (s.drop p)).1, (byteScan table g [] (s.drop p)).2) ∧
      ((byteScan table 0#64 [] (a ++ s.take p)).1.map (·.1)).flatten = a ++ s.take p ∧ g = Spec.gear table 0#64 (s.take p) := by
  have hl : (s.take p).length = p := by have := h.inside; simp; omega
  have hs := fun h0 cur => byteScan_sync table h0 cur (s.take p) (by have := h.inside; omega) h.here (by
    intro n h1 h2
    rw [hl] at h1 h2
    rw [List.take_take, Nat.min_eq_left (by omega)]
    exact h.alone n h1 h2)
  have he : (byteScan table 0#64 [] (a ++ s.take p)).2 = (Spec.gear table 0#64 (s.take p), []) := by
    rw [byteScan_append]; exact hs _ _
  refine ⟨_, ?_, ?_, rfl⟩
  · conv => lhs; rw [← List.take_append_drop p s, ← List.append_assoc, byteScan_append, he]
  · have := byteScan_content table 0#64 [] (a ++ s.take p)
    rw [he] at this
    simpa using this

theorem mem_blobs {ws : List Bytes} {d : Bytes} (h : d ∈ Spec.blobs ws) (hw : ∀ w ∈ ws, ∃ o : Object, o.encode = .ok w ∧ (o.objtype = .fileBlob → o.keys = [])) :
    ∃ w ∈ ws, Spec.IsBlob w d := by
  obtain ⟨w, h1, h2⟩ := List.mem_filterMap.mp h
  obtain ⟨o, ho, hk⟩ := hw w h1
  rw [Object.decode_encode ho] at h2
  by_cases ht : o.objtype = .fileBlob
  · simp only [ht, if_true, Option.some.injEq] at h2
    subst h2
    refine ⟨w, h1, ?_⟩
    unfold Spec.IsBlob
    rw [← ho, ← hk ht, ← ht]
  · simp [ht] at h2

theorem mem_blobs_of {ws : List Bytes} {w d : Bytes} (h : w ∈ ws) (hb : Spec.IsBlob w d) : d ∈ Spec.blobs ws := by
  refine List.mem_filterMap.mpr ⟨w, h, ?_⟩
  rw [Object.decode_encode hb]
  simp

/-- Two puts one after the other: a chunk added by the second is not one of the first. -/
theorem new_blobs {x y : M Key} {P Q : List Bytes → Prop} (hx : Wrote H x P) (hy : Wrote H y Q) {db db1 db2 : Db} {k k' : Key} (hi : Inv H db2)
    (h1 : x db = (.ok k, db1)) (h2 : y db1 = (.ok k', db2)) :
    ∃ l l', P l ∧ Q l' ∧ ∀ r ∈ db2.data, r ∉ db1.data → ∀ d, Spec.IsBlob r.2 d → d ∈ l' ∧ d ∉ l := by
  obtain ⟨ws, p, a1, a2, a3, a4⟩ := hx db k db1 h1
  obtain ⟨ws', p', b1, b2, b3, b4⟩ := hy db1 k' db2 h2
  refine ⟨_, _, p, p', fun r hr hn d hd => ?_⟩
  have hr2 : r.2 ∈ ws' := (b4 r hr).resolve_left hn
  refine ⟨mem_blobs_of hr2 hd, fun hl => hn ?_⟩
  obtain ⟨w, hw, hwd⟩ := mem_blobs hl (fun w hw => (a1 w hw).1)
  have hwr : w = r.2 := by unfold Spec.IsBlob at hwd hd; rw [hwd] at hd; cases hd; rfl
  obtain ⟨r1, hr1, e1⟩ := List.mem_map.mp (a1 w hw).2.1
  have hr1' : r1 ∈ db2.data := b2.subset hr1
  have e2 : r1.1 = r.1 := by rw [e1, (hi.rows r hr).1, hwr]
  have : r1 = r := by
    have := assoc_of_mem_nodup hi.nodup hr1'
    have h2 := assoc_of_mem_nodup hi.nodup hr
    rw [e2, h2] at this
    exact Prod.ext e2 (by simpa using this.symm)
  rw [← this]; exact hr1

/-- **C73**: a file is stored, and then the file after an edit in the middle. The second put adds chunks only for the bytes from the last boundary before the edit to any
landmark after it. -/
theorem C73_edit {table : UInt8 → BitVec 64} {evs evs' : List ReadEv} (hs : Spec.smallReads evs) (hs' : Spec.smallReads evs') {pre old new suf : Bytes}
    (hx : Spec.delivered evs = pre ++ old ++ suf) (hy : Spec.delivered evs' = pre ++ new ++ suf) {p : Nat} (hp : Spec.Landmark table suf p)
    {db db1 db2 : Db} {k k' : Key} (hi : Inv H db) (h1 : putData table H evs db = (.ok k, db1)) (h2 : putData table H evs' db1 = (.ok k', db2)) :
    ∃ added : List Bytes, added.flatten = (Spec.cuts table 0#64 [] pre).2 ++ new ++ suf.take p ∧
      ∀ r ∈ db2.data, r ∉ db1.data → ∀ d, Spec.IsBlob r.2 d → d ∈ added := by
  have hi1 : Inv H db1 := by have := (isPuts_putData table H evs).grow db; rw [h1] at this; exact this.inv hi
  have hi2 : Inv H db2 := by have := (isPuts_putData table H evs').grow db1; rw [h2] at this; exact this.inv hi1
  obtain ⟨l, l', pl, ql, hn⟩ := new_blobs (wrote_putData table H evs) (wrote_putData table H evs') hi2 h1 h2
  have key : ∀ {evs : List ReadEv} {mid : Bytes}, Spec.smallReads evs → Spec.delivered evs = pre ++ mid ++ suf →
      ∃ added : List Bytes, added.flatten = (Spec.cuts table 0#64 [] pre).2 ++ mid ++ suf.take p ∧
        (chunks table evs).1.map (·.1) = (Spec.cuts table 0#64 [] pre).1.map (·.1) ++ added ++ (Spec.cuts table (Spec.gear table 0#64 (suf.take p)) [] (suf.drop p)).1.map (·.1) ∧
        (chunks table evs).2.1 = (Spec.cuts table (Spec.gear table 0#64 (suf.take p)) [] (suf.drop p)).2 := by
    intro evs mid hs hd
    obtain ⟨g, e1, e2, rfl⟩ := landmark_cut hp (pre ++ mid)
    rw [chunks_small table evs hs, hd]
    simp only [byteScan_cuts]
    rw [e1]
    have e3 := byteScan_append table 0#64 [] pre (mid ++ suf.take p)
    rw [← List.append_assoc] at e3
    refine ⟨(byteScan table (byteScan table 0#64 [] pre).2.1 (byteScan table 0#64 [] pre).2.2 (mid ++ suf.take p)).1.map (·.1), ?_, ?_, rfl⟩
    · rw [e3] at e2
      simp only [List.map_append, List.flatten_append] at e2
      have e4 := byteScan_content table 0#64 [] pre
      simp only [List.nil_append] at e4
      have : ((byteScan table 0#64 [] pre).1.map (·.1)).flatten ++ ((byteScan table (byteScan table 0#64 [] pre).2.1 (byteScan table 0#64 [] pre).2.2 (mid ++ suf.take p)).1.map (·.1)).flatten =
          ((byteScan table 0#64 [] pre).1.map (·.1)).flatten ++ ((byteScan table 0#64 [] pre).2.2 ++ mid ++ suf.take p) := by
        rw [e2, ← List.append_assoc, ← List.append_assoc, e4]
      exact List.append_cancel_left this
    · rw [e3]; simp
  obtain ⟨ad, _, c1, c2⟩ := key hs hx
  obtain ⟨ad', f', c1', c2'⟩ := key hs' hy
  rw [c1, c2] at pl
  rw [c1', c2'] at ql
  refine ⟨ad' ++ [[]], by simpa using f', fun r hr hnr d hd => ?_⟩
  obtain ⟨m1, m2⟩ := hn r hr hnr d hd
  by_cases hd0 : d = []
  · simp [hd0]
  · rcases ql with rfl | ⟨rfl, hq⟩ <;> rcases pl with rfl | ⟨rfl, hp⟩ <;>
      simp only [List.mem_append, List.mem_singleton, not_or] at m1 m2 ⊢ <;> simp_all

/-- The same at the end of a file: replacing what comes after `pre` (appending, if `old` is empty) adds chunks only for the bytes after the last boundary in `pre`. -/
theorem C73_append {table : UInt8 → BitVec 64} {evs evs' : List ReadEv} (hs : Spec.smallReads evs) (hs' : Spec.smallReads evs') {pre old new : Bytes}
    (hx : Spec.delivered evs = pre ++ old) (hy : Spec.delivered evs' = pre ++ new)
    {db db1 db2 : Db} {k k' : Key} (hi : Inv H db) (h1 : putData table H evs db = (.ok k, db1)) (h2 : putData table H evs' db1 = (.ok k', db2)) :
    ∃ added : List Bytes, added.flatten = (Spec.cuts table 0#64 [] pre).2 ++ new ∧ ∀ r ∈ db2.data, r ∉ db1.data → ∀ d, Spec.IsBlob r.2 d → d ∈ added := by
  have hi1 : Inv H db1 := by have := (isPuts_putData table H evs).grow db; rw [h1] at this; exact this.inv hi
  have hi2 : Inv H db2 := by have := (isPuts_putData table H evs').grow db1; rw [h2] at this; exact this.inv hi1
  obtain ⟨l, l', pl, ql, hn⟩ := new_blobs (wrote_putData table H evs) (wrote_putData table H evs') hi2 h1 h2
  rw [chunks_small table evs hs, hx] at pl
  rw [chunks_small table evs' hs', hy] at ql
  simp only [byteScan_cuts, byteScan_append] at pl ql
  have hc := byteScan_content table (byteScan table 0#64 [] pre).2.1 (byteScan table 0#64 [] pre).2.2 new
  refine ⟨(byteScan table (byteScan table 0#64 [] pre).2.1 (byteScan table 0#64 [] pre).2.2 new).1.map (·.1) ++
    [(byteScan table (byteScan table 0#64 [] pre).2.1 (byteScan table 0#64 [] pre).2.2 new).2.2], by simp only [byteScan_cuts]; simpa using hc, fun r hr hnr d hd => ?_⟩
  obtain ⟨m1, m2⟩ := hn r hr hnr d hd
  rcases ql with rfl | ⟨rfl, hq⟩ <;> rcases pl with rfl | ⟨rfl, hp⟩ <;>
      simp only [List.map_append, List.mem_append, List.mem_singleton, not_or] at m1 m2 ⊢ <;> simp_all

/-! ### Reads that fill the buffer -/

theorem feedP_forced (table : UInt8 → BitVec 64) (h : BitVec 64) (buf cur : Bytes) (hb : 32768 < buf.length) :
    ∃ h', feedP table h buf cur = ((cur ++ buf.take 32768, h') :: (feedP table h' (buf.drop 32768) []).1, (feedP table h' (buf.drop 32768) []).2) := by
  have hm : blobMax = 32768 := by decide
  refine ⟨(nextMatch table blobMask h buf).2, ?_⟩
  rw [feedP]
  have : boundary table h buf = (some 32768, (nextMatch table blobMask h buf).2) := by
    unfold boundary
    simp only
    rw [if_pos (by omega), hm]
  rw [this]
  simp only
  rw [dif_pos ⟨by omega, by omega⟩, if_pos (by simp; omega)]

theorem few {cs : List (Bytes × BitVec 64)} {rest : Bytes} (h : ∀ c ∈ cs, 32768 ≤ c.1.length) (hl : (cs.map Prod.fst).flatten.length + rest.length ≤ 32768) :
    cs = [] ∨ ∃ c, cs = [c] ∧ c.1.length = 32768 ∧ rest = [] := by
  cases cs with
  | nil => exact .inl rfl
  | cons c cs =>
    right
    have := h c (by simp)
    simp only [List.map_cons, List.flatten_cons, List.length_append] at hl
    have h0 : cs = [] := by
      cases cs with
      | nil => rfl
      | cons d cs =>
        have := h d (by simp)
        simp only [List.map_cons, List.flatten_cons, List.length_append] at hl
        omega
    subst h0
    exact ⟨c, rfl, by omega, List.eq_nil_of_length_eq_zero (by omega)⟩

theorem feedP_rest (table : UInt8 → BitVec 64) (h : BitVec 64) (buf : Bytes) (hb : buf.length ≤ 32768) :
    ((feedP table h buf []).1 = [] ∧ (feedP table h buf []).2.2 = buf) ∨ ∃ c, (feedP table h buf []).1 = [c] ∧ c.1.length = 32768 ∧ (feedP table h buf []).2.2 = [] := by
  have h1 := feedP_content table h buf []
  have h2 := feedP_big table h buf []
  have hm : blobMax = 32768 := by decide
  rw [hm] at h2
  rcases few (rest := (feedP table h buf []).2.2) h2 (by have := congrArg List.length h1; simp only [List.length_append, List.length_nil] at this; omega) with e | e
  · left; rw [e] at h1; exact ⟨e, by simpa using h1⟩
  · exact .inr e

theorem feedP_full (table : UInt8 → BitVec 64) (h : BitVec 64) (buf cur : Bytes) (hb : buf.length = 65536) (hc : 32768 ∣ cur.length) :
    (∀ c ∈ (feedP table h buf cur).1, 32768 ∣ c.1.length) ∧ ((feedP table h buf cur).2.2 = [] ∨ (feedP table h buf cur).2.2.length = 32768) := by
  obtain ⟨h', e⟩ := feedP_forced table h buf cur (by omega)
  rw [e]
  have h1 : 32768 ∣ (cur ++ buf.take 32768).length := by
    rw [List.length_append, List.length_take, Nat.min_eq_left (by omega)]
    exact Nat.dvd_add hc (Nat.dvd_refl _)
  rcases feedP_rest table h' (buf.drop 32768) (by simp; omega) with ⟨e1, e2⟩ | ⟨c, e1, e2, e3⟩
  · rw [e1, e2]
    exact ⟨by simpa using h1, .inr (by simp; omega)⟩
  · rw [e1, e3]
    refine ⟨?_, .inl rfl⟩
    intro x hx
    simp only [List.mem_cons, List.not_mem_nil, or_false] at hx
    rcases hx with rfl | rfl
    · exact h1
    · exact e2 ▸ Nat.dvd_refl _

/-- All pieces but at most the last are of whole blocks of 32768 bytes. -/
def Blocks (l : List Bytes) : Prop := ∃ a b, l = a ++ b ∧ (∀ c ∈ a, 32768 ∣ c.length) ∧ b.length ≤ 1

theorem Blocks.cons {a l : List Bytes} (ha : ∀ c ∈ a, 32768 ∣ c.length) (h : Blocks l) : Blocks (a ++ l) := by
  obtain ⟨x, y, rfl, h1, h2⟩ := h
  refine ⟨a ++ x, y, by simp, ?_, h2⟩
  intro c hc
  rcases List.mem_append.mp hc with hc | hc
  · exact ha c hc
  · exact h1 c hc

theorem Blocks.of {a : List Bytes} (ha : ∀ c ∈ a, 32768 ∣ c.length) : Blocks a := ⟨a, [], by simp, ha, by simp⟩

theorem feedP_last (table : UInt8 → BitVec 64) (h : BitVec 64) (buf cur : Bytes) (hb : buf.length ≤ 65536) (hc : cur = [] ∨ cur.length = 32768) :
    Blocks ((feedP table h buf cur).1.map Prod.fst) := by
  by_cases hl : 32768 < buf.length
  · obtain ⟨h', e⟩ := feedP_forced table h buf cur hl
    rw [e]
    have h1 : 32768 ∣ (cur ++ buf.take 32768).length := by
      rw [List.length_append, List.length_take, Nat.min_eq_left (by omega)]
      refine Nat.dvd_add ?_ (Nat.dvd_refl _)
      rcases hc with rfl | hc
      · simp
      · exact hc ▸ Nat.dvd_refl _
    refine Blocks.of ?_
    rcases feedP_rest table h' (buf.drop 32768) (by simp; omega) with ⟨e1, _⟩ | ⟨c, e1, e2, _⟩
    · rw [e1]; simpa using h1
    · rw [e1]
      simp only [List.map_cons, List.map_nil, List.mem_cons, List.not_mem_nil, or_false]
      rintro x (rfl | rfl)
      · exact h1
      · exact e2 ▸ Nat.dvd_refl _
  · have h1 := feedP_content table h buf cur
    have h2 := feedP_big table h buf cur
    have hm : blobMax = 32768 := by decide
    rw [hm] at h2
    have hl2 := congrArg List.length h1
    simp only [List.length_append] at hl2
    have hcl : cur.length ≤ 32768 := by rcases hc with rfl | hc <;> simp_all
    generalize (feedP table h buf cur).1 = cs at *
    cases cs with
    | nil => exact Blocks.of (by simp)
    | cons c cs =>
      have hc0 := h2 c (by simp)
      simp only [List.map_cons, List.flatten_cons, List.length_append] at hl2
      rcases few (cs := cs) (rest := (feedP table h buf cur).2.2) (fun d hd => h2 d (by simp [hd])) (by omega) with rfl | ⟨d, rfl, hd, _⟩
      · exact ⟨[], [c.1], by simp, by simp, by simp⟩
      · refine ⟨[c.1], [d.1], by simp, ?_, by simp⟩
        simp only [List.map_cons, List.map_nil, List.flatten_cons, List.flatten_nil, List.append_nil] at hl2
        have : c.1.length = 32768 := by omega
        simp [this]

/-- Every read fills the buffer of 65536 bytes, but the last, which may be shorter. -/
inductive Spec.FullReads : List ReadEv → Prop where
  | nil : Spec.FullReads []
  | last (d : Bytes) (h : d.length ≤ 65536) : Spec.FullReads [.data d]
  | cons {d : Bytes} {evs : List ReadEv} (h : d.length = 65536) (t : Spec.FullReads evs) : Spec.FullReads (.data d :: evs)

theorem scan_full (table : UInt8 → BitVec 64) {evs : List ReadEv} (hf : Spec.FullReads evs) (h : BitVec 64) (buf cur : Bytes) (hb : buf = [] ∨ buf.length = 65536)
    (hc : cur = [] ∨ cur.length = 32768) : Blocks ((scan table h buf cur evs).1.map Prod.fst) := by
  induction hf generalizing h buf cur with
  | nil => exact feedP_last table h buf cur (by rcases hb with rfl | hb <;> simp_all) hc
  | last d hd =>
    have h1 : (∀ c ∈ (feedP table h buf cur).1.map Prod.fst, 32768 ∣ c.length) ∧ ((feedP table h buf cur).2.2 = [] ∨ (feedP table h buf cur).2.2.length = 32768) := by
      rcases hb with rfl | hb
      · rw [feedP_nil]; exact ⟨by simp, hc⟩
      · have := feedP_full table h buf cur hb (by rcases hc with rfl | hc <;> simp_all)
        exact ⟨by simpa using this.1, this.2⟩
    unfold scan
    simp only
    split
    · exact Blocks.of h1.1
    · simp only [List.map_append]
      exact Blocks.cons h1.1 (feedP_last table _ d _ hd h1.2)
  | @cons d evs hd _ ih =>
    have h1 : (∀ c ∈ (feedP table h buf cur).1.map Prod.fst, 32768 ∣ c.length) ∧ ((feedP table h buf cur).2.2 = [] ∨ (feedP table h buf cur).2.2.length = 32768) := by
      rcases hb with rfl | hb
      · rw [feedP_nil]; exact ⟨by simp, hc⟩
      · have := feedP_full table h buf cur hb (by rcases hc with rfl | hc <;> simp_all)
        exact ⟨by simpa using this.1, this.2⟩
    unfold scan
    simp only
    rw [if_neg (by intro hd0; rw [hd0] at hd; simp at hd)]
    simp only [List.map_append]
    exact Blocks.cons h1.1 (ih _ d _ (.inr hd) h1.2)

/-- **C73**: with reads that fill the buffer, boundaries do not depend on the contents: all chunks stored but the last two are whole blocks of 32768 bytes. -/
theorem C73_full_reads {table : UInt8 → BitVec 64} {evs : List ReadEv} (hf : Spec.FullReads evs) {db db1 : Db} {k : Key} (h1 : putData table H evs db = (.ok k, db1)) :
    ∃ blocks last : List Bytes, blocks.flatten ++ last.flatten = Spec.delivered evs ∧ (∀ c ∈ blocks, 32768 ∣ c.length) ∧ last.length ≤ 2 ∧
      ∀ r ∈ db1.data, r ∉ db.data → ∀ d, Spec.IsBlob r.2 d → d ∈ blocks ∨ d ∈ last := by
  obtain ⟨ws, p, a1, a2, a3, a4⟩ := wrote_putData table H evs db k db1 h1
  obtain ⟨a, b, e, h2, h3⟩ := scan_full table hf 0#64 [] [] (.inl rfl) (.inl rfl)
  have hc := chunks_content table evs
  have e' : (chunks table evs).1.map Prod.fst = a ++ b := e
  rw [e'] at hc p
  refine ⟨a, b ++ [(chunks table evs).2.1], by simpa using hc, h2, by simp; omega, fun r hr hn d hd => ?_⟩
  have hm := mem_blobs_of ((a4 r hr).resolve_left hn) hd
  rcases p with p | ⟨p, _⟩ <;> rw [p] at hm <;> simp only [List.mem_append, List.mem_singleton] at hm ⊢
  · rcases hm with (h | h) | h <;> simp [h]
  · rcases hm with h | h <;> simp [h]

/-! ### With such reads one byte at the front changes every chunk -/

theorem heads {Z t : Bytes} {a : UInt8} (hz : Z.length = 32768) (ha : Z.head? = some a) (ht : t.length < 32768) (hta : t = [] ∨ t.head? = some a) (l : List Bytes) (last : Bytes)
    (hl : ∀ c ∈ l, 32768 ∣ c.length) (m : Nat) (he : l.flatten ++ last = (List.replicate m Z).flatten ++ t) : ∀ c, c ∈ l ∨ c = last → c ≠ [] → c.head? = some a := by
  have hrep : ∀ k x, (List.replicate k Z).flatten ++ x ≠ [] → (k ≠ 0 ∨ x = [] ∨ x.head? = some a) → ((List.replicate k Z).flatten ++ x).head? = some a := by
    intro k x hne hx
    cases k with
    | zero =>
      rcases hx with h | h | h
      · exact absurd rfl h
      · subst h; simp at hne
      · simpa using h
    | succ k =>
      cases Z with
      | nil => simp at ha
      | cons z Z => simp only [List.replicate_succ, List.flatten_cons, List.cons_append, List.head?_cons] at ha ⊢; exact ha
  induction l generalizing m with
  | nil =>
    rintro c (h | rfl) hne
    · simp at h
    · simp only [List.flatten_nil, List.nil_append] at he
      rw [he] at hne ⊢
      exact hrep m t hne (.inr hta)
  | cons c l ih =>
    obtain ⟨k, hk⟩ := hl c (by simp)
    have hlen := congrArg List.length he
    simp only [List.flatten_cons, List.length_append, List.length_flatten, List.map_replicate, List.sum_replicate_nat, hz] at hlen
    have hkm : k ≤ m := by
      apply Nat.le_of_lt_succ
      apply Nat.lt_of_mul_lt_mul_left (a := 32768)
      omega
    obtain ⟨j, rfl⟩ := Nat.le.dest hkm
    rw [List.flatten_cons, List.append_assoc, ← List.replicate_append_replicate, List.flatten_append, List.append_assoc] at he
    obtain ⟨e1, e2⟩ := List.append_inj he (by simp [hz, hk, Nat.mul_comm])
    rintro d (hd | hd) hne
    · rcases List.mem_cons.mp hd with rfl | hd
      · rw [e1] at hne ⊢
        have := hrep k [] (by simpa using hne) (.inr (.inl rfl))
        simpa using this
      · exact ih (fun c hc => hl c (by simp [hc])) j e2 d (.inl hd) hne
    · exact ih (fun c hc => hl c (by simp [hc])) j e2 d (.inr hd) hne

/-- A block of zeros beginning with a one. -/
def exBlock : Bytes := 1 :: List.replicate 32767 0
/-- The same one byte later. -/
def exShift : Bytes := 0 :: 1 :: List.replicate 32766 0

theorem delivered_replicate (n : Nat) (B : Bytes) (hB : B ≠ []) (evs : List ReadEv) :
    Spec.delivered (List.replicate n (.data B) ++ evs) = (List.replicate n B).flatten ++ Spec.delivered evs := by
  induction n with
  | zero => rfl
  | succ n ih => simp [List.replicate_succ, Spec.delivered, hB, ih]

theorem shift_all (m : Nat) : (0 : UInt8) :: (List.replicate m exBlock).flatten = (List.replicate m exShift).flatten ++ [0] := by
  induction m with
  | zero => rfl
  | succ m ih =>
    have h1 : exBlock = 1 :: (List.replicate 32766 0 ++ [0]) := by
      unfold exBlock
      rw [← List.replicate_succ']
    have h2 : exShift = 0 :: 1 :: List.replicate 32766 0 := rfl
    rw [List.replicate_succ, List.replicate_succ, List.flatten_cons, List.flatten_cons, List.append_assoc, ← ih, h1, h2]
    simp only [List.cons_append, List.append_assoc, List.nil_append]

theorem replicate_double (n : Nat) (B : Bytes) : (List.replicate n (B ++ B)).flatten = (List.replicate (2 * n) B).flatten := by
  induction n with
  | zero => rfl
  | succ n ih => rw [List.replicate_succ, List.flatten_cons, ih, Nat.mul_add, Nat.mul_one, List.replicate_succ, List.replicate_succ]; simp

/-- Pieces of whole blocks and one more. -/
def Pieces (content : Bytes) (l : List Bytes) (rest : Bytes) : Prop :=
  ∃ (x : List Bytes) (last : Bytes), (∀ c ∈ x, 32768 ∣ c.length) ∧ x.flatten ++ last = content ∧ ∀ c, c ∈ l ∨ c = rest → c ≠ [] → c ∈ x ∨ c = last

theorem Pieces.cons {a l : List Bytes} {content rest : Bytes} (ha : ∀ c ∈ a, 32768 ∣ c.length) (h : Pieces content l rest) : Pieces (a.flatten ++ content) (a ++ l) rest := by
  obtain ⟨x, last, h1, h2, h3⟩ := h
  refine ⟨a ++ x, last, ?_, by simp [← h2], ?_⟩
  · intro c hc
    rcases List.mem_append.mp hc with hc | hc
    · exact ha c hc
    · exact h1 c hc
  · rintro c (hc | hc) hne
    · rcases List.mem_append.mp hc with hc | hc
      · exact .inl (by simp [hc])
      · rcases h3 c (.inl hc) hne with h | h
        · exact .inl (by simp [h])
        · exact .inr h
    · rcases h3 c (.inr hc) hne with h | h
      · exact .inl (by simp [h])
      · exact .inr h

theorem scan_pieces (table : UInt8 → BitVec 64) {B : Bytes} (hB : B.length = 65536) (n : Nat) (tail : List ReadEv) (ht : tail = [] ∨ ∃ b, tail = [.data [b]]) (h : BitVec 64)
    (buf cur : Bytes) (hb : buf = [] ∨ buf.length = 65536) (hc : cur = [] ∨ cur.length = 32768) :
    Pieces (cur ++ buf ++ Spec.delivered (List.replicate n (.data B) ++ tail)) ((scan table h buf cur (List.replicate n (.data B) ++ tail)).1.map Prod.fst)
      (scan table h buf cur (List.replicate n (.data B) ++ tail)).2.1 := by
  have h1 : ∀ (h : BitVec 64) (buf cur : Bytes), (buf = [] ∨ buf.length = 65536) → (cur = [] ∨ cur.length = 32768) →
      (∀ c ∈ (feedP table h buf cur).1.map Prod.fst, 32768 ∣ c.length) ∧ ((feedP table h buf cur).2.2 = [] ∨ (feedP table h buf cur).2.2.length = 32768) := by
    intro h buf cur hb hc
    rcases hb with rfl | hb
    · rw [feedP_nil]; exact ⟨by simp, hc⟩
    · have := feedP_full table h buf cur hb (by rcases hc with rfl | hc <;> simp_all)
      exact ⟨by simpa using this.1, this.2⟩
  have h2 := feedP_content table h buf cur
  induction n generalizing h buf cur with
  | zero =>
    rcases ht with rfl | ⟨b, rfl⟩
    · refine ⟨(feedP table h buf cur).1.map Prod.fst, (feedP table h buf cur).2.2, (h1 h buf cur hb hc).1, by simp [Spec.delivered, h2], ?_⟩
      intro c hc' _
      exact hc'
    · have e : scan table h buf cur [.data [b]] = ((feedP table h buf cur).1 ++ (feedP table (feedP table h buf cur).2.1 [b] (feedP table h buf cur).2.2).1,
          (feedP table (feedP table h buf cur).2.1 [b] (feedP table h buf cur).2.2).2.2, false) := by
        simp [scan]
      have e3 : cur ++ buf ++ Spec.delivered (List.replicate 0 (.data B) ++ [.data [b]]) = ((feedP table h buf cur).1.map Prod.fst).flatten ++ ((feedP table h buf cur).2.2 ++ [b]) := by
        rw [← List.append_assoc, h2]; simp [Spec.delivered]
      rw [e3]
      simp only [List.replicate_zero, List.nil_append, e, List.map_append]
      refine Pieces.cons (h1 h buf cur hb hc).1 ⟨[], (feedP table h buf cur).2.2 ++ [b], by simp, by simp, ?_⟩
      rw [feedP_small _ _ _ _ (by simp)]
      simp only [byteScan]
      split
      · simp only [List.map_cons, List.map_nil, List.mem_singleton]
        rintro c (h | h) hne
        · exact .inr h
        · exact absurd h hne
      · simp only [List.map_nil, List.not_mem_nil, false_or]
        intro c h _
        exact h
  | succ n ih =>
    have e : scan table h buf cur (List.replicate (n + 1) (.data B) ++ tail) = ((feedP table h buf cur).1 ++ (scan table (feedP table h buf cur).2.1 B (feedP table h buf cur).2.2 (List.replicate n (.data B) ++ tail)).1,
        (scan table (feedP table h buf cur).2.1 B (feedP table h buf cur).2.2 (List.replicate n (.data B) ++ tail)).2) := by
      rw [List.replicate_succ, List.cons_append, scan]
      simp only
      rw [if_neg (by intro h0; simp [h0] at hB)]
    have e3 : cur ++ buf ++ Spec.delivered (List.replicate (n + 1) (.data B) ++ tail) =
        ((feedP table h buf cur).1.map Prod.fst).flatten ++ ((feedP table h buf cur).2.2 ++ B ++ Spec.delivered (List.replicate n (.data B) ++ tail)) := by
      rw [List.append_assoc _ B, ← List.append_assoc, h2, List.replicate_succ, List.cons_append, Spec.delivered, if_neg (by intro h0; simp [h0] at hB)]
    rw [e3, e]
    simp only [List.map_append]
    exact Pieces.cons (h1 h buf cur hb hc).1 (ih _ B _ (.inr hB) (h1 h buf cur hb hc).2 (feedP_content table _ B _))

theorem starts {table : UInt8 → BitVec 64} {evs : List ReadEv} {Z t : Bytes} {a : UInt8} (hz : Z.length = 32768) (ha : Z.head? = some a) (ht : t.length < 32768)
    (hta : t = [] ∨ t.head? = some a) (n : Nat) (tail : List ReadEv) (htl : tail = [] ∨ ∃ b, tail = [.data [b]]) (he : evs = List.replicate n (.data (Z ++ Z)) ++ tail)
    (hd : Spec.delivered tail = t) {l : List Bytes}
    (hl : l = (chunks table evs).1.map (·.1) ++ [(chunks table evs).2.1] ∨ l = (chunks table evs).1.map (·.1) ∧ (chunks table evs).2.1 = []) :
    ∀ c ∈ l, c ≠ [] → c.head? = some a := by
  subst he
  obtain ⟨x, last, h1, h2, h3⟩ := scan_pieces table (B := Z ++ Z) (by simp [hz]) n tail htl 0#64 [] [] (.inl rfl) (.inl rfl)
  have hzz : Z ++ Z ≠ [] := by intro h; simp at h; simp [h] at hz
  rw [delivered_replicate n _ hzz, hd, replicate_double] at h2
  intro c hc hne
  have hc' : c ∈ (chunks table (List.replicate n (.data (Z ++ Z)) ++ tail)).1.map Prod.fst ∨ c = (chunks table (List.replicate n (.data (Z ++ Z)) ++ tail)).2.1 := by
    rcases hl with rfl | ⟨rfl, _⟩
    · rcases List.mem_append.mp hc with h | h
      · exact .inl h
      · exact .inr (List.mem_singleton.mp h)
    · exact .inl hc
  exact heads hz ha ht hta x last h1 (2 * n) (by simpa using h2) c (h3 c hc' hne) hne

/-- The files of the next theorem: `n` times two blocks, and the same with a zero in front. -/
def exReads (n : Nat) : List ReadEv := List.replicate n (.data (exBlock ++ exBlock))
/-- One byte later. -/
def exReads' (n : Nat) : List ReadEv := List.replicate n (.data (exShift ++ exShift)) ++ [.data [0]]

/-- **C73**, refuting that an edit leaves chunks elsewhere alone when reads fill the buffer: for every size there is a file such that, after one byte has been put in front
of it, all of it is stored again: every part of it is in a new chunk. -/
theorem C73_counterexample (table : UInt8 → BitVec 64) (H : Bytes → Key) (n : Nat) (hn : n < 2 ^ 47) : Spec.FullReads (exReads n) ∧ Spec.FullReads (exReads' n) ∧
    (Spec.delivered (exReads n)).length = 65536 * n ∧ Spec.delivered (exReads' n) = 0 :: Spec.delivered (exReads n) ∧
    ∃ (db1 db2 : Db) (k k' : Key), putData table H (exReads n) {} = (.ok k, db1) ∧ putData table H (exReads' n) db1 = (.ok k', db2) ∧ (NoColl H db2 →
      ∃ added : List Bytes, added.flatten = Spec.delivered (exReads' n) ∧ ∀ d ∈ added, ∃ r ∈ db2.data, r ∉ db1.data ∧ Spec.IsBlob r.2 d) := by
  have hzl : exBlock.length = 32768 := by rw [exBlock, List.length_cons, List.length_replicate]
  have hsl : exShift.length = 32768 := by rw [exShift, List.length_cons, List.length_cons, List.length_replicate]
  have hf : ∀ (B : Bytes), B.length = 65536 → ∀ n {evs}, Spec.FullReads evs → Spec.FullReads (List.replicate n (.data B) ++ evs) := by
    intro B hB n evs h
    induction n with
    | zero => exact h
    | succ n ih => exact .cons hB ih
  have hd : Spec.delivered (exReads n) = (List.replicate (2 * n) exBlock).flatten := by
    have := delivered_replicate n (exBlock ++ exBlock) (by intro h; rw [List.append_eq_nil_iff] at h; exact absurd h.1 (List.cons_ne_nil _ _)) []
    rw [List.append_nil] at this
    rw [exReads, this, replicate_double]
    simp [Spec.delivered]
  have hd' : Spec.delivered (exReads' n) = (List.replicate (2 * n) exShift).flatten ++ [0] := by
    rw [exReads', delivered_replicate n (exShift ++ exShift) (by intro h; rw [List.append_eq_nil_iff] at h; exact absurd h.1 (List.cons_ne_nil _ _)), replicate_double]
    simp [Spec.delivered]
  refine ⟨?_, hf _ (by simp [hsl]) n (.last _ (by simp)), ?_, by rw [hd, hd', shift_all], ?_⟩
  · have := hf (exBlock ++ exBlock) (by simp [hzl]) n .nil
    rwa [List.append_nil] at this
  · rw [hd]
    simp [hzl]; omega
  have hlen : (Spec.delivered (exReads n)).length = 65536 * n := by rw [hd]; simp [hzl]; omega
  have hfail : ∀ B evs, B ≠ [] → Spec.readFails evs = false → Spec.readFails (List.replicate n (.data B) ++ evs) = false := by
    intro B evs hB h
    clear hn hf hd hd' hlen
    induction n with
    | zero => exact h
    | succ n ih => rw [List.replicate_succ, List.cons_append, Spec.readFails, if_neg hB]; exact ih
  obtain ⟨k, db1, h1, hf1, _⟩ := tot_putData table H (exReads n) (by rw [hlen]; omega) (by
    have := hfail (exBlock ++ exBlock) [] (by intro h; rw [List.append_eq_nil_iff] at h; exact absurd h.1 (List.cons_ne_nil _ _)) rfl
    rwa [List.append_nil] at this) {} rfl
  obtain ⟨k', db2, h2, _, _⟩ := tot_putData table H (exReads' n) (by rw [hd', ← shift_all, ← hd, List.length_cons, hlen]; omega)
    (hfail (exShift ++ exShift) [.data [0]] (by intro h; rw [List.append_eq_nil_iff] at h; exact absurd h.1 (List.cons_ne_nil _ _)) rfl) db1 hf1
  refine ⟨db1, db2, k, k', h1, h2, fun hc => ?_⟩
  have hi1 : Inv H db1 := by have := (isPuts_putData table H (exReads n)).grow {}; rw [h1] at this; exact this.inv (inv_empty H [])
  have hi2 : Inv H db2 := by have := (isPuts_putData table H (exReads' n)).grow db1; rw [h2] at this; exact this.inv hi1
  obtain ⟨ws, p, a1, a2, a3, a4⟩ := wrote_putData table H _ _ _ _ h1
  obtain ⟨ws', p', b1, b2, b3, b4⟩ := wrote_putData table H _ _ _ _ h2
  have s1 := starts (table := table) (evs := exReads n) (t := []) hzl (a := 1) rfl (by simp) (.inl rfl) n [] (.inl rfl) (by simp [exReads]) rfl p
  have s2 := starts (table := table) (evs := exReads' n) (t := [0]) hsl (a := 0) rfl (by simp) (.inr rfl) n [.data [0]] (.inr ⟨0, rfl⟩) rfl rfl p'
  refine ⟨(Spec.blobs ws').filter (fun d => d ≠ []), ?_, fun d hd => ?_⟩
  · have hcc := chunks_content table (exReads' n)
    have : ∀ l : List Bytes, (l.filter (fun d => d ≠ [])).flatten = l.flatten := by
      intro l
      induction l with
      | nil => rfl
      | cons c l ih =>
        rw [List.filter_cons]
        by_cases hc : c = []
        · simpa [hc] using ih
        · rw [if_pos (by simpa using hc), List.flatten_cons, List.flatten_cons, ih]
    rw [this]
    rcases p' with e | ⟨e, e'⟩ <;> rw [e]
    · simpa using hcc
    · rw [e', List.append_nil] at hcc; exact hcc
  · simp only [List.mem_filter, decide_eq_true_eq] at hd
    obtain ⟨hdm, hne⟩ := hd
    obtain ⟨w, hw, hwd⟩ := mem_blobs hdm (fun w hw => (b1 w hw).1)
    obtain ⟨r, hr, e⟩ := List.mem_map.mp (b1 w hw).2.1
    have hrh : r.2 = w := by
      refine hc _ (hi2.rows r hr).2 _ ?_ ?_
      · exact (b1 w hw).2.2
      · have := (hi2.rows r hr).1
        rw [e] at this
        exact (asDbKey_inj this).symm
    refine ⟨r, hr, fun hr1 => ?_, hrh ▸ hwd⟩
    rcases a4 r hr1 with h | h
    · simp at h
    · have m1 := s1 d (mem_blobs_of h (hrh ▸ hwd)) hne
      have m2 := s2 d hdm hne
      rw [m1] at m2
      exact absurd m2 (by decide)

/-! ### Cases -/

/-- A table with which the hash of a long run of ones is `-2 ^ 52`, and 0 after a two. -/
def exGear : UInt8 → BitVec 64 := fun b => if b = 1 then 0x10000000000000#64 else if b = 2 then 0x20000000000000#64 else 0#64

theorem exGear_ones (k : Nat) : Spec.gear exGear 0#64 (List.replicate (12 + k) 1) = 0xfff0000000000000#64 := by
  rw [← List.replicate_append_replicate, gear_append]
  have : Spec.gear exGear 0#64 (List.replicate 12 1) = 0xfff0000000000000#64 := by decide
  rw [this]
  induction k with
  | zero => rfl
  | succ k ih =>
    rw [List.replicate_succ]
    show Spec.gear exGear (2 * 0xfff0000000000000#64 + exGear 1) (List.replicate k 1) = _
    have : 2 * 0xfff0000000000000#64 + exGear 1 = 0xfff0000000000000#64 := by decide
    rw [this, ih]

/-- A landmark. -/
theorem exLandmark {n : Nat} (hn : n = 32819) : Spec.Landmark exGear (List.replicate (12 + n) 1 ++ [2]) (12 + n + 1) where
  inside := by rw [List.length_append, List.length_replicate, List.length_singleton]; omega
  here := by
    rw [List.take_of_length_le (by rw [List.length_append, List.length_replicate, List.length_singleton]; omega), gear_append, exGear_ones]
    decide
  alone := by
    intro q h1 h2
    obtain ⟨j, rfl⟩ := Nat.le.dest (show 12 ≤ q by omega)
    rw [List.take_append_of_le_length (by rw [List.length_replicate]; omega), List.take_replicate, Nat.min_eq_left (by omega), exGear_ones]
    decide

/-- The hypotheses of `C73_edit`: a file of 32833 bytes, and the same with the first byte changed, both stored. -/
example (H : Bytes → Key) : ∃ (evs evs' : List ReadEv) (pre old new suf : Bytes) (p : Nat) (db db1 db2 : Db) (k k' : Key), old ≠ new ∧ Spec.smallReads evs ∧ Spec.smallReads evs' ∧
    Spec.delivered evs = pre ++ old ++ suf ∧ Spec.delivered evs' = pre ++ new ++ suf ∧ Spec.Landmark exGear suf p ∧ Inv H db ∧
    putData exGear H evs db = (.ok k, db1) ∧ putData exGear H evs' db1 = (.ok k', db2) := by
  have hr : ∀ n, 0 < n → List.replicate n (1 : UInt8) ≠ [] := by intro n h h'; have := congrArg List.length h'; rw [List.length_replicate] at this; exact absurd this (by simpa using by omega)
  obtain ⟨n, hn⟩ : ∃ n, n = 32819 := ⟨_, rfl⟩
  obtain ⟨m, hm⟩ : ∃ m, 12 + n = 12000 + m := ⟨n - 11988, by omega⟩
  obtain ⟨l, hl⟩ : ∃ l, l = 12000 := ⟨_, rfl⟩
  rw [← hl] at hm
  have hd : ∀ b : UInt8, Spec.delivered [.data [b], .data (List.replicate l 1), .data (List.replicate m 1), .data [2]] = [] ++ [b] ++ (List.replicate (12 + n) 1 ++ [2]) := by
    intro b
    rw [hm, ← List.replicate_append_replicate]
    simp only [Spec.delivered, hr l (by omega), hr m (by omega), if_false, List.cons_ne_nil, List.append_nil, List.nil_append, List.append_assoc]
  have hf : ∀ b : UInt8, Spec.readFails [.data [b], .data (List.replicate l 1), .data (List.replicate m 1), .data [2]] = false := by
    intro b
    simp only [Spec.readFails, ite_self]
  have hs : ∀ b : UInt8, Spec.smallReads [.data [b], .data (List.replicate l 1), .data (List.replicate m 1), .data [2]] := by
    intro b
    refine .inr ⟨by simp, .inr ⟨by rw [List.length_replicate]; omega, .inr ⟨by rw [List.length_replicate]; omega, .inr ⟨by simp, trivial⟩⟩⟩⟩
  have hlen : ∀ b : UInt8, ([] ++ [b] ++ (List.replicate (12 + n) 1 ++ [2])).length < 2 ^ 64 := by
    intro b
    simp only [List.length_append, List.length_nil, List.length_singleton, List.length_replicate]
    omega
  obtain ⟨k, db1, h1, hf1, _⟩ := tot_putData exGear H _ (by rw [hd 5]; exact hlen 5) (hf 5) {} rfl
  obtain ⟨k', db2, h2, _, _⟩ := tot_putData exGear H _ (by rw [hd 6]; exact hlen 6) (hf 6) db1 hf1
  exact ⟨_, _, [], [5], [6], _, _, {}, db1, db2, k, k', by decide, hs 5, hs 6, hd 5, hd 6, exLandmark hn, inv_empty H [], h1, h2⟩
end Snap.Props
