import Verif.Lemmas.FileMore
import Verif.Props.Store
/-! Properties C24–C28 (file contents) and the reading part of C23. -/
namespace Snap.Props
open Snap
set_option linter.unusedSectionVars false
variable [Serde] [LawfulSerde]

/-- Reading `key` into an in-memory sink gives exactly `c`, for every recursion limit of at least 6. -/
def ReadsBack (db : Db) (key : Key) (c : Bytes) : Prop := ∀ fuel, 6 ≤ fuel → readData db fuel key [] = (.ok (), c)

theorem readsBack_unique {db : Db} {k : Key} {c c' : Bytes} (h : ReadsBack db k c) (h' : ReadsBack db k c') : c = c' := by
  have := h 6 (by omega)
  rw [h' 6 (by omega)] at this
  simpa using this.symm

/-! ### C23 (reading part) -/

/-- Reading an object of unknown type panics with nothing written. -/
theorem C23_read_panics (db : Db) (fuel : Nat) (k : Key) (o : Object) (h : getObj db k = .ok o) (ht : o.objtype = .unknown) (out : Bytes) :
    readData db (fuel + 1) k out = (.panic, out) := by
  rw [readData, readDataTo_succ db _ fuel k h, ht]; rfl

example : @getObj Subset.serde (putObj exH ⟨[1], [], .unknown⟩ {}).2 (exH ((⟨[1], [], .unknown⟩ : Object).toCbor.enc)) = .ok ⟨[1], [], .unknown⟩ := by
  decide

/-! ### C24 -/

/-- Full statement of C24. -/
def C24 (table : UInt8 → BitVec 64) : Prop :=
  ∀ (H : Bytes → Key) (evs : List ReadEv) (db db' : Db) (k : Key), Inv H db → putData table H evs db = (.ok k, db') → NoColl H db' →
    ReadsBack db' k (Spec.delivered evs)

/-- For every schedule: what is read back is the content, or the content without a prefix of at least 32768 bytes; the latter exactly when the nodes on
the top level are left behind with an empty level below (`chunks`: the cuts made for this schedule). -/
theorem C24_exact_condition (table : UInt8 → BitVec 64) (H : Bytes → Key) (evs : List ReadEv) (db db' : Db) (k : Key)
    (hi : Inv H db) (hp : putData table H evs db = (.ok k, db')) (hc : NoColl H db') :
    (ReadsBack db' k (Spec.delivered evs) ↔ ¬ Spec.Spilled ((chunks table evs).1.map Prod.snd)) ∧
    ∃ lost kept, Spec.delivered evs = lost ++ kept ∧ ReadsBack db' k kept ∧ (lost = [] ∨ 32768 ≤ lost.length) := by
  obtain ⟨n, hn, lost, kept, he, hd, h1, h2⟩ := putData_ok hp hi hc
  have hr : ReadsBack db' k kept := fun fuel hf => by have := hd.read fuel (by omega) []; simpa using this
  refine ⟨⟨?_, ?_⟩, lost, kept, he, hr, ?_⟩
  · intro hb hs
    have := readsBack_unique hb hr
    rw [he] at this
    have hl := congrArg List.length this
    have := h1 hs
    rw [List.length_append] at hl
    omega
  · intro hs
    rw [he, h2 hs, List.nil_append]; exact hr
  · by_cases hs : Spec.Spilled ((chunks table evs).1.map Prod.snd)
    · exact .inr (h1 hs)
    · exact .inl (h2 hs)

/-- The same for readers returning at most 32768 bytes at a time, with the cuts described by the specification. -/
theorem C24_exact_condition_small_reads (table : UInt8 → BitVec 64) (H : Bytes → Key) (evs : List ReadEv) (hsm : Spec.smallReads evs) (db db' : Db) (k : Key)
    (hi : Inv H db) (hp : putData table H evs db = (.ok k, db')) (hc : NoColl H db') :
    ReadsBack db' k (Spec.delivered evs) ↔ ¬ Spec.Spilled ((Spec.cuts table 0#64 [] (Spec.delivered evs)).1.map Prod.snd) := by
  have := (C24_exact_condition table H evs db db' k hi hp hc).1
  rwa [chunks_small table evs hsm] at this

/-- Contents shorter than one chunk are always read back exactly. -/
theorem C24_short_contents (table : UInt8 → BitVec 64) (H : Bytes → Key) (evs : List ReadEv) (hl : (Spec.delivered evs).length < 32768) (db db' : Db) (k : Key)
    (hi : Inv H db) (hp : putData table H evs db = (.ok k, db')) (hc : NoColl H db') : ReadsBack db' k (Spec.delivered evs) := by
  rw [(C24_exact_condition table H evs db db' k hi hp hc).1]
  have hn : (chunks table evs).1 = [] := by
    apply List.eq_nil_of_length_eq_zero
    have := chunks_count table evs
    omega
  rw [hn]
  rintro ⟨h, _⟩
  exact h rfl

/-- Contents below 16 MiB are read back exactly if the hash at no cut has 42 or more leading zero bits. -/
theorem C24_no_deep_cut (table : UInt8 → BitVec 64) (H : Bytes → Key) (evs : List ReadEv) (hl : (Spec.delivered evs).length < 2 ^ 24)
    (hz : ∀ c ∈ (chunks table evs).1, 2 ^ 22 ≤ c.2.toNat) (db db' : Db) (k : Key)
    (hi : Inv H db) (hp : putData table H evs db = (.ok k, db')) (hc : NoColl H db') : ReadsBack db' k (Spec.delivered evs) := by
  rw [(C24_exact_condition table H evs db db' k hi hp hc).1]
  rintro ⟨h, _⟩
  apply h
  apply waiting_no_spill
  · have := chunks_count table evs
    simp; omega
  · intro h hh
    obtain ⟨c, hc, rfl⟩ := List.mem_map.mp hh
    exact hz c hc

/-- put_data succeeds when neither the reader nor a write fails. -/
theorem C24_succeeds (table : UInt8 → BitVec 64) (H : Bytes → Key) (evs : List ReadEv) (db : Db) (hl : (Spec.delivered evs).length < 2 ^ 64)
    (hr : Spec.readFails evs = false) (hf : db.faults = []) : ∃ k db', putData table H evs db = (.ok k, db') := by
  obtain ⟨k, db', h, _⟩ := tot_putData table H evs hl hr db hf
  exact ⟨k, db', h⟩

/-- C24 is false: for every table with an even and an odd entry there is a content of 32768 bytes that every reader delivering it, on every healthy store and with
every hash function, puts successfully and that reads back as the empty file. -/
theorem C24_counterexample (table : UInt8 → BitVec 64) (a b : UInt8) (ha : (table a).toNat % 2 = 0) (hb : (table b).toNat % 2 = 1) :
    ∃ c : Bytes, c.length = 32768 ∧ ∀ (H : Bytes → Key) (evs : List ReadEv) (db : Db), Spec.delivered evs = c → Spec.readFails evs = false →
      Inv H db → db.faults = [] → ∃ k db', putData table H evs db = (.ok k, db') ∧ (NoColl H db' → ReadsBack db' k []) := by
  obtain ⟨c, hl, hg⟩ := exists_content ha hb 0#64
  refine ⟨c, hl, ?_⟩
  intro H evs db hd hr hi hf
  obtain ⟨k, db', hp⟩ := C24_succeeds table H evs db (by rw [hd, hl]; omega) hr hf
  refine ⟨k, db', hp, fun hc => ?_⟩
  obtain ⟨n, hn, lost, kept, he, hden, h1, h2⟩ := putData_ok hp hi hc
  -- the reads that matter are small because the content is
  have hch : (chunks table evs).1.map Prod.snd = [0#64] := by
    have hsm : Spec.cuts table 0#64 [] c = ([(c, 0#64)], []) := by
      rw [cuts_exact table c hl (by rw [hg]; decide), hg]
    rw [chunks_small table evs (smallReads_of_short (by rw [hd, hl]; omega)), hd, hsm]; rfl
  rw [hch] at h1
  have := h1 (spilled_single (by decide))
  have hlen := congrArg List.length he
  rw [hd, hl, List.length_append] at hlen
  have hk : kept = [] := List.eq_nil_of_length_eq_zero (by omega)
  subst hk
  intro fuel hfu
  have := hden.read fuel (by omega) []
  simpa using this

/-- Hence the full statement fails for every such table. -/
theorem C24_false_counterexample (table : UInt8 → BitVec 64) (a b : UInt8) (ha : (table a).toNat % 2 = 0) (hb : (table b).toNat % 2 = 1) :
    ¬ C24 table := by
  intro hC
  obtain ⟨c, hl, hg⟩ := exists_content ha hb 0#64
  let K : UInt8 → Key := fun i => ⟨List.replicate 32 i, by simp⟩
  have hKd : ∀ i j, K i = K j → i = j := by
    intro i j h
    have := congrArg Key.hash h
    simpa [K] using this
  have enc : ∀ o : Object, o.data.length < 2 ^ 64 → o.keys.length < 2 ^ 64 → ∃ w, o.encode = .ok w := fun o h1 h2 => o.encode_ok_iff.mpr ⟨h1, h2⟩
  obtain ⟨w0, h0⟩ := enc (blobObj c) (by simp [blobObj, hl]) (by simp [blobObj])
  obtain ⟨w1, h1⟩ := enc (treeObj [K 0]) (by simp [treeObj]) (by simp [treeObj])
  obtain ⟨w2, h2⟩ := enc (treeObj [K 1]) (by simp [treeObj]) (by simp [treeObj])
  obtain ⟨w3, h3⟩ := enc (treeObj [K 2]) (by simp [treeObj]) (by simp [treeObj])
  obtain ⟨w4, h4⟩ := enc (treeObj [K 3]) (by simp [treeObj]) (by simp [treeObj])
  obtain ⟨w5, h5⟩ := enc (blobObj []) (by simp [blobObj]) (by simp [blobObj])
  have hcn : c ≠ [] := by intro e; rw [e] at hl; simp at hl
  have ne : ∀ {o o' : Object} {w w' : Bytes}, o.encode = .ok w → o'.encode = .ok w' → o ≠ o' → w ≠ w' := by
    intro o o' w w' e e' hne h; subst h; exact hne (Object.encode_inj e e')
  have hKne : ∀ i j, i ≠ j → K i ≠ K j := fun i j h e => h (hKd i j e)
  have n01 : w0 ≠ w1 := ne h0 h1 (by simp [blobObj, treeObj])
  have n02 : w0 ≠ w2 := ne h0 h2 (by simp [blobObj, treeObj])
  have n03 : w0 ≠ w3 := ne h0 h3 (by simp [blobObj, treeObj])
  have n04 : w0 ≠ w4 := ne h0 h4 (by simp [blobObj, treeObj])
  have n05 : w0 ≠ w5 := ne h0 h5 (by simpa [blobObj] using hcn)
  have n12 : w1 ≠ w2 := ne h1 h2 (by simpa [treeObj] using hKne 0 1 (by decide))
  have n13 : w1 ≠ w3 := ne h1 h3 (by simpa [treeObj] using hKne 0 2 (by decide))
  have n14 : w1 ≠ w4 := ne h1 h4 (by simpa [treeObj] using hKne 0 3 (by decide))
  have n15 : w1 ≠ w5 := ne h1 h5 (by simp [blobObj, treeObj])
  have n23 : w2 ≠ w3 := ne h2 h3 (by simpa [treeObj] using hKne 1 2 (by decide))
  have n24 : w2 ≠ w4 := ne h2 h4 (by simpa [treeObj] using hKne 1 3 (by decide))
  have n25 : w2 ≠ w5 := ne h2 h5 (by simp [blobObj, treeObj])
  have n34 : w3 ≠ w4 := ne h3 h4 (by simpa [treeObj] using hKne 2 3 (by decide))
  have n35 : w3 ≠ w5 := ne h3 h5 (by simp [blobObj, treeObj])
  have n45 : w4 ≠ w5 := ne h4 h5 (by simp [blobObj, treeObj])
  let H : Bytes → Key := fun x => if x = w0 then K 0 else if x = w1 then K 1 else if x = w2 then K 2 else if x = w3 then K 3 else if x = w4 then K 4 else K 5
  have H0 : H w0 = K 0 := by simp [H]
  have H1 : H w1 = K 1 := by simp [H, n01.symm]
  have H2 : H w2 = K 2 := by simp [H, n02.symm, n12.symm]
  have H3 : H w3 = K 3 := by simp [H, n03.symm, n13.symm, n23.symm]
  have H4 : H w4 = K 4 := by simp [H, n04.symm, n14.symm, n24.symm, n34.symm]
  have H5 : H w5 = K 5 := by simp [H, n05.symm, n15.symm, n25.symm, n35.symm, n45.symm]
  have hch : chunks table [.data c] = ([(c, 0#64)], [], false) := by
    have hd : Spec.delivered [.data c] = c := by simp [Spec.delivered, hcn]
    rw [chunks_small table _ (smallReads_of_short (by rw [hd, hl]; omega)), hd, cuts_exact table c hl (by rw [hg]; decide), hg]
    simp [Spec.readFails]
  obtain ⟨db', hp, hh⟩ := putData_single (H := H) (db := {}) rfl hch h0 (by rw [H0]; exact h1) (by rw [H1]; exact h2) (by rw [H2]; exact h3) (by rw [H3]; exact h4) h5
  have hi : Inv H {} := reachPut_inv ⟨[], [], by simp, rfl⟩
  have hc : NoColl H db' := by
    intro x hx y hy hxy
    rw [hh] at hx hy
    simp only [List.mem_cons, List.not_mem_nil, or_false] at hx hy
    rcases hx with rfl | rfl | rfl | rfl | rfl | rfl <;> rcases hy with rfl | rfl | rfl | rfl | rfl | rfl <;> first | rfl | skip
    all_goals
      exfalso
      simp only [H0, H1, H2, H3, H4, H5] at hxy
      have := hKd _ _ hxy
      revert this; decide
  have hread := hC H [.data c] {} db' _ hi hp hc
  rw [(C24_exact_condition table H [.data c] {} db' _ hi hp hc).1, hch] at hread
  exact hread (spilled_single (by simp))

/-- tables with an even and an odd entry exist; a run meeting the hypotheses of the positive theorems -/
example : ((fun b : UInt8 => BitVec.ofNat 64 b.toNat) 2).toNat % 2 = 0 ∧ ((fun b : UInt8 => BitVec.ofNat 64 b.toNat) 3).toNat % 2 = 1 := by decide
example (table : UInt8 → BitVec 64) : ∃ k db', putData table exH [.data [1, 2], .interrupted, .data [3]] {} = (.ok k, db') ∧ NoColl exH db' ∧ Inv exH {} ∧
    Spec.delivered [.data [1, 2], .interrupted, .data [3]] = [1, 2, 3] := by
  have hch : chunks table [.data [1, 2], .interrupted, .data [3]] = ([], [1, 2, 3], false) := by
    rw [chunks_small table _ (smallReads_of_short (by simp [Spec.delivered])), show Spec.delivered [.data [1, 2], .interrupted, .data [3]] = [1, 2, 3] from rfl,
      cuts_short table _ _ _ (by simp)]
    rfl
  refine ⟨_, _, by rw [putData_eq, hch]; rfl, ?_, reachPut_inv ⟨[], [], by simp, rfl⟩, rfl⟩
  intro x hx y hy _
  simp at hx hy; rw [hx, hy]

/-! ### C25 -/

/-- Readers returning at most 32768 bytes at a time: keys, stored objects and outcome depend only on the bytes delivered and on whether the reader failed. -/
theorem C25_small_reads (table : UInt8 → BitVec 64) (H : Bytes → Key) (evs evs' : List ReadEv) (hs : Spec.smallReads evs) (hs' : Spec.smallReads evs')
    (hd : Spec.delivered evs = Spec.delivered evs') (hf : Spec.readFails evs = Spec.readFails evs') (db : Db) :
    putData table H evs db = putData table H evs' db := by
  rw [putData_eq, putData_eq, chunks_small table evs hs, chunks_small table evs' hs', hd, hf]

/-- Contents of at most 32768 bytes: any two readers. -/
theorem C25_short_contents (table : UInt8 → BitVec 64) (H : Bytes → Key) (evs evs' : List ReadEv)
    (hl : (Spec.delivered evs).length ≤ 32768) (hd : Spec.delivered evs = Spec.delivered evs') (hf : Spec.readFails evs = Spec.readFails evs') (db : Db) :
    putData table H evs db = putData table H evs' db :=
  C25_small_reads table H evs evs' (smallReads_of_short hl) (smallReads_of_short (by rw [← hd]; exact hl)) hd hf db

example : Spec.smallReads [.data [1, 2], .data [3]] ∧ Spec.smallReads [.data [1], .interrupted, .data [2, 3], .data []] ∧
    Spec.delivered [.data [1, 2], .data [3]] = Spec.delivered [.data [1], .interrupted, .data [2, 3], .data []] := by
  simp [Spec.smallReads, Spec.delivered]

/-- C25 is false in general: for every table with an even and an odd entry there is a content of 32769 bytes that gets different keys when read byte by byte
and when read at once (on the same healthy store, if no hash collision happens). -/
theorem C25_counterexample (table : UInt8 → BitVec 64) (a b : UInt8) (ha : (table a).toNat % 2 = 0) (hb : (table b).toNat % 2 = 1) :
    ∃ c : Bytes, c.length = 32769 ∧ Spec.delivered (c.map fun x => .data [x]) = c ∧ Spec.delivered [.data c] = c ∧
      ∀ (H : Bytes → Key) (db : Db), Inv H db → db.faults = [] → ∃ k1 db1 k2 db2, putData table H (c.map fun x => .data [x]) db = (.ok k1, db1) ∧
        putData table H [.data c] db1 = (.ok k2, db2) ∧ (NoColl H db2 → k1 ≠ k2) := by
  obtain ⟨t, ht, ht2⟩ := two_steps (table a)
  obtain ⟨p, hl, hg⟩ := exists_content ha hb t
  have hlc : (p ++ [a]).length = 32769 := by rw [List.length_append, hl]; rfl
  have hcn : p ++ [a] ≠ [] := by simp
  have hd1 : ∀ c : Bytes, Spec.delivered (c.map fun x => .data [x]) = c := by
    intro c
    induction c with
    | nil => rfl
    | cons x xs ih => simp [Spec.delivered, ih]
  have hr1 : ∀ c : Bytes, Spec.readFails (c.map fun x => .data [x]) = false := by
    intro c
    induction c with
    | nil => rfl
    | cons x xs ih => simp [Spec.readFails, ih]
  have hs1 : ∀ c : Bytes, Spec.smallReads (c.map fun x => .data [x]) := by
    intro c
    induction c with
    | nil => trivial
    | cons x xs ih => exact .inr ⟨by simp, ih⟩
  have hd2 : Spec.delivered [.data (p ++ [a])] = p ++ [a] := by simp [Spec.delivered]
  refine ⟨p ++ [a], hlc, hd1 _, hd2, ?_⟩
  intro H db hi hf
  obtain ⟨k1, db1, hp1, hf1, _⟩ := tot_putData table H ((p ++ [a]).map fun x => .data [x]) (by rw [hd1, hlc]; omega) (hr1 _) db hf
  obtain ⟨k2, db2, hp2, _⟩ := tot_putData table H [.data (p ++ [a])] (by rw [hd2, hlc]; omega) (by simp [Spec.readFails]) db1 hf1
  refine ⟨k1, db1, k2, db2, hp1, hp2, fun hc hk => ?_⟩
  -- read byte by byte there is no cut
  have hch1 : chunks table ((p ++ [a]).map fun x => .data [x]) = ([], p ++ [a], false) := by
    rw [chunks_small table _ (hs1 _), hd1, hr1, cuts_none table p a hl (by rw [hg]; exact ht) (by rw [hg]; exact ht2)]
  have hK1 : KeyOf H (fun o => o = blobObj (p ++ [a])) db1 k1 := by
    rw [putData_eq, hch1] at hp1
    exact keyOf_putObj (S := fun o => o = blobObj (p ++ [a])) rfl hp1
  -- read at once no chunk is the whole content
  have hK2 := keyOf_putData (S := fun o => o ≠ blobObj (p ++ [a])) (by simp [treeObj, blobObj]) (evs := [.data (p ++ [a])])
    (by
      intro x hx e
      have hx1 : x.1 = p ++ [a] := by simpa [blobObj] using e
      have := chunks_one_read table (p ++ [a]) (by rw [hlc]; omega)
      have := this.1 x hx
      rw [hx1, hlc] at this; omega)
    (by
      intro e
      have hx1 : (chunks table [.data (p ++ [a])]).2.1 = p ++ [a] := by simpa [blobObj] using e
      have := (chunks_one_read table (p ++ [a]) (by rw [hlc]; omega)).2
      rw [hx1] at this; omega) hp2
  obtain ⟨o1, w1, e1, r1, m1, rfl⟩ := hK1
  obtain ⟨o2, w2, e2, r2, m2, s2⟩ := hK2
  have hg2 := (isPuts_putData table H [.data (p ++ [a])]).grow db1
  rw [hp2] at hg2
  have : w1 = w2 := hc w1 (hg2.hashed.subset m1) w2 m2 (by rw [← r1, ← r2, hk])
  subst this
  exact s2 (Object.encode_inj e2 e1)

/-! ### C26 -/

/-- Everything put_data writes, in order (most recent first, the ghost list `hashed`), whatever the outcome: while streaming only blobs of at least 32768 bytes
and trees of 1 to 512 keys; at the end at most one blob (any size), at most four trees of at most 512 keys, at most one top node. -/
theorem C26_sizes (table : UInt8 → BitVec 64) (H : Bytes → Key) (evs : List ReadEv) (db : Db) :
    ∃ top trees blob streamed, (putData table H evs db).2.hashed = top ++ trees ++ blob ++ streamed ++ db.hashed ∧
      top.length ≤ 1 ∧ trees.length ≤ 4 ∧ blob.length ≤ 1 ∧
      (∀ w ∈ top, ∃ ks, (⟨[], ks, .fileBlobTree⟩ : Object).encode = .ok w) ∧
      (∀ w ∈ trees, ∃ ks, (⟨[], ks, .fileBlobTree⟩ : Object).encode = .ok w ∧ ks.length ≤ 512) ∧
      (∀ w ∈ blob, ∃ d, (⟨d, [], .fileBlob⟩ : Object).encode = .ok w) ∧
      ∀ w ∈ streamed, (∃ d, (⟨d, [], .fileBlob⟩ : Object).encode = .ok w ∧ 32768 ≤ d.length) ∨
        ∃ ks, (⟨[], ks, .fileBlobTree⟩ : Object).encode = .ok w ∧ 1 ≤ ks.length ∧ ks.length ≤ 512 := by
  rw [putData_eq]
  have hbm : blobMax = 32768 := by decide
  have h1 := logs_addChunks H (chunks table evs).1 (fun _ => []) (fun c hc => by have := scan_big table 0#64 [] [] evs c hc; rwa [hbm] at this) (by simp)
  have h2 : Logs (addChunks H (chunks table evs).1 (fun _ => []) >>= fun kb => if (chunks table evs).2.2 then SM.throw .io else putFinish H (chunks table evs).2.1 kb)
      (fun ws => ∃ fin blob st, ws = fin ++ blob ++ st ∧ FinalTrees 4 fin ∧ blob.length ≤ 1 ∧ AllObj (fun x => ∃ c, x = blobObj c) blob ∧ AllObj Streamed st) (fun _ => True) := by
    have hnil : FinalTrees 4 [] := ⟨[], [], rfl, by simp, by simp, AllObj.nil, AllObj.nil⟩
    refine Logs.bind (L2 := fun ws => ∃ fin blob, ws = fin ++ blob ∧ FinalTrees 4 fin ∧ blob.length ≤ 1 ∧ AllObj (fun x => ∃ c, x = blobObj c) blob) h1 (fun kb hk => ?_) ?_ ?_
    · split
      · exact Logs.throw ⟨[], [], rfl, hnil, by simp, AllObj.nil⟩
      · exact logs_putFinish H _ kb hk
    · intro ws h; exact ⟨[], [], ws, rfl, hnil, by simp, AllObj.nil, h⟩
    · rintro st ws hst ⟨fin, blob, rfl, h1, h2, h3⟩
      exact ⟨fin, blob, st, rfl, h1, h2, h3, hst⟩
  obtain ⟨⟨ws, he, fin, blob, st, rfl, ⟨top, trees, rfl, a1, a2, a3, a4⟩, b1, b2, b3⟩, _⟩ := h2 db
  refine ⟨top, trees, blob, st, he, a1, a2, b1, ?_, ?_, ?_, ?_⟩
  · intro w hw; obtain ⟨o, ho, ks, rfl⟩ := a3 w hw; exact ⟨ks, ho⟩
  · intro w hw; obtain ⟨o, ho, ks, rfl, hk⟩ := a4 w hw; exact ⟨ks, ho, hk⟩
  · intro w hw; obtain ⟨o, ho, c, rfl⟩ := b2 w hw; exact ⟨c, ho⟩
  · intro w hw
    obtain ⟨o, ho, ⟨c, rfl, hc⟩ | ⟨ks, rfl, hk⟩⟩ := b3 w hw
    · exact .inl ⟨c, ho, hc⟩
    · exact .inr ⟨ks, ho, hk⟩

/-- streaming writes do happen: every content of 32768 bytes whose hash is small is streamed -/
example (table : UInt8 → BitVec 64) (c : Bytes) (hl : c.length = 32768) (hh : (Spec.gear table 0#64 c).toNat < 2 ^ 51) :
    (chunks table [.data c]).1 = [(c, Spec.gear table 0#64 c)] := by
  have hd : Spec.delivered [.data c] = c := by simp [Spec.delivered]
  rw [chunks_small table _ (smallReads_of_short (by rw [hd, hl]; omega)), hd, cuts_exact table c hl hh]

/-! ### C27 -/

/-- Interrupted reads change nothing: not the key, not the stores, not the error. -/
theorem C27_interrupted (table : UInt8 → BitVec 64) (H : Bytes → Key) (evs : List ReadEv) (db : Db) :
    putData table H evs db = putData table H (evs.filter (· != .interrupted)) db := by
  have : chunks table (evs.filter (· != .interrupted)) = chunks table evs := scan_filter table _ _ _ evs
  rw [putData_eq, putData_eq, this]

/-- A failing reader never leads to a key. -/
theorem C27_failing_reader_no_key (table : UInt8 → BitVec 64) (H : Bytes → Key) (evs : List ReadEv) (db : Db) (hr : Spec.readFails evs = true) (k : Key) :
    (putData table H evs db).1 ≠ .ok k := by
  intro h
  have h' : putData table H evs db = (.ok k, (putData table H evs db).2) := by rw [← h]
  rw [putData_eq] at h'
  obtain ⟨kb, db1, _, h2⟩ := bind_ok h'
  rw [chunks, scan_fails, hr] at h2
  simp at h2

/-- On a healthy store the reader's error is what put_data returns. -/
theorem C27_failing_reader_error (table : UInt8 → BitVec 64) (H : Bytes → Key) (evs : List ReadEv) (db : Db) (hr : Spec.readFails evs = true)
    (hf : db.faults = []) (hl : (Spec.delivered evs).length < 2 ^ 64) : (putData table H evs db).1 = .err .io := by
  obtain ⟨kb, db1, h1, _⟩ := addChunks_total table H evs hl db hf
  rw [putData_eq, SM.bind_apply, h1]
  simp [chunks, scan_fails, hr]

example : Spec.readFails [.data [1], .interrupted, .error, .data [2]] = true ∧ Spec.readFails [.data [1], .data [], .error] = false := by decide

/-! ### C28 -/

/-- Storing the same data again returns the same key and leaves the tables as they are; even if a write fails the second time, the tables are unchanged. -/
theorem C28_again (table : UInt8 → BitVec 64) (H : Bytes → Key) (evs : List ReadEv) (db db' : Db) (k : Key) (hp : putData table H evs db = (.ok k, db')) :
    (putData table H evs db').2.data = db'.data ∧ (putData table H evs db').2.state = db'.state ∧ (putData table H evs db').2.reflog = db'.reflog ∧
    ((putData table H evs db').1 = .ok k ∨ (putData table H evs db').1 = .err .sqlite) ∧
    (db'.faults = [] → (putData table H evs db').1 = .ok k) := by
  have hg := (isPuts_putData table H evs).grow db'
  obtain ⟨ws, r, hx⟩ := isPuts_putData table H evs
  have hk : r = .ok k := by
    have := execPuts_result H ws r db
    rw [← hx, hp] at this
    rcases this with h | h
    · exact h.symm
    · simp at h
  subst hk
  rw [hx] at hp
  have hpres := execPuts_present H ws _ k db db' hp
  refine ⟨?_, hg.state, hg.reflog, ?_, ?_⟩
  · rw [hx]; exact execPuts_again H ws _ db' hpres
  · rw [hx]; exact execPuts_result H ws _ db'
  · intro hf; rw [hx]; exact (execPuts_nofault H ws _ db' hf).1

example (table : UInt8 → BitVec 64) (H : Bytes → Key) : ∃ k db', putData table H [.data [1, 2, 3]] {} = (.ok k, db') ∧ db'.faults = [] :=
  let ⟨k, db', h, hf, _⟩ := tot_putData table H [.data [1, 2, 3]] (by simp [Spec.delivered]) rfl {} rfl
  ⟨k, db', h, hf⟩

end Snap.Props
