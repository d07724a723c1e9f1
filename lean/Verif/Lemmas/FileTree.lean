import Verif.Lemmas.File
/-! The chunk tree built by put_data and what read_data gives for it. -/
namespace Snap
set_option linter.unusedSectionVars false
variable [Serde] [LawfulSerde]

theorem isPuts_cascade (H : Bytes → Key) (z : Nat) (os : List Nat) (kb : KeyBufs) : IsPuts H (cascade H z os kb) := by
  induction os generalizing kb with
  | nil => exact isPuts_pure H _
  | cons o os ih =>
    unfold cascade
    exact isPuts_ite (isPuts_bind (isPuts_putObj H _) fun _ => ih _) (isPuts_pure H _)

theorem isPuts_addChunks (H : Bytes → Key) (cs : List (Bytes × BitVec 64)) (kb : KeyBufs) : IsPuts H (addChunks H cs kb) := by
  induction cs generalizing kb with
  | nil => exact isPuts_pure H _
  | cons c cs ih =>
    obtain ⟨c, h⟩ := c
    exact isPuts_bind (isPuts_putObj H _) fun _ => isPuts_bind (isPuts_cascade H _ _ _) fun _ => ih _

theorem isPuts_finishTree (H : Bytes → Key) (os : List Nat) (kb : KeyBufs) : IsPuts H (finishTree H os kb) := by
  induction os generalizing kb with
  | nil => exact isPuts_putObj H _
  | cons o os ih =>
    unfold finishTree
    refine isPuts_bind (isPuts_putObj H _) fun _ => isPuts_ite ?_ (ih _)
    cases (kb o).getLast? with
    | none => exact isPuts_panic H
    | some k => exact isPuts_pure H k

theorem isPuts_putFinish (H : Bytes → Key) (cur : Bytes) (kb : KeyBufs) : IsPuts H (putFinish H cur kb) := by
  unfold putFinish
  refine isPuts_ite (isPuts_putObj H _) (isPuts_bind (isPuts_ite (isPuts_pure H _) (isPuts_bind (isPuts_putObj H _) fun _ => isPuts_pure H _)) fun _ => isPuts_finishTree H _ _)

theorem isPuts_putData (table : UInt8 → BitVec 64) (H : Bytes → Key) (evs : List ReadEv) : IsPuts H (putData table H evs) := by
  rw [putData_eq]
  exact isPuts_bind (isPuts_addChunks H _ _) fun _ => isPuts_ite (isPuts_throw H _) (isPuts_putFinish H _ _)

/-- The object `k` is a tree of depth `n` whose leaves hold the bytes `c`. -/
def Den (db : Db) : Nat → Key → Bytes → Prop
  | 0, k, c => getObj db k = .ok (blobObj c)
  | n + 1, k, c => ∃ ps : List (Key × Bytes), getObj db k = .ok (treeObj (ps.map Prod.fst)) ∧ (∀ p ∈ ps, Den db n p.1 p.2) ∧ c = (ps.map Prod.snd).flatten

theorem Den.mono {a b : Db} (h : a.data <+: b.data) {n : Nat} {k : Key} {c : Bytes} (hd : Den a n k c) : Den b n k c := by
  induction n generalizing k c with
  | zero => exact getObj_mono h hd
  | succ n ih =>
    obtain ⟨ps, hg, hp, hc⟩ := hd
    exact ⟨ps, getObj_mono h hg, fun p hp' => ih (hp p hp'), hc⟩

theorem readDataTo_succ {σ : Type} (db : Db) (sink : Bytes → SM σ Unit) (fuel : Nat) (key : Key) {obj : Object} (h : getObj db key = .ok obj) :
    readDataTo db sink (fuel + 1) key = match obj.objtype with
    | .fileBlobTree => SM.each (readDataTo db sink fuel) obj.keys
    | .fileBlob => sink obj.data
    | .fsItemFile =>
      match obj.keys with
      | [k] => readDataTo db sink fuel k
      | _ => SM.panic
    | _ => SM.panic := by
  rw [readDataTo, h]; rfl

theorem each_append_list {σ α : Type} (f : α → SM σ Unit) (a b : List α) : SM.each f (a ++ b) = (SM.each f a >>= fun _ => SM.each f b) := by
  induction a with
  | nil => rfl
  | cons x a ih =>
    show (f x >>= fun _ => SM.each f (a ++ b)) = ((f x >>= fun _ => SM.each f a) >>= fun _ => SM.each f b)
    rw [bind_assoc, ih]

/-- Reading a tree writes its leaves one after the other. -/
theorem Den.leaves {db : Db} {n : Nat} {k : Key} {c : Bytes} (hd : Den db n k c) :
    ∃ ls : List Bytes, ls.flatten = c ∧ ∀ (σ : Type) (sink : Bytes → SM σ Unit) (fuel : Nat), n < fuel → readDataTo db sink fuel k = SM.each sink ls := by
  induction n generalizing k c with
  | zero =>
    refine ⟨[c], by simp, fun σ sink fuel hf => ?_⟩
    obtain ⟨f, rfl⟩ : ∃ f, fuel = f + 1 := ⟨fuel - 1, by omega⟩
    rw [readDataTo_succ db sink f k hd]
    show sink c = (sink c >>= fun _ => pure ())
    exact (bind_pure (sink c)).symm
  | succ n ih =>
    obtain ⟨ps, hg, hp, rfl⟩ := hd
    have : ∃ ls : List Bytes, ls.flatten = (ps.map Prod.snd).flatten ∧ ∀ (σ : Type) (sink : Bytes → SM σ Unit) (fuel : Nat), n < fuel →
        SM.each (readDataTo db sink fuel) (ps.map Prod.fst) = SM.each sink ls := by
      clear hg
      induction ps with
      | nil => exact ⟨[], rfl, fun _ _ _ _ => rfl⟩
      | cons p ps ihp =>
        obtain ⟨l1, e1, h1⟩ := ih (hp p (by simp))
        obtain ⟨l2, e2, h2⟩ := ihp (fun q hq => hp q (by simp [hq]))
        refine ⟨l1 ++ l2, by simp [e1, e2], fun σ sink fuel hf => ?_⟩
        rw [each_append_list, ← h1 σ sink fuel hf, ← h2 σ sink fuel hf]
        rfl
    obtain ⟨ls, e, h⟩ := this
    refine ⟨ls, e, fun σ sink fuel hf => ?_⟩
    obtain ⟨f, rfl⟩ : ∃ f, fuel = f + 1 := ⟨fuel - 1, by omega⟩
    rw [readDataTo_succ db sink f k hg]
    exact h σ sink f (by omega)

theorem each_mem (ls : List Bytes) (out : Bytes) : SM.each (fun d => SM.modify (· ++ d)) ls out = (.ok (), out ++ ls.flatten) := by
  induction ls generalizing out with
  | nil => simp [SM.each]; rfl
  | cons l ls ih =>
    show SM.each (fun d => SM.modify (· ++ d)) ls (out ++ l) = _
    rw [ih]; simp

theorem Den.read {db : Db} {n : Nat} {k : Key} {c : Bytes} (hd : Den db n k c) (fuel : Nat) (hf : n < fuel) (out : Bytes) :
    readData db fuel k out = (.ok (), out ++ c) := by
  obtain ⟨ls, rfl, h⟩ := hd.leaves
  unfold readData
  rw [h _ _ fuel hf, each_mem]

/-! ### Levels -/

/-- Content held by a list of nodes. -/
def flat (ps : List (Key × Bytes)) : Bytes := (ps.map Prod.snd).flatten
@[simp] theorem flat_nil : flat [] = [] := rfl
@[simp] theorem flat_append (a b : List (Key × Bytes)) : flat (a ++ b) = flat a ++ flat b := by simp [flat]
@[simp] theorem flat_single (p : Key × Bytes) : flat [p] = p.2 := by simp [flat]

abbrev Levels := Nat → List (Key × Bytes)
def Levels.set (P : Levels) (i : Nat) (v : List (Key × Bytes)) : Levels := fun j => if j = i then v else P j

/-- Content of levels `o`..4, in file order. -/
def upTo (P : Levels) : Nat → Bytes := fun o =>
  flat (P 4) ++ (if o ≤ 3 then flat (P 3) else []) ++ (if o ≤ 2 then flat (P 2) else []) ++ (if o ≤ 1 then flat (P 1) else []) ++ (if o ≤ 0 then flat (P 0) else [])

/-- The key buffers hold the keys of stored nodes with the given contents. -/
structure KbOk (db : Db) (kb : KeyBufs) (P : Levels) : Prop where
  keys : ∀ i, kb i = (P i).map Prod.fst
  den : ∀ i, ∀ p ∈ P i, Den db i p.1 p.2

theorem KbOk.mono {a b : Db} (h : a.data <+: b.data) {kb P} (k : KbOk a kb P) : KbOk b kb P := ⟨k.keys, fun i p hp => (k.den i p hp).mono h⟩

theorem KbOk.push {db : Db} {kb P} (h : KbOk db kb P) {i : Nat} {k : Key} {c : Bytes} (hd : Den db i k c) :
    KbOk db (kb.set i (kb i ++ [k])) (P.set i (P i ++ [(k, c)])) := by
  constructor
  · intro j
    unfold KeyBufs.set Levels.set
    split <;> simp [h.keys]
  · intro j p hp
    unfold Levels.set at hp
    split at hp
    · rename_i e; subst e
      rcases List.mem_append.mp hp with hp | hp
      · exact h.den _ p hp
      · simp at hp; subst hp; exact hd
    · exact h.den _ p hp

theorem KbOk.clear {db : Db} {kb P} (h : KbOk db kb P) (i : Nat) : KbOk db (kb.set i []) (P.set i []) := by
  constructor
  · intro j
    unfold KeyBufs.set Levels.set
    split <;> simp [h.keys]
  · intro j p hp
    unfold Levels.set at hp
    split at hp
    · simp at hp
    · exact h.den _ p hp

/-- Storing the node of level `i`. -/
theorem KbOk.tree {H : Bytes → Key} {db db' : Db} {kb P} (h : KbOk db kb P) {i : Nat} {k : Key} (hi : Inv H db)
    (hp : putObj H (treeObj (kb i)) db = (.ok k, db')) (hc : NoColl H db') : Den db' (i + 1) k (flat (P i)) := by
  have hg := (isPuts_putObj H (treeObj (kb i))).grow db
  rw [hp] at hg
  refine ⟨P i, ?_, fun p hp => (h.den i p hp).mono hg.data, rfl⟩
  rw [← h.keys]
  exact putObj_getObj hi hp hc

/-- Every node holds at least one full chunk. -/
def Big (P : Levels) : Prop := ∀ i, ∀ p ∈ P i, 32768 ≤ p.2.length

theorem Big.flat {P : Levels} (h : Big P) {i : Nat} (hn : P i ≠ []) : 32768 ≤ (flat (P i)).length := by
  cases hp : P i with
  | nil => exact absurd hp hn
  | cons p ps =>
    have := h i p (by rw [hp]; simp)
    simp [Snap.flat, List.map_cons, List.flatten_cons]; omega

theorem Big.push {P : Levels} (h : Big P) (i : Nat) (k : Key) {c : Bytes} (hc : 32768 ≤ c.length) : Big (P.set i (P i ++ [(k, c)])) := by
  intro j p hp
  unfold Levels.set at hp
  split at hp
  · rename_i e; subst e
    rcases List.mem_append.mp hp with hp | hp
    · exact h _ p hp
    · simp at hp; subst hp; exact hc
  · exact h _ p hp

theorem Big.clear {P : Levels} (h : Big P) (i : Nat) : Big (P.set i []) := by
  intro j p hp
  unfold Levels.set at hp
  split at hp
  · simp at hp
  · exact h _ p hp

theorem isRun_cases {o : Nat} (h : o ≤ 4) : List.range' o (4 - o) = if o = 4 then [] else o :: List.range' (o + 1) (4 - (o + 1)) := by
  split
  · subst_vars; rfl
  · rw [show 4 - o = (4 - (o + 1)) + 1 by omega, List.range'_succ]

theorem cascade_ok {H : Bytes → Key} (h : BitVec 64) {o : Nat} (ho : o ≤ 4) {kb kb' : KeyBufs} {P : Levels} {db db' : Db}
    (hr : cascade H (leadingZeros h) (List.range' o (4 - o)) kb db = (.ok kb', db')) (hi : Inv H db) (hc : NoColl H db')
    (hk : KbOk db kb P) (hb : Big P) (hne : P o ≠ []) :
    ∃ P', KbOk db' kb' P' ∧ Big P' ∧ upTo P' 0 = upTo P 0 ∧
      (fun i => (P' i).length) = Spec.promote h (List.range' o (4 - o)) (fun i => (P i).length) := by
  generalize hn : 4 - o = n at hr ⊢
  induction n generalizing o kb P db with
  | zero =>
    simp only [List.range', cascade] at hr
    simp only [SM.pure_apply, Prod.mk.injEq, Res.ok.injEq] at hr
    obtain ⟨rfl, rfl⟩ := hr
    exact ⟨P, hk, hb, rfl, rfl⟩
  | succ n ih =>
    simp only [List.range', cascade] at hr
    simp only [List.range', Spec.promote]
    have hcond : (leadingZeros h > blobZeroCount + (o + 1) * perLevelCount ∨ (kb o).length ≥ perLevelMax) ↔
        (h.toNat < 2 ^ (43 - 7 * o) ∨ 512 ≤ (P o).length) := by
      rw [leadingZeros_gt h _ (by simp [blobZeroCount, perLevelCount]; omega), hk.keys o, List.length_map]
      have e1 : 63 - (blobZeroCount + (o + 1) * perLevelCount) = 43 - 7 * o := by simp [blobZeroCount, perLevelCount]; omega
      have e2 : perLevelMax = 512 := by decide
      rw [e1, e2]
    by_cases hcd : h.toNat < 2 ^ (43 - 7 * o) ∨ 512 ≤ (P o).length
    · rw [if_pos (hcond.mpr hcd)] at hr
      rw [if_pos hcd]
      obtain ⟨key, db1, hp, hr⟩ := bind_ok hr
      have hg1 := (isPuts_putObj H (treeObj (kb o))).grow db
      rw [hp] at hg1
      have hg2 := (isPuts_cascade H (leadingZeros h) (List.range' (o + 1) n) ((kb.set o []).set (o + 1) (kb (o + 1) ++ [key]))).grow db1
      rw [hr] at hg2
      have hd := hk.tree hi hp (hc.mono hg2.hashed)
      have hk1 : KbOk db1 ((kb.set o []).set (o + 1) (kb (o + 1) ++ [key])) ((P.set o []).set (o + 1) (P (o + 1) ++ [(key, flat (P o))])) := by
        have := (hk.mono hg1.data).clear o |>.push hd
        have e1 : (kb.set o []) (o + 1) = kb (o + 1) := by simp [KeyBufs.set]
        have e2 : (P.set o []) (o + 1) = P (o + 1) := by simp [Levels.set]
        rw [e1, e2] at this
        exact this
      have hb1 : Big ((P.set o []).set (o + 1) (P (o + 1) ++ [(key, flat (P o))])) := by
        have := (hb.clear o).push (o + 1) key (hb.flat hne)
        have e2 : (P.set o []) (o + 1) = P (o + 1) := by simp [Levels.set]
        rw [e2] at this
        exact this
      obtain ⟨P', a, b, c, d⟩ := ih (o := o + 1) (by omega) (hg1.inv hi) hk1 hb1 (by simp [Levels.set]) (by omega) hr
      refine ⟨P', a, b, ?_, ?_⟩
      · rw [c]
        have : o = 0 ∨ o = 1 ∨ o = 2 ∨ o = 3 := by omega
        rcases this with rfl | rfl | rfl | rfl <;> simp [upTo, Levels.set]
      · rw [d]
        congr 1
        funext i
        unfold Levels.set
        by_cases h1 : i = o
        · subst h1; simp
        · by_cases h2 : i = o + 1
          · subst h2; simp
          · simp [h1, h2]
    · rw [if_neg (fun x => hcd (hcond.mp x))] at hr
      rw [if_neg hcd]
      simp only [SM.pure_apply, Prod.mk.injEq, Res.ok.injEq] at hr
      obtain ⟨rfl, rfl⟩ := hr
      exact ⟨P, hk, hb, rfl, rfl⟩

/-- Counts after further cuts. -/
def waitFrom (n : Nat → Nat) (hs : List (BitVec 64)) : Nat → Nat :=
  hs.foldl (fun n h => Spec.promote h [0, 1, 2, 3] (fun i => if i = 0 then n 0 + 1 else n i)) n

theorem addChunks_ok {H : Bytes → Key} {cs : List (Bytes × BitVec 64)} (hcs : ∀ c ∈ cs, blobMax ≤ c.1.length) {kb kb' : KeyBufs} {P : Levels} {db db' : Db}
    (hr : addChunks H cs kb db = (.ok kb', db')) (hi : Inv H db) (hc : NoColl H db') (hk : KbOk db kb P) (hb : Big P) :
    ∃ P', KbOk db' kb' P' ∧ Big P' ∧ upTo P' 0 = upTo P 0 ++ (cs.map Prod.fst).flatten ∧
      (fun i => (P' i).length) = waitFrom (fun i => (P i).length) (cs.map Prod.snd) := by
  induction cs generalizing kb P db with
  | nil =>
    simp only [addChunks, SM.pure_apply, Prod.mk.injEq, Res.ok.injEq] at hr
    obtain ⟨rfl, rfl⟩ := hr
    exact ⟨P, hk, hb, by simp, rfl⟩
  | cons c cs ih =>
    obtain ⟨c, h⟩ := c
    simp only [addChunks] at hr
    obtain ⟨key, db1, hp, hr⟩ := bind_ok hr
    obtain ⟨kb2, db2, hp2, hr⟩ := bind_ok hr
    have hg1 := (isPuts_putObj H (blobObj c)).grow db
    rw [hp] at hg1
    have hg2 := (isPuts_cascade H (leadingZeros h) [0, 1, 2, 3] (kb.set 0 (kb 0 ++ [key]))).grow db1
    rw [hp2] at hg2
    have hg3 := (isPuts_addChunks H cs kb2).grow db2
    rw [hr] at hg3
    have hc2 := hc.mono hg3.hashed
    have hc1 := hc2.mono hg2.hashed
    have hbm : blobMax = 32768 := by decide
    have hcl : 32768 ≤ c.length := by have := hcs (c, h) (by simp); rw [hbm] at this; exact this
    have hd : Den db1 0 key c := putObj_getObj hi hp hc1
    have hk1 := (hk.mono hg1.data).push hd
    have hb1 := hb.push 0 key hcl
    obtain ⟨P2, a2, b2, c2, d2⟩ := cascade_ok h (o := 0) (by omega) hp2 (hg1.inv hi) hc2 hk1 hb1 (by simp [Levels.set])
    obtain ⟨P3, a3, b3, c3, d3⟩ := ih (fun x hx => hcs x (by simp [hx])) hr (hg2.inv (hg1.inv hi)) a2 b2
    refine ⟨P3, a3, b3, ?_, ?_⟩
    · rw [c3, c2]
      simp [upTo, Levels.set]
    · rw [d3, d2]
      simp only [List.map_cons, waitFrom, List.foldl_cons]
      congr 2
      funext i
      unfold Levels.set
      split <;> simp

/-! ### The end of put_data -/

theorem finish4 {H : Bytes → Key} {kb : KeyBufs} {P : Levels} {db db' : Db} {k : Key}
    (hr : finishTree H [] kb db = (.ok k, db')) (hi : Inv H db) (hc : NoColl H db') (hk : KbOk db kb P) :
    ∃ n ≤ 5, Den db' n k (flat (P 4)) := ⟨5, by omega, hk.tree (i := 4) hi hr hc⟩

theorem finish_step {H : Bytes → Key} {kb : KeyBufs} {P : Levels} {db db' : Db} {k : Key} {o : Nat} {os : List Nat}
    (hr : finishTree H (o :: os) kb db = (.ok k, db')) (hi : Inv H db) (hc : NoColl H db') (hk : KbOk db kb P) :
    ((P o).length = 1 ∧ (∀ x ∈ os, P x = []) ∧ Den db' o k (flat (P o))) ∨
    (¬ ((P o).length = 1 ∧ ∀ x ∈ os, P x = []) ∧ ∃ key db1, finishTree H os (kb.set (o + 1) (kb (o + 1) ++ [key])) db1 = (.ok k, db') ∧ Inv H db1 ∧
      KbOk db1 (kb.set (o + 1) (kb (o + 1) ++ [key])) (P.set (o + 1) (P (o + 1) ++ [(key, flat (P o))]))) := by
  rw [finishTree] at hr
  obtain ⟨key, db1, hp, hr⟩ := bind_ok hr
  have hg1 := (isPuts_putObj H (treeObj (kb o))).grow db
  rw [hp] at hg1
  have hcond : ((kb o).length = 1 ∧ (os.all fun x => (kb x).isEmpty) = true) ↔ ((P o).length = 1 ∧ ∀ x ∈ os, P x = []) := by
    simp [hk.keys]
  by_cases hcd : (P o).length = 1 ∧ ∀ x ∈ os, P x = []
  · rw [if_pos (hcond.mpr hcd)] at hr
    obtain ⟨p, hp1⟩ := List.length_eq_one_iff.mp hcd.1
    rw [hk.keys o, hp1] at hr
    simp only [List.map_cons, List.map_nil, List.getLast?_singleton, SM.pure_apply, Prod.mk.injEq, Res.ok.injEq] at hr
    obtain ⟨rfl, rfl⟩ := hr
    left
    refine ⟨hcd.1, hcd.2, ?_⟩
    rw [hp1, flat_single]
    exact (hk.den o p (by rw [hp1]; simp)).mono hg1.data
  · rw [if_neg (fun x => hcd (hcond.mp x))] at hr
    right
    have hg2 := (isPuts_finishTree H os (kb.set (o + 1) (kb (o + 1) ++ [key]))).grow db1
    rw [hr] at hg2
    have hd := hk.tree hi hp (hc.mono hg2.hashed)
    exact ⟨hcd, key, db1, hr, hg1.inv hi, (hk.mono hg1.data).push hd⟩

theorem finish3 {H : Bytes → Key} {kb : KeyBufs} {P : Levels} {db db' : Db} {k : Key}
    (hr : finishTree H [3] kb db = (.ok k, db')) (hi : Inv H db) (hc : NoColl H db') (hk : KbOk db kb P) :
    ∃ n ≤ 5, Den db' n k (if (P 3).length = 1 then flat (P 3) else upTo P 3) := by
  rcases finish_step hr hi hc hk with ⟨h1, _, hd⟩ | ⟨h1, key, db1, hr, hi1, hk1⟩
  · rw [if_pos h1]; exact ⟨3, by omega, hd⟩
  · rw [if_neg (by simpa using h1)]
    obtain ⟨n, hn, hd⟩ := finish4 hr hi1 hc hk1
    refine ⟨n, hn, ?_⟩
    simpa [upTo, Levels.set] using hd

theorem finish_lt3 {H : Bytes → Key} {o : Nat} (ho : o ≤ 2) {kb : KeyBufs} {P : Levels} {db db' : Db} {k : Key}
    (hr : finishTree H (List.range' o (4 - o)) kb db = (.ok k, db')) (hi : Inv H db) (hc : NoColl H db') (hk : KbOk db kb P) :
    ∃ n ≤ 5, Den db' n k (if P 3 = [] then upTo (P.set 4 []) o else upTo P o) := by
  have : ∀ m o, o ≤ 2 → 2 - o = m → ∀ kb P db, finishTree H (List.range' o (4 - o)) kb db = (.ok k, db') → Inv H db → KbOk db kb P →
      ∃ n ≤ 5, Den db' n k (if P 3 = [] then upTo (P.set 4 []) o else upTo P o) := by
    intro m
    induction m with
    | zero =>
      intro o ho hm kb P db hr hi hk
      obtain rfl : o = 2 := by omega
      rcases finish_step (o := 2) (os := [3]) hr hi hc hk with ⟨h1, h2, hd⟩ | ⟨h1, key, db1, hr, hi1, hk1⟩
      · have h3 : P 3 = [] := h2 3 (by simp)
        rw [if_pos h3]
        refine ⟨2, by omega, ?_⟩
        simpa [upTo, Levels.set, h3] using hd
      · obtain ⟨n, hn, hd⟩ := finish3 hr hi1 hc hk1
        refine ⟨n, hn, ?_⟩
        by_cases h3 : P 3 = []
        · simpa [upTo, Levels.set, h3] using hd
        · have : ¬ (P 3).length + 1 = 1 := by
            intro e; apply h3; exact List.eq_nil_of_length_eq_zero (by omega)
          simp only [Levels.set, List.length_append, List.length_singleton, if_true, this, if_false] at hd
          rw [if_neg h3]
          simpa [upTo, Levels.set] using hd
    | succ m ih =>
      intro o ho hm kb P db hr hi hk
      rw [isRun_cases (by omega), if_neg (by omega)] at hr
      rcases finish_step hr hi hc hk with ⟨h1, h2, hd⟩ | ⟨h1, key, db1, hr, hi1, hk1⟩
      · have h2' : ∀ x, o < x → x < 4 → P x = [] := fun x a b => h2 x (by rw [List.mem_range'_1]; omega)
        have h3 : P 3 = [] := h2' 3 (by omega) (by omega)
        rw [if_pos h3]
        refine ⟨o, by omega, ?_⟩
        have : o = 0 ∨ o = 1 := by omega
        rcases this with rfl | rfl
        · have a := h2' 1 (by omega) (by omega)
          have b := h2' 2 (by omega) (by omega)
          simpa [upTo, Levels.set, h3, a, b] using hd
        · have b := h2' 2 (by omega) (by omega)
          simpa [upTo, Levels.set, h3, b] using hd
      · obtain ⟨n, hn, hd⟩ := ih (o + 1) (by omega) (by omega) _ _ _ hr hi1 hk1
        refine ⟨n, hn, ?_⟩
        have e3 : (P.set (o + 1) (P (o + 1) ++ [(key, flat (P o))])) 3 = P 3 := by
          unfold Levels.set; rw [if_neg (by omega)]
        rw [e3] at hd
        have : o = 0 ∨ o = 1 := by omega
        split
        · rename_i h3
          rw [if_pos h3] at hd
          rcases this with rfl | rfl <;> simpa [upTo, Levels.set, h3] using hd
        · rename_i h3
          rw [if_neg h3] at hd
          rcases this with rfl | rfl <;> simpa [upTo, Levels.set, h3] using hd
  exact this (2 - o) o ho rfl kb P db hr hi hk

theorem putFinish_ok {H : Bytes → Key} {kb : KeyBufs} {P : Levels} {db db' : Db} {k : Key} {cur : Bytes}
    (hr : putFinish H cur kb db = (.ok k, db')) (hi : Inv H db) (hc : NoColl H db') (hk : KbOk db kb P) :
    ∃ n ≤ 5, Den db' n k (if P 3 = [] then upTo (P.set 4 []) 0 ++ cur else upTo P 0 ++ cur) := by
  unfold putFinish at hr
  have hcond : ([0, 1, 2, 3].all fun x => (kb x).isEmpty) = true ↔ P 0 = [] ∧ P 1 = [] ∧ P 2 = [] ∧ P 3 = [] := by
    simp [hk.keys]
  by_cases hcd : P 0 = [] ∧ P 1 = [] ∧ P 2 = [] ∧ P 3 = []
  · rw [if_pos (hcond.mpr hcd)] at hr
    refine ⟨0, by omega, ?_⟩
    rw [if_pos hcd.2.2.2]
    have : upTo (P.set 4 []) 0 ++ cur = cur := by simp [upTo, Levels.set, hcd]
    rw [this]
    exact putObj_getObj hi hr hc
  · rw [if_neg (fun x => hcd (hcond.mp x))] at hr
    obtain ⟨kb1, db1, hp, hr⟩ := bind_ok hr
    have hg2 := (isPuts_finishTree H [0, 1, 2, 3] kb1).grow db1
    rw [hr] at hg2
    by_cases hcur : cur = []
    · subst hcur
      simp only [List.isEmpty_nil, if_true, SM.pure_apply, Prod.mk.injEq, Res.ok.injEq] at hp
      obtain ⟨rfl, rfl⟩ := hp
      have := finish_lt3 (o := 0) (by omega) hr hi hc hk
      simpa using this
    · rw [if_neg (by simpa using hcur)] at hp
      obtain ⟨key, db2, hq, hp2⟩ := bind_ok hp
      simp only [SM.pure_apply, Prod.mk.injEq, Res.ok.injEq] at hp2
      obtain ⟨rfl, rfl⟩ := hp2
      have hg1 := (isPuts_putObj H (blobObj cur)).grow db
      rw [hq] at hg1
      have hd : Den db2 0 key cur := putObj_getObj hi hq (hc.mono hg2.hashed)
      obtain ⟨n, hn, hd2⟩ := finish_lt3 (o := 0) (by omega) hr (hg1.inv hi) hc ((hk.mono hg1.data).push hd)
      refine ⟨n, hn, ?_⟩
      by_cases h3 : P 3 = [] <;> simpa [upTo, Levels.set, h3] using hd2

/-- What a successful put_data has stored: the delivered bytes, without a prefix if the top level spilled. -/
theorem putData_ok {table : UInt8 → BitVec 64} {H : Bytes → Key} {evs : List ReadEv} {db db' : Db} {k : Key}
    (hr : putData table H evs db = (.ok k, db')) (hi : Inv H db) (hc : NoColl H db') :
    ∃ n ≤ 5, ∃ lost : Bytes, ∃ kept : Bytes, Spec.delivered evs = lost ++ kept ∧ Den db' n k kept ∧
      (Spec.Spilled ((chunks table evs).1.map Prod.snd) → 32768 ≤ lost.length) ∧
      (¬ Spec.Spilled ((chunks table evs).1.map Prod.snd) → lost = []) := by
  rw [putData_eq] at hr
  obtain ⟨kb, db1, ha, hr⟩ := bind_ok hr
  split at hr
  · simp [SM.throw] at hr
  · have hg2 := (isPuts_putFinish H (chunks table evs).2.1 kb).grow db1
    rw [hr] at hg2
    have hg1 := (isPuts_addChunks H (chunks table evs).1 (fun _ => [])).grow db
    rw [ha] at hg1
    obtain ⟨P, hk, hb, hcont, hlen⟩ := addChunks_ok (P := fun _ => []) (cs := (chunks table evs).1) (scan_big table 0#64 [] [] evs) ha hi (hc.mono hg2.hashed)
      ⟨fun _ => rfl, fun _ p hp => by simp at hp⟩ (fun _ p hp => by simp at hp)
    obtain ⟨n, hn, hd⟩ := putFinish_ok hr (hg1.inv hi) hc hk
    have htot := chunks_content table evs
    have hu0 : upTo (fun _ => []) 0 = ([] : Bytes) := by simp [upTo]
    rw [hu0, List.nil_append] at hcont
    rw [← hcont] at htot
    have hw : ∀ i, (P i).length = Spec.waiting ((chunks table evs).1.map Prod.snd) i := fun i => congrFun hlen i
    by_cases h3 : P 3 = []
    · rw [if_pos h3] at hd
      refine ⟨n, hn, flat (P 4), _, ?_, hd, ?_, ?_⟩
      · rw [← htot]; simp [upTo, Levels.set]
      · intro hs
        apply hb.flat
        intro e
        apply hs.1
        rw [← hw, e]; rfl
      · intro hs
        have : P 4 = [] := by
          apply List.eq_nil_of_length_eq_zero
          apply Classical.byContradiction
          intro h4
          exact hs ⟨by rw [← hw]; exact h4, by rw [← hw, h3]; rfl⟩
        rw [this]; rfl
    · rw [if_neg h3] at hd
      refine ⟨n, hn, [], _, htot.symm, hd, ?_, fun _ => rfl⟩
      intro hs
      exfalso
      apply h3
      apply List.eq_nil_of_length_eq_zero
      rw [hw]; exact hs.2

end Snap
