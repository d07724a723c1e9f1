import Verif.Lemmas.FileTree
/-! More about put_data: success without faults, sizes of written objects, spilling, constructing inputs. -/
namespace Snap

/-! ### Success when no write fails -/

/-- Without write faults the computation succeeds with a result satisfying `p`. -/
def Tot {α} (x : M α) (p : α → Prop) : Prop := ∀ db, db.faults = [] → ∃ a db', x db = (.ok a, db') ∧ db'.faults = [] ∧ p a

theorem Tot.bind {α β} {x : M α} {f : α → M β} {p : α → Prop} {q : β → Prop} (hx : Tot x p) (hf : ∀ a, p a → Tot (f a) q) : Tot (x >>= f) q := by
  intro db h
  obtain ⟨a, db1, e1, h1, ha⟩ := hx db h
  obtain ⟨b, db2, e2, h2, hb⟩ := hf a ha db1 h1
  exact ⟨b, db2, by rw [SM.bind_apply, e1]; exact e2, h2, hb⟩

theorem Tot.pure {α} {p : α → Prop} {a : α} (h : p a) : Tot (Pure.pure a) p := fun db hf => ⟨a, db, rfl, hf, h⟩

theorem tot_putObj (H : Bytes → Key) (o : Object) (hd : o.data.length < 2 ^ 64) (hk : o.keys.length < 2 ^ 64) : Tot (putObj H o) (fun _ => True) := by
  intro db hf
  obtain ⟨b, hb⟩ := (o.encode_ok_iff).mpr ⟨hd, hk⟩
  have : putObj H o db = put H b db := by
    unfold putObj
    rw [SM.bind_apply, hb]; rfl
  rw [this, put_nofault hf]
  exact ⟨_, _, rfl, hf, trivial⟩

theorem tot_cascade (H : Bytes → Key) (z : Nat) (os : List Nat) (kb : KeyBufs) (B : Nat) (hB : B + os.length < 2 ^ 64) (hk : ∀ i, (kb i).length ≤ B) :
    Tot (cascade H z os kb) (fun kb' => ∀ i, (kb' i).length ≤ B + os.length) := by
  induction os generalizing kb B with
  | nil => exact Tot.pure (fun i => by simpa using hk i)
  | cons o os ih =>
    unfold cascade
    simp only [List.length_cons] at hB ⊢
    split
    · refine Tot.bind (tot_putObj H _ (by simp [treeObj]) (by have := hk o; simp [treeObj]; omega)) (fun key _ => ?_)
      have := ih ((kb.set o []).set (o + 1) (kb (o + 1) ++ [key])) (B + 1) (by omega) (by
        intro i
        unfold KeyBufs.set
        split
        · have := hk (o + 1); simp; omega
        · split
          · simp
          · have := hk i; omega)
      intro db hf
      obtain ⟨a, db', e, h1, h2⟩ := this db hf
      exact ⟨a, db', e, h1, fun i => by have := h2 i; omega⟩
    · exact Tot.pure (fun i => by have := hk i; omega)

theorem tot_addChunks (H : Bytes → Key) (cs : List (Bytes × BitVec 64)) (kb : KeyBufs) (B : Nat) (hB : B + 5 * cs.length < 2 ^ 64)
    (hc : ∀ c ∈ cs, c.1.length < 2 ^ 64) (hk : ∀ i, (kb i).length ≤ B) :
    Tot (addChunks H cs kb) (fun kb' => ∀ i, (kb' i).length ≤ B + 5 * cs.length) := by
  induction cs generalizing kb B with
  | nil => exact Tot.pure (fun i => by simpa using hk i)
  | cons c cs ih =>
    obtain ⟨c, h⟩ := c
    simp only [List.length_cons] at hB ⊢
    unfold addChunks
    refine Tot.bind (tot_putObj H _ (hc (c, h) (by simp)) (by simp [blobObj])) (fun key _ => ?_)
    refine Tot.bind (tot_cascade H _ _ _ (B + 1) (by simp; omega) (by
      intro i
      unfold KeyBufs.set
      split
      · have := hk 0; simp; omega
      · have := hk i; omega)) (fun kb' hk' => ?_)
    intro db hf
    obtain ⟨a, db', e, h1, h2⟩ := ih kb' (B + 5) (by omega) (fun x hx => hc x (by simp [hx])) hk' db hf
    exact ⟨a, db', e, h1, fun i => by have := h2 i; omega⟩

theorem tot_finishTree (H : Bytes → Key) (os : List Nat) (kb : KeyBufs) (B : Nat) (hB : B + os.length < 2 ^ 64) (hk : ∀ i, (kb i).length ≤ B) :
    Tot (finishTree H os kb) (fun _ => True) := by
  induction os generalizing kb B with
  | nil =>
    simp only [List.length_nil] at hB
    exact tot_putObj H _ (by simp [treeObj]) (by have := hk 4; simp [treeObj]; omega)
  | cons o os ih =>
    simp only [List.length_cons] at hB
    unfold finishTree
    refine Tot.bind (tot_putObj H _ (by simp [treeObj]) (by have := hk o; simp [treeObj]; omega)) (fun key _ => ?_)
    split
    · rename_i h1
      obtain ⟨x, hx⟩ := List.length_eq_one_iff.mp h1.1
      rw [hx]
      exact Tot.pure trivial
    · exact ih _ (B + 1) (by omega) (by
        intro i
        unfold KeyBufs.set
        split
        · have := hk (o + 1); simp; omega
        · have := hk i; omega)

theorem tot_putFinish (H : Bytes → Key) (cur : Bytes) (kb : KeyBufs) (B : Nat) (hB : B + 10 < 2 ^ 64) (hc : cur.length < 2 ^ 64) (hk : ∀ i, (kb i).length ≤ B) :
    Tot (putFinish H cur kb) (fun _ => True) := by
  unfold putFinish
  split
  · exact tot_putObj H _ hc (by simp [blobObj])
  · have h1 : Tot (if cur.isEmpty then pure kb else do
        let key ← putObj H (blobObj cur)
        pure (kb.set 0 (kb 0 ++ [key]))) (fun kb' => ∀ i, (kb' i).length ≤ B + 1) := by
      split
      · exact Tot.pure (fun i => by have := hk i; omega)
      · refine Tot.bind (tot_putObj H _ hc (by simp [blobObj])) (fun key _ => Tot.pure ?_)
        intro i
        unfold KeyBufs.set
        split
        · have := hk 0; simp; omega
        · have := hk i; omega
    exact Tot.bind h1 (fun kb' hk' => tot_finishTree H _ kb' (B + 1) (by simp; omega) hk')

theorem flatten_len_ge {cs : List (Bytes × BitVec 64)} {n : Nat} (h : ∀ c ∈ cs, n ≤ c.1.length) : n * cs.length ≤ (cs.map Prod.fst).flatten.length := by
  induction cs with
  | nil => simp
  | cons c cs ih =>
    have := ih (fun x hx => h x (by simp [hx]))
    have := h c (by simp)
    simp only [List.map_cons, List.flatten_cons, List.length_append, List.length_cons, Nat.mul_add]
    omega

theorem chunk_len_le {cs : List (Bytes × BitVec 64)} {c : Bytes × BitVec 64} (h : c ∈ cs) : c.1.length ≤ (cs.map Prod.fst).flatten.length := by
  induction cs with
  | nil => simp at h
  | cons d cs ih =>
    simp only [List.map_cons, List.flatten_cons, List.length_append]
    rcases List.mem_cons.mp h with rfl | h
    · omega
    · have := ih h; omega

theorem chunks_count (table : UInt8 → BitVec 64) (evs : List ReadEv) :
    32768 * (chunks table evs).1.length ≤ (Spec.delivered evs).length := by
  have h := chunks_content table evs
  have hb : blobMax = 32768 := by decide
  have := flatten_len_ge (n := 32768) (cs := (chunks table evs).1) (fun c hc => by have := scan_big table 0#64 [] [] evs c hc; rwa [hb] at this)
  rw [← h, List.length_append]
  omega

theorem addChunks_total (table : UInt8 → BitVec 64) (H : Bytes → Key) (evs : List ReadEv) (hl : (Spec.delivered evs).length < 2 ^ 64) :
    Tot (addChunks H (chunks table evs).1 (fun _ => [])) (fun kb => ∀ i, (kb i).length ≤ 2 ^ 52) := by
  have hn := chunks_count table evs
  have h := congrArg List.length (chunks_content table evs)
  rw [List.length_append] at h
  have := tot_addChunks H (chunks table evs).1 (fun _ => []) 0 (by omega) (fun c hc => by have := chunk_len_le hc; omega) (fun _ => by simp)
  intro db hf
  obtain ⟨a, db', e, h1, h2⟩ := this db hf
  exact ⟨a, db', e, h1, fun i => by have := h2 i; omega⟩

theorem tot_putData (table : UInt8 → BitVec 64) (H : Bytes → Key) (evs : List ReadEv) (hl : (Spec.delivered evs).length < 2 ^ 64)
    (hf : Spec.readFails evs = false) : Tot (putData table H evs) (fun _ => True) := by
  rw [putData_eq]
  refine Tot.bind (addChunks_total table H evs hl) (fun kb hk => ?_)
  have h := congrArg List.length (chunks_content table evs)
  rw [List.length_append] at h
  rw [if_neg (by rw [chunks, scan_fails, hf]; simp)]
  exact tot_putFinish H _ kb (2 ^ 52) (by omega) (by omega) hk

/-! ### What is written, in any outcome -/

/-- Whatever the outcome, the byte strings put satisfy `L` (most recent first); a successful result satisfies `p`. -/
def Logs {α} (x : M α) (L : List Bytes → Prop) (p : α → Prop) : Prop :=
  ∀ db, (∃ ws, (x db).2.hashed = ws ++ db.hashed ∧ L ws) ∧ ∀ a, (x db).1 = .ok a → p a

theorem Logs.bind {α β} {x : M α} {f : α → M β} {L1 L2 L : List Bytes → Prop} {p : α → Prop} {q : β → Prop}
    (hx : Logs x L1 p) (hf : ∀ a, p a → Logs (f a) L2 q) (h1 : ∀ a, L1 a → L a) (h2 : ∀ a b, L1 a → L2 b → L (b ++ a)) : Logs (x >>= f) L q := by
  intro db
  obtain ⟨⟨ws, e, hl⟩, hp⟩ := hx db
  rw [SM.bind_apply]
  rcases hxd : x db with ⟨r, db1⟩
  rw [hxd] at e hp
  cases r with
  | ok a =>
    obtain ⟨⟨ws', e', hl'⟩, hq⟩ := hf a (hp a rfl) db1
    exact ⟨⟨ws' ++ ws, by simp only; rw [e', e, List.append_assoc], h2 _ _ hl hl'⟩, hq⟩
  | err er => exact ⟨⟨ws, e, h1 _ hl⟩, fun a h => by cases h⟩
  | panic => exact ⟨⟨ws, e, h1 _ hl⟩, fun a h => by cases h⟩
  | fuel => exact ⟨⟨ws, e, h1 _ hl⟩, fun a h => by cases h⟩

theorem Logs.pure {α} {L : List Bytes → Prop} {p : α → Prop} {a : α} (hl : L []) (h : p a) : Logs (Pure.pure a) L p :=
  fun _ => ⟨⟨[], rfl, hl⟩, fun b hb => by cases hb; exact h⟩

theorem Logs.throw {α} {L : List Bytes → Prop} {p : α → Prop} {e : Err} (hl : L []) : Logs (SM.throw e : M α) L p :=
  fun _ => ⟨⟨[], rfl, hl⟩, fun b hb => by cases hb⟩

theorem Logs.weaken {α} {x : M α} {L L' : List Bytes → Prop} {p p' : α → Prop} (h : Logs x L p) (hl : ∀ ws, L ws → L' ws) (hp : ∀ a, p a → p' a) : Logs x L' p' :=
  fun db => by
    obtain ⟨⟨ws, e, l⟩, q⟩ := h db
    exact ⟨⟨ws, e, hl _ l⟩, fun a ha => hp a (q a ha)⟩

theorem Logs.imp {α} {x : M α} {L : List Bytes → Prop} {p p' : α → Prop} (h : Logs x L p) (hp : ∀ a, p a → p' a) : Logs x L p' :=
  h.weaken (fun _ l => l) hp

/-- Nothing, or just the encoding of `o`. -/
def JustObj (o : Object) (ws : List Bytes) : Prop := ws = [] ∨ ∃ b, o.encode = .ok b ∧ ws = [b]

theorem logs_putObj (H : Bytes → Key) (o : Object) : Logs (putObj H o) (JustObj o) (fun k => ∃ b, o.encode = .ok b ∧ k = H b) := by
  intro db
  rcases putObj_cases H o db with ⟨_, e⟩ | ⟨b, hb, e | e⟩ <;> rw [e]
  · exact ⟨⟨[], rfl, Or.inl rfl⟩, fun a h => by cases h⟩
  · exact ⟨⟨[b], rfl, Or.inr ⟨b, hb, rfl⟩⟩, fun a h => by cases h⟩
  · exact ⟨⟨[b], rfl, Or.inr ⟨b, hb, rfl⟩⟩, fun a h => by cases h; exact ⟨b, hb, rfl⟩⟩

/-- All of `ws` are encodings of objects satisfying `S`. -/
def AllObj (S : Object → Prop) (ws : List Bytes) : Prop := ∀ w ∈ ws, ∃ o : Object, o.encode = .ok w ∧ S o

theorem AllObj.nil {S} : AllObj S [] := fun w h => by simp at h
theorem AllObj.append {S a b} (ha : AllObj S a) (hb : AllObj S b) : AllObj S (b ++ a) := fun w h => by
  rcases List.mem_append.mp h with h | h
  · exact hb w h
  · exact ha w h
theorem JustObj.all {S : Object → Prop} {o ws} (h : JustObj o ws) (ho : S o) : AllObj S ws := by
  rcases h with rfl | ⟨b, hb, rfl⟩
  · exact AllObj.nil
  · intro w hw; simp at hw; subst hw; exact ⟨o, hb, ho⟩
theorem JustObj.len {o ws} (h : JustObj o ws) : ws.length ≤ 1 := by
  rcases h with rfl | ⟨b, hb, rfl⟩ <;> simp

theorem logs_cascade (H : Bytes → Key) (z : Nat) {o : Nat} (ho : o ≤ 4) (kb : KeyBufs)
    (hk : ∀ i, i ≤ 3 → (kb i).length < 512 + (if i = o then 1 else 0)) (hne : kb o ≠ []) :
    Logs (cascade H z (List.range' o (4 - o)) kb) (AllObj fun x => ∃ ks, x = treeObj ks ∧ 1 ≤ ks.length ∧ ks.length ≤ 512)
      (fun kb' => ∀ i, i ≤ 3 → (kb' i).length < 512) := by
  generalize hn : 4 - o = n
  induction n generalizing o kb with
  | zero =>
    simp only [List.range', cascade]
    refine Logs.pure AllObj.nil (fun i hi => ?_)
    have := hk i hi
    rw [if_neg (by omega)] at this
    exact this
  | succ n ih =>
    simp only [List.range', cascade]
    have hko := hk o (by omega)
    simp only [if_true] at hko
    have hpos : 1 ≤ (kb o).length := by
      cases e : kb o with
      | nil => exact absurd e hne
      | cons a l => simp
    split
    · refine Logs.bind (L1 := AllObj fun x => ∃ ks, x = treeObj ks ∧ 1 ≤ ks.length ∧ ks.length ≤ 512) (p := fun _ => True)
        ((logs_putObj H _).weaken (fun ws h => h.all ⟨kb o, rfl, hpos, by omega⟩) (fun _ _ => trivial)) (fun key _ => ?_) (fun _ h => h) (fun a b => AllObj.append)
      apply ih (o := o + 1) (by omega) _ _ _ (by omega)
      · intro i hi
        unfold KeyBufs.set
        split
        · subst_vars
          have := hk (o + 1) hi
          rw [if_neg (by omega)] at this
          simp; omega
        · have := hk i hi
          split
          · simp
          · rename_i h2; rw [if_neg h2] at this; exact this
      · simp [KeyBufs.set]
    · rename_i hcd
      refine Logs.pure AllObj.nil (fun i hi => ?_)
      have hm : perLevelMax = 512 := by decide
      by_cases h2 : i = o
      · subst h2
        rw [hm] at hcd
        omega
      · have := hk i hi
        rw [if_neg h2] at this; exact this

/-- A blob of at least 32768 bytes or a tree of 1 to 512 keys. -/
def Streamed (x : Object) : Prop := (∃ c, x = blobObj c ∧ 32768 ≤ c.length) ∨ ∃ ks, x = treeObj ks ∧ 1 ≤ ks.length ∧ ks.length ≤ 512

theorem logs_addChunks (H : Bytes → Key) (cs : List (Bytes × BitVec 64)) (kb : KeyBufs) (hcs : ∀ c ∈ cs, 32768 ≤ c.1.length)
    (hk : ∀ i, i ≤ 3 → (kb i).length < 512) :
    Logs (addChunks H cs kb) (AllObj Streamed) (fun kb' => ∀ i, i ≤ 3 → (kb' i).length < 512) := by
  induction cs generalizing kb with
  | nil => exact Logs.pure AllObj.nil hk
  | cons c cs ih =>
    obtain ⟨c, h⟩ := c
    unfold addChunks
    refine Logs.bind (p := fun _ => True) ((logs_putObj H (blobObj c)).weaken (fun ws hj => hj.all (S := Streamed) (Or.inl ⟨c, rfl, hcs (c, h) (by simp)⟩)) (fun _ _ => trivial))
      (fun key _ => ?_) (fun _ h => h) (fun a b => AllObj.append)
    refine Logs.bind (L1 := AllObj Streamed) ((logs_cascade H (leadingZeros h) (o := 0) (by omega) _ ?_ ?_).weaken
      (fun ws h w hw => by obtain ⟨o, ho, hs⟩ := h w hw; exact ⟨o, ho, Or.inr hs⟩) (fun _ p => p)) (fun kb' hk' => ih kb' (fun x hx => hcs x (by simp [hx])) hk')
      (fun _ h => h) (fun a b => AllObj.append)
    · intro i hi
      unfold KeyBufs.set
      split
      · have := hk 0 (by omega); simp; omega
      · have := hk i hi; omega
    · simp [KeyBufs.set]

/-- Final writes of put_data: the last blob, up to four trees of at most 512 keys, the top node (most recent first). -/
def FinalTrees (n : Nat) (ws : List Bytes) : Prop :=
  ∃ top trees, ws = top ++ trees ∧ top.length ≤ 1 ∧ trees.length ≤ n ∧ AllObj (fun x => ∃ ks, x = treeObj ks) top ∧
    AllObj (fun x => ∃ ks, x = treeObj ks ∧ ks.length ≤ 512) trees

theorem logs_finishTree (H : Bytes → Key) {o : Nat} (ho : o ≤ 4) (kb : KeyBufs) (hk : ∀ i, o ≤ i → i ≤ 3 → (kb i).length < 512 + (if i = o then 1 else 0)) :
    Logs (finishTree H (List.range' o (4 - o)) kb) (FinalTrees (4 - o)) (fun _ => True) := by
  generalize hn : 4 - o = n
  induction n generalizing o kb with
  | zero =>
    simp only [List.range', finishTree]
    refine (logs_putObj H _).weaken (fun ws h => ?_) (fun _ _ => trivial)
    exact ⟨ws, [], by simp, h.len, by simp, h.all ⟨kb 4, rfl⟩, AllObj.nil⟩
  | succ n ih =>
    simp only [List.range', finishTree]
    have hko := hk o (by omega) (by omega)
    simp only [if_true] at hko
    refine Logs.bind (L1 := fun ws => ws.length ≤ 1 ∧ AllObj (fun x => ∃ ks, x = treeObj ks ∧ ks.length ≤ 512) ws) (L2 := FinalTrees n) (p := fun _ => True)
      ((logs_putObj H _).weaken (fun ws h => ⟨h.len, h.all ⟨kb o, rfl, by omega⟩⟩) (fun _ _ => trivial)) (fun key _ => ?_) ?_ ?_
    · split
      · split
        · exact Logs.pure ⟨[], [], rfl, by simp, by simp, AllObj.nil, AllObj.nil⟩ trivial
        · exact fun db => ⟨⟨[], rfl, ⟨[], [], rfl, by simp, by simp, AllObj.nil, AllObj.nil⟩⟩, fun a h => by cases h⟩
      · apply ih (o := o + 1) (by omega) _ _ (by omega)
        intro i hoi hi
        unfold KeyBufs.set
        split
        · subst_vars
          have := hk (o + 1) (by omega) hi
          rw [if_neg (by omega)] at this
          simp; omega
        · rename_i h1
          have := hk i (by omega) hi
          rw [if_neg (by omega)] at this; omega
    · rintro ws ⟨h1, h2⟩
      exact ⟨[], ws, rfl, by simp, by omega, AllObj.nil, h2⟩
    · rintro a b ⟨h1, h2⟩ ⟨top, trees, rfl, h3, h4, h5, h6⟩
      exact ⟨top, trees ++ a, by simp, h3, by simp; omega, h5, AllObj.append h2 h6⟩

theorem logs_putFinish (H : Bytes → Key) (cur : Bytes) (kb : KeyBufs) (hk : ∀ i, i ≤ 3 → (kb i).length < 512) :
    Logs (putFinish H cur kb) (fun ws => ∃ fin blob, ws = fin ++ blob ∧ FinalTrees 4 fin ∧ blob.length ≤ 1 ∧ AllObj (fun x => ∃ c, x = blobObj c) blob) (fun _ => True) := by
  have hnil : FinalTrees 4 [] := ⟨[], [], rfl, by simp, by simp, AllObj.nil, AllObj.nil⟩
  unfold putFinish
  split
  · exact (logs_putObj H _).weaken (fun ws h => ⟨[], ws, rfl, hnil, h.len, h.all ⟨cur, rfl⟩⟩) (fun _ _ => trivial)
  · refine Logs.bind (L1 := fun ws => ws.length ≤ 1 ∧ AllObj (fun x => ∃ c, x = blobObj c) ws) (L2 := FinalTrees 4) (p := fun kb' => ∀ i, i ≤ 3 → (kb' i).length < 512 + (if i = 0 then 1 else 0)) ?_ ?_ ?_ ?_
    · split
      · exact Logs.pure ⟨by simp, AllObj.nil⟩ (fun i hi => by have := hk i hi; omega)
      · refine Logs.bind (L2 := fun ws => ws = []) (p := fun _ => True) ((logs_putObj H _).weaken (fun ws h => ⟨h.len, h.all ⟨cur, rfl⟩⟩) (fun _ _ => trivial)) (fun key _ => ?_) (fun a h => h) ?_
        · refine Logs.pure rfl (fun i hi => ?_)
          unfold KeyBufs.set
          have := hk i hi
          have h0 := hk 0 (by omega)
          split
          · simp; omega
          · omega
        · rintro a b h rfl; exact h
    · exact fun kb' hk' => logs_finishTree H (o := 0) (by omega) kb' (fun i _ hi => hk' i hi)
    · rintro a ⟨h1, h2⟩; exact ⟨[], a, rfl, hnil, h1, h2⟩
    · rintro a b ⟨h1, h2⟩ h3; exact ⟨b, a, rfl, h3, h1, h2⟩

/-! ### The root object -/

/-- `k` is the key of an object satisfying `S` that has been put. -/
def KeyOf (H : Bytes → Key) (S : Object → Prop) (db : Db) (k : Key) : Prop := ∃ o w, Object.encode o = .ok w ∧ k = H w ∧ w ∈ db.hashed ∧ S o

theorem KeyOf.mono {H S a b k} (h : KeyOf H S a k) (hs : a.hashed <:+ b.hashed) : KeyOf H S b k := by
  obtain ⟨o, w, h1, h2, h3, h4⟩ := h
  exact ⟨o, w, h1, h2, hs.subset h3, h4⟩

theorem keyOf_putObj {H : Bytes → Key} {o : Object} {S : Object → Prop} (hs : S o) {db db' : Db} {k : Key} (h : putObj H o db = (.ok k, db')) : KeyOf H S db' k := by
  rcases putObj_cases H o db with ⟨_, e⟩ | ⟨b, hb, e | e⟩ <;> rw [e] at h
  · simp at h
  · simp at h
  · simp only [Prod.mk.injEq, Res.ok.injEq] at h
    obtain ⟨rfl, rfl⟩ := h
    exact ⟨o, b, hb, rfl, by simp, hs⟩

theorem keyOf_cascade {H : Bytes → Key} {S : Object → Prop} (hs : ∀ ks, S (treeObj ks)) {z : Nat} {os : List Nat} {kb kb' : KeyBufs} {db db' : Db}
    (h : cascade H z os kb db = (.ok kb', db')) (hk : ∀ i, ∀ k ∈ kb i, KeyOf H S db k) : ∀ i, ∀ k ∈ kb' i, KeyOf H S db' k := by
  induction os generalizing kb db with
  | nil =>
    simp only [cascade, SM.pure_apply, Prod.mk.injEq, Res.ok.injEq] at h
    obtain ⟨rfl, rfl⟩ := h; exact hk
  | cons o os ih =>
    unfold cascade at h
    split at h
    · obtain ⟨key, db1, h1, h2⟩ := bind_ok h
      have hg := (isPuts_putObj H (treeObj (kb o))).grow db
      rw [h1] at hg
      apply ih h2
      intro i k hik
      unfold KeyBufs.set at hik
      split at hik
      · rcases List.mem_append.mp hik with hik | hik
        · exact (hk _ k hik).mono hg.hashed
        · simp at hik; subst hik; exact keyOf_putObj (hs _) h1
      · split at hik
        · simp at hik
        · exact (hk _ k hik).mono hg.hashed
    · simp only [SM.pure_apply, Prod.mk.injEq, Res.ok.injEq] at h
      obtain ⟨rfl, rfl⟩ := h; exact hk

theorem keyOf_addChunks {H : Bytes → Key} {S : Object → Prop} (hs : ∀ ks, S (treeObj ks)) {cs : List (Bytes × BitVec 64)} (hcs : ∀ c ∈ cs, S (blobObj c.1))
    {kb kb' : KeyBufs} {db db' : Db} (h : addChunks H cs kb db = (.ok kb', db')) (hk : ∀ i, ∀ k ∈ kb i, KeyOf H S db k) : ∀ i, ∀ k ∈ kb' i, KeyOf H S db' k := by
  induction cs generalizing kb db with
  | nil =>
    simp only [addChunks, SM.pure_apply, Prod.mk.injEq, Res.ok.injEq] at h
    obtain ⟨rfl, rfl⟩ := h; exact hk
  | cons c cs ih =>
    obtain ⟨c, z⟩ := c
    unfold addChunks at h
    obtain ⟨key, db1, h1, h⟩ := bind_ok h
    obtain ⟨kb2, db2, h2, h⟩ := bind_ok h
    have hg := (isPuts_putObj H (blobObj c)).grow db
    rw [h1] at hg
    refine ih (fun x hx => hcs x (by simp [hx])) h (keyOf_cascade hs h2 ?_)
    intro i k hik
    unfold KeyBufs.set at hik
    split at hik
    · rcases List.mem_append.mp hik with hik | hik
      · exact (hk _ k hik).mono hg.hashed
      · simp at hik; subst hik; exact keyOf_putObj (hcs (c, z) (by simp)) h1
    · exact (hk _ k hik).mono hg.hashed

theorem keyOf_finishTree {H : Bytes → Key} {S : Object → Prop} (hs : ∀ ks, S (treeObj ks)) {os : List Nat}
    {kb : KeyBufs} {k : Key} {db db' : Db} (h : finishTree H os kb db = (.ok k, db')) (hk : ∀ i, ∀ k ∈ kb i, KeyOf H S db k) : KeyOf H S db' k := by
  induction os generalizing kb db with
  | nil => exact keyOf_putObj (hs _) h
  | cons o os ih =>
    unfold finishTree at h
    obtain ⟨key, db1, h1, h⟩ := bind_ok h
    have hg := (isPuts_putObj H (treeObj (kb o))).grow db
    rw [h1] at hg
    split at h
    · cases hx : (kb o).getLast? with
      | none => rw [hx] at h; simp at h
      | some x =>
        rw [hx] at h
        simp only [SM.pure_apply, Prod.mk.injEq, Res.ok.injEq] at h
        obtain ⟨rfl, rfl⟩ := h
        exact (hk o x (List.mem_of_getLast? hx)).mono hg.hashed
    · apply ih h
      intro i k hik
      unfold KeyBufs.set at hik
      split at hik
      · rcases List.mem_append.mp hik with hik | hik
        · exact (hk _ k hik).mono hg.hashed
        · simp at hik; subst hik; exact keyOf_putObj (hs _) h1
      · exact (hk _ k hik).mono hg.hashed

theorem keyOf_putData {table : UInt8 → BitVec 64} {H : Bytes → Key} {S : Object → Prop} (hs : ∀ ks, S (treeObj ks)) {evs : List ReadEv}
    (hcs : ∀ c ∈ (chunks table evs).1, S (blobObj c.1)) (hrest : S (blobObj (chunks table evs).2.1))
    {k : Key} {db db' : Db} (h : putData table H evs db = (.ok k, db')) : KeyOf H S db' k := by
  rw [putData_eq] at h
  obtain ⟨kb, db1, h1, h⟩ := bind_ok h
  have hk := keyOf_addChunks hs hcs h1 (fun i k hk => by simp at hk)
  split at h
  · simp at h
  · unfold putFinish at h
    split at h
    · exact keyOf_putObj hrest h
    · obtain ⟨kb2, db2, h2, h⟩ := bind_ok h
      refine keyOf_finishTree hs h ?_
      split at h2
      · simp only [SM.pure_apply, Prod.mk.injEq, Res.ok.injEq] at h2
        obtain ⟨rfl, rfl⟩ := h2; exact hk
      · obtain ⟨key, db3, h3, h2⟩ := bind_ok h2
        simp only [SM.pure_apply, Prod.mk.injEq, Res.ok.injEq] at h2
        obtain ⟨rfl, rfl⟩ := h2
        have hg := (isPuts_putObj H (blobObj (chunks table evs).2.1)).grow db1
        rw [h3] at hg
        intro i k hik
        unfold KeyBufs.set at hik
        split at hik
        · rcases List.mem_append.mp hik with hik | hik
          · exact (hk _ k hik).mono hg.hashed
          · simp at hik; subst hik; exact keyOf_putObj hrest h3
        · exact (hk _ k hik).mono hg.hashed

/-! ### Interruptions -/

theorem feedP_nil (table : UInt8 → BitVec 64) (h : BitVec 64) (cur : Bytes) : feedP table h [] cur = ([], h, cur) := by
  rw [feedP]; simp [boundary, nextMatch]

theorem scan_interrupted (table : UInt8 → BitVec 64) (h : BitVec 64) (buf cur : Bytes) (evs : List ReadEv) :
    scan table h buf cur (.interrupted :: evs) = scan table h buf cur evs := by
  cases evs with
  | nil => simp [scan, feedP_nil]
  | cons ev evs =>
    rw [scan]
    simp only
    cases ev <;> simp [scan, feedP_nil]
    split <;> simp

theorem scan_filter (table : UInt8 → BitVec 64) (h : BitVec 64) (buf cur : Bytes) (evs : List ReadEv) :
    scan table h buf cur (evs.filter (· != .interrupted)) = scan table h buf cur evs := by
  induction evs generalizing h buf cur with
  | nil => rfl
  | cons ev evs ih =>
    cases ev with
    | interrupted => rw [scan_interrupted, ← ih]; rfl
    | data d =>
      rw [List.filter_cons_of_pos (by simp)]
      unfold scan
      simp only [ih]
    | error =>
      rw [List.filter_cons_of_pos (by decide)]
      unfold scan
      rfl

/-! ### Spilling -/

theorem promote3 {n : Nat → Nat} {h : BitVec 64} (hh : 2 ^ 22 ≤ h.toNat) (h3 : n 3 < 512) : Spec.promote h [3] n = n := by
  have e : ¬ (h.toNat < 2 ^ (43 - 7 * 3) ∨ 512 ≤ n 3) := by omega
  rw [Spec.promote, if_neg e]

theorem promote2 {n : Nat → Nat} {h : BitVec 64} (hh : 2 ^ 22 ≤ h.toNat) (h3 : n 3 + 1 < 512) :
    Spec.promote h [2, 3] n 3 ≤ n 3 + 1 ∧ Spec.promote h [2, 3] n 4 = n 4 := by
  rw [Spec.promote]
  split
  · rw [promote3 hh (by simpa using h3)]; simp
  · simp

theorem promote1 {n : Nat → Nat} {h : BitVec 64} (hh : 2 ^ 22 ≤ h.toNat) (h3 : n 3 + 1 < 512) :
    Spec.promote h [1, 2, 3] n 3 ≤ n 3 + 1 ∧ Spec.promote h [1, 2, 3] n 4 = n 4 := by
  rw [Spec.promote]
  split
  · have := promote2 (n := fun i => if i = 1 then 0 else if i = 1 + 1 then n (1 + 1) + 1 else n i) hh (by simpa using h3)
    simpa using this
  · simp

theorem promote0 {n : Nat → Nat} {h : BitVec 64} (hh : 2 ^ 22 ≤ h.toNat) (h3 : n 3 + 1 < 512) :
    Spec.promote h [0, 1, 2, 3] n 3 ≤ n 3 + 1 ∧ Spec.promote h [0, 1, 2, 3] n 4 = n 4 := by
  by_cases hc : h.toNat < 2 ^ (43 - 7 * 0) ∨ 512 ≤ n 0
  · rw [Spec.promote, if_pos hc]
    have := promote1 (n := fun i => if i = 0 then 0 else if i = 0 + 1 then n (0 + 1) + 1 else n i) hh (by simpa using h3)
    simpa using this
  · rw [Spec.promote, if_neg hc]; simp

theorem waiting_step {n : Nat → Nat} {h : BitVec 64} (hh : 2 ^ 22 ≤ h.toNat) (h3 : n 3 + 1 < 512) (h4 : n 4 = 0) :
    Spec.promote h [0, 1, 2, 3] (fun i => if i = 0 then n 0 + 1 else n i) 3 ≤ n 3 + 1 ∧
    Spec.promote h [0, 1, 2, 3] (fun i => if i = 0 then n 0 + 1 else n i) 4 = 0 := by
  have := promote0 (n := fun i => if i = 0 then n 0 + 1 else n i) hh (by simpa using h3)
  simpa [h4] using this

theorem waiting_no_spill {hs : List (BitVec 64)} (hl : hs.length < 512) (hh : ∀ h ∈ hs, 2 ^ 22 ≤ h.toNat) : Spec.waiting hs 4 = 0 := by
  have : ∀ (hs : List (BitVec 64)) (n : Nat → Nat), n 3 + hs.length < 512 → n 4 = 0 → (∀ h ∈ hs, 2 ^ 22 ≤ h.toNat) → waitFrom n hs 4 = 0 := by
    intro hs
    induction hs with
    | nil => intro n _ h4 _; exact h4
    | cons h hs ih =>
      intro n hl h4 hh
      simp only [List.length_cons] at hl
      obtain ⟨a, b⟩ := waiting_step (n := n) (hh h (by simp)) (by omega) h4
      refine ih _ ?_ b (fun x hx => hh x (by simp [hx]))
      show Spec.promote h [0, 1, 2, 3] (fun i => if i = 0 then n 0 + 1 else n i) 3 + _ < _
      omega
  exact this hs (fun _ => 0) (by simpa using hl) rfl hh

theorem spilled_single {h : BitVec 64} (hh : h.toNat < 2 ^ 22) : Spec.Spilled [h] := by
  have e0 : h.toNat < 2 ^ 43 := by omega
  have e1 : h.toNat < 2 ^ 36 := by omega
  have e2 : h.toNat < 2 ^ 29 := by omega
  constructor <;> simp [Spec.waiting, Spec.promote, hh, e0, e1, e2]

/-! ### Inputs with a chosen hash -/

theorem gear_append (table : UInt8 → BitVec 64) (h : BitVec 64) (a b : Bytes) : Spec.gear table h (a ++ b) = Spec.gear table (Spec.gear table h a) b := by
  simp [Spec.gear]

theorem even_half (v : BitVec 64) (h : v.toNat % 2 = 0) : ∃ u : BitVec 64, v = 2 * u := by
  refine ⟨BitVec.ofNat 64 (v.toNat / 2), ?_⟩
  apply BitVec.eq_of_toNat_eq
  have := v.isLt
  have h2 : (2 : BitVec 64).toNat = 2 := by decide
  simp only [BitVec.toNat_mul, BitVec.toNat_ofNat, h2]
  omega

/-- Over a table with an even and an odd entry, `k` bytes set the low `k` bits of the hash. -/
theorem gear_target {table : UInt8 → BitVec 64} {a b : UInt8} (ha : (table a).toNat % 2 = 0) (hb : (table b).toNat % 2 = 1) (h0 : BitVec 64) :
    ∀ (k : Nat) (t : BitVec 64), ∃ bs : Bytes, bs.length = k ∧ ∃ q : BitVec 64, Spec.gear table h0 bs = t + 2 ^ k * q := by
  intro k
  induction k with
  | zero => intro t; exact ⟨[], rfl, h0 - t, by simp [Spec.gear]; grind⟩
  | succ k ih =>
    intro t
    have hx : ∃ x, (t - table x).toNat % 2 = 0 := by
      have h1 := t.isLt
      by_cases ht : t.toNat % 2 = 0
      · refine ⟨a, ?_⟩
        have := (table a).isLt
        rw [BitVec.toNat_sub]; omega
      · refine ⟨b, ?_⟩
        have := (table b).isLt
        rw [BitVec.toNat_sub]; omega
    obtain ⟨x, hx⟩ := hx
    obtain ⟨u, hu⟩ := even_half _ hx
    obtain ⟨bs, hl, q, hq⟩ := ih u
    refine ⟨bs ++ [x], by simp [hl], q, ?_⟩
    rw [gear_append, hq]
    simp only [Spec.gear, List.foldl_cons, List.foldl_nil]
    have : t = 2 * u + table x := by rw [← hu]; grind
    rw [this, BitVec.pow_succ]
    generalize (2 : BitVec 64) ^ k = p
    generalize table x = y
    clear hx hu hq hl ih this ha hb
    grind

theorem gear_reach {table : UInt8 → BitVec 64} {a b : UInt8} (ha : (table a).toNat % 2 = 0) (hb : (table b).toNat % 2 = 1) (h0 t : BitVec 64) :
    ∃ bs : Bytes, bs.length = 64 ∧ Spec.gear table h0 bs = t := by
  obtain ⟨bs, hl, q, hq⟩ := gear_target ha hb h0 64 t
  refine ⟨bs, hl, ?_⟩
  rw [hq]
  have : (2 : BitVec 64) ^ 64 = 0 := by
    rw [show (64 : Nat) = 32 + 32 from rfl, BitVec.pow_add]
    have h32 : (2 : BitVec 64) ^ 32 = 4294967296 := by decide
    rw [h32]; decide
  rw [this]; simp

theorem exists_content {table : UInt8 → BitVec 64} {a b : UInt8} (ha : (table a).toNat % 2 = 0) (hb : (table b).toNat % 2 = 1) (t : BitVec 64) :
    ∃ c : Bytes, c.length = 32768 ∧ Spec.gear table 0#64 c = t := by
  obtain ⟨bs, hl, h⟩ := gear_reach ha hb (Spec.gear table 0#64 (List.replicate 32704 0)) t
  exact ⟨List.replicate 32704 0 ++ bs, by rw [List.length_append, List.length_replicate, hl], by rw [gear_append, h]⟩

/-! ### Cuts of short contents -/

theorem cuts_short (table : UInt8 → BitVec 64) (h : BitVec 64) (cur bs : Bytes) (hl : cur.length + bs.length < 32768) :
    Spec.cuts table h cur bs = ([], cur ++ bs) := by
  induction bs generalizing h cur with
  | nil => simp [Spec.cuts]
  | cons b bs ih =>
    simp only [List.length_cons] at hl
    simp only [Spec.cuts]
    rw [if_neg (by simp; omega), ih _ _ (by simp; omega)]
    simp

theorem cuts_append_short (table : UInt8 → BitVec 64) (h : BitVec 64) (cur a bs : Bytes) (hl : cur.length + a.length < 32768) :
    Spec.cuts table h cur (a ++ bs) = Spec.cuts table (Spec.gear table h a) (cur ++ a) bs := by
  induction a generalizing h cur with
  | nil => simp [Spec.gear]
  | cons b a ih =>
    simp only [List.length_cons] at hl
    simp only [List.cons_append, Spec.cuts]
    rw [if_neg (by simp; omega), ih _ _ (by simp; omega)]
    simp [Spec.gear]

/-- A content of exactly 32768 bytes whose hash is small is one chunk with nothing left over. -/
theorem cuts_exact (table : UInt8 → BitVec 64) (c : Bytes) (hl : c.length = 32768) (hh : (Spec.gear table 0#64 c).toNat < 2 ^ 51) :
    Spec.cuts table 0#64 [] c = ([(c, Spec.gear table 0#64 c)], []) := by
  obtain ⟨a, b, rfl⟩ : ∃ a b, c = a ++ [b] := by
    rcases List.eq_nil_or_concat c with rfl | ⟨a, b, rfl⟩
    · simp at hl
    · exact ⟨a, b, by simp⟩
  have hla : a.length = 32767 := by simp at hl; omega
  rw [cuts_append_short _ _ _ _ _ (by simp; omega)]
  rw [gear_append] at hh ⊢
  have e : Spec.gear table (Spec.gear table 0#64 a) [b] = 2 * Spec.gear table 0#64 a + table b := rfl
  rw [e] at hh ⊢
  generalize Spec.gear table 0#64 a = g at hh ⊢
  simp only [Spec.cuts]
  rw [if_pos ⟨hh, by simp; omega⟩]
  simp

/-! ### A run in full -/

theorem putObj_nofault {H : Bytes → Key} {o : Object} {w : Bytes} {db : Db} (hf : db.faults = []) (hw : o.encode = .ok w) :
    putObj H o db = (.ok (H w), { db with hashed := w :: db.hashed, data := insertIgnore db.data (H w).asDbKey w }) := by
  unfold putObj
  rw [SM.bind_apply, hw]
  exact put_nofault hf

/-- The byte strings hashed when a content is one chunk with the smallest possible hash. -/
theorem putData_single {table : UInt8 → BitVec 64} {H : Bytes → Key} {evs : List ReadEv} {c : Bytes} {db : Db} (hf : db.faults = [])
    (hch : chunks table evs = ([(c, 0#64)], [], false)) {w0 w1 w2 w3 w4 w5 : Bytes}
    (h0 : (blobObj c).encode = .ok w0) (h1 : (treeObj [H w0]).encode = .ok w1) (h2 : (treeObj [H w1]).encode = .ok w2)
    (h3 : (treeObj [H w2]).encode = .ok w3) (h4 : (treeObj [H w3]).encode = .ok w4) (h5 : (blobObj []).encode = .ok w5) :
    ∃ db', putData table H evs db = (.ok (H w5), db') ∧ db'.hashed = w5 :: w4 :: w3 :: w2 :: w1 :: w0 :: db.hashed := by
  rw [putData_eq, hch]
  have hz : leadingZeros 0#64 = 64 := by decide
  simp only [addChunks, cascade, hz, KeyBufs.set, blobZeroCount, perLevelCount, SM.bind_apply]
  rw [putObj_nofault hf h0]
  simp [-bind_pure_comp, SM.bind_apply, putObj_nofault, hf, h1, h2, h3, h4, h5, putFinish, KeyBufs.set]

end Snap
namespace Snap

/-! ### One big read against many small ones -/

theorem two_steps (v : BitVec 64) : ∃ t : BitVec 64, 2 ^ 51 ≤ t.toNat ∧ 2 ^ 51 ≤ (2 * t + v).toNat := by
  have h2 : (2 : BitVec 64).toNat = 2 := by decide
  have hv := v.isLt
  by_cases h : 2 ^ 51 ≤ (2 * BitVec.ofNat 64 (2 ^ 62) + v).toNat
  · exact ⟨BitVec.ofNat 64 (2 ^ 62), by decide, h⟩
  · refine ⟨BitVec.ofNat 64 (2 ^ 61), by decide, ?_⟩
    simp only [BitVec.toNat_add, BitVec.toNat_mul, h2, BitVec.toNat_ofNat] at h ⊢
    omega

theorem cuts_none (table : UInt8 → BitVec 64) (p : Bytes) (a : UInt8) (hl : p.length = 32768) (h1 : 2 ^ 51 ≤ (Spec.gear table 0#64 p).toNat)
    (h2 : 2 ^ 51 ≤ (2 * Spec.gear table 0#64 p + table a).toNat) : Spec.cuts table 0#64 [] (p ++ [a]) = ([], p ++ [a]) := by
  obtain ⟨q, b, rfl⟩ : ∃ q b, p = q ++ [b] := by
    rcases List.eq_nil_or_concat p with rfl | ⟨a, b, rfl⟩
    · simp at hl
    · exact ⟨a, b, by simp⟩
  have hlq : q.length = 32767 := by simp at hl; omega
  rw [List.append_assoc, cuts_append_short _ _ _ _ _ (by simp; omega)]
  rw [gear_append] at h1 h2
  have e : Spec.gear table (Spec.gear table 0#64 q) [b] = 2 * Spec.gear table 0#64 q + table b := rfl
  rw [e] at h1 h2
  generalize Spec.gear table 0#64 q = g at h1 h2 ⊢
  simp only [Spec.cuts, List.singleton_append, List.nil_append]
  rw [if_neg (fun h => by omega), if_neg (fun h => by omega)]
  simp

theorem chunks_one_read (table : UInt8 → BitVec 64) (c : Bytes) (hl : 32768 < c.length) :
    (∀ x ∈ (chunks table [.data c]).1, x.1.length < c.length) ∧ (chunks table [.data c]).2.1.length < c.length := by
  have hcn : c ≠ [] := by intro e; rw [e] at hl; simp at hl
  have hbm : blobMax = 32768 := by decide
  have hcont := congrArg List.length (chunks_content table [.data c])
  have hd : Spec.delivered [.data c] = c := by simp [Spec.delivered, hcn]
  rw [hd, List.length_append] at hcont
  -- the first chunk has exactly 32768 bytes
  obtain ⟨h', cs, r, hch⟩ : ∃ h' cs r, chunks table [.data c] = ((c.take 32768, h') :: cs, r) := by
    unfold chunks scan
    simp only [feedP_nil, if_neg hcn, List.nil_append, scan]
    rw [feedP]
    have hb : boundary table 0#64 c = (some 32768, (nextMatch table blobMask 0#64 c).2) := by
      unfold boundary
      simp only
      rw [hbm, if_pos hl]
    rw [hb]
    simp only
    rw [dif_pos ⟨by omega, by omega⟩, hbm, if_pos (by simp; omega)]
    exact ⟨_, _, _, rfl⟩
  rw [hch] at hcont ⊢
  simp only [List.map_cons, List.flatten_cons, List.length_append, List.length_take] at hcont
  refine ⟨fun x hx => ?_, by simp only; omega⟩
  rcases List.mem_cons.mp hx with rfl | hx
  · simp; omega
  · have := chunk_len_le hx
    omega

end Snap
