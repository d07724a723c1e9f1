import Verif.Props.Panic
import Verif.Props.Show
/-! C77: why `show` and `log` panic. -/
namespace Snap.Props
open Snap
set_option linter.unusedSectionVars false
variable [Serde] [LawfulSerde]

/-! ### Reading from a sound database -/

/-- The key leads to something that is taken for a file or a directory. -/
def IsTree (db : Db) (k : Key) : Prop := ∃ i, getItem db k = .ok i

theorem isTree_of {db : Db} (hc : Closed db) {k : Key} (h : LeadsTo db k IsItem) : IsTree db k := by
  obtain ⟨o, h1, h2⟩ := h
  have := closed_shape hc h1
  simp only [IsTree, getItem]
  rw [h1, Res.ok_bind]
  cases this with
  | file n ck h => exact ⟨_, FsItem.ofObject_toObject h⟩
  | dir r h => exact ⟨_, FsItem.ofObject_toObject h⟩
  | blob d => rcases h2 with h2 | h2 <;> simp at h2
  | blobTree ks => rcases h2 with h2 | h2 <;> simp at h2
  | commit t ps hs m h =>
    obtain ⟨_, rfl⟩ := Commit.toObject_ok h
    rcases h2 with h2 | h2 <;> simp at h2

theorem readData_err {σ : Type} {db : Db} (hc : Closed db) {sink : Bytes → SM σ Unit} (hs : ∀ d s e, (sink d s).1 ≠ .err e) (n : Nat) (k : Key) (hk : Stored db k) (s : σ) (e : Err) :
    (readDataTo db sink n k s).1 ≠ .err e := by
  induction n generalizing k s with
  | zero => exact nofun
  | succ n ih =>
    obtain ⟨o, ho⟩ := closed_getObj hc hk
    have hks : ∀ k' ∈ o.keys, Stored db k' := by
      simp only [getObj] at ho
      obtain ⟨v, hv, hd⟩ := Res.bind_eq_ok ho
      obtain ⟨o', h1, _, h3⟩ := hc.rows _ (assoc_some_mem (get_eq_ok.mp hv))
      have : o' = o := by have := Object.decode_encode h1; rw [hd] at this; simpa using this.symm
      exact this ▸ h3
    have hall : ∀ (l : List Key), (∀ k ∈ l, Stored db k) → ∀ s, (SM.each (readDataTo db sink n) l s).1 ≠ .err e := by
      intro l
      induction l with
      | nil => intro _ s; exact nofun
      | cons a l ih' =>
        intro hl s
        show ((readDataTo db sink n a >>= fun _ => SM.each (readDataTo db sink n) l) s).1 ≠ _
        rw [SM.bind_apply]
        have := ih a (hl a (by simp)) s
        cases h : readDataTo db sink n a s with
        | mk r s' =>
          rw [h] at this
          cases r with
          | ok _ => exact ih' (fun k hk => hl k (by simp [hk])) s'
          | err e' => simpa using this
          | panic => exact nofun
          | fuel => exact nofun
    unfold readDataTo
    rw [SM.bind_apply, ho]
    simp only [SM.lift_apply]
    cases hty : o.objtype with
    | fileBlob => exact hs _ _ _
    | fileBlobTree => exact hall _ hks s
    | fsItemFile =>
      have : ∀ l : List Key, (∀ k ∈ l, Stored db k) → ((match l with
          | [k] => readDataTo db sink n k
          | _ => SM.panic : SM σ Unit) s).1 ≠ .err e := by
        intro l hl
        match l, hl with
        | [k], hl => exact ih k (hl k (by simp)) s
        | [], _ => exact nofun
        | _ :: _ :: _, _ => exact nofun
      exact this _ hks
    | fsItemDir => exact nofun
    | commit => exact nofun
    | unknown => exact nofun

/-- Contents and files can be read. -/
theorem readAll_typed {db : Db} (ht : Typed db) {n : Nat} (hn : db.data.length < n) {k : Key} (h : LeadsTo db k (fun t => IsData t ∨ t = .fsItemFile)) : ∃ b, readAll db n k = .ok b := by
  have hk : Stored db k := by
    obtain ⟨o, h1, _⟩ := h
    simp only [getObj] at h1
    obtain ⟨v, hv, _⟩ := Res.bind_eq_ok h1
    exact ⟨v, hv⟩
  have h1 : (readData db n k []).1 ≠ .panic := by
    intro hp
    obtain ⟨t, h1, h2⟩ := leads_unique h (readDataTo_panic ht (fun d => calm_modify _) n k [] hp)
    rcases h1 with (rfl | rfl) | rfl <;> rcases h2 with h2 | h2 <;> simp at h2
  have h2 : ∀ e, (readData db n k []).1 ≠ .err e := fun e => readData_err ht.closed (fun d s e => by simp [SM.modify]) n k hk [] e
  have h3 := readAll_fuel' ht.closed hn k
  unfold readAll at h3 ⊢
  cases h : readData db n k [] with
  | mk r b =>
    rw [h] at h1 h2 h3
    cases r with
    | ok _ => exact ⟨b, rfl⟩
    | err e => exact (h2 e rfl).elim
    | panic => exact (h1 rfl).elim
    | fuel => exact (h3 rfl).elim

/-- Reading a directory panics. -/
theorem readAll_leads {db : Db} {n : Nat} (hn : 0 < n) {k : Key} (h : LeadsTo db k (· = .fsItemDir)) : readAll db n k = .panic := by
  obtain ⟨o, h1, h2⟩ := h
  obtain ⟨n, rfl⟩ : ∃ m, n = m + 1 := ⟨n - 1, by omega⟩
  unfold readAll readData readDataTo
  rw [SM.bind_apply, h1]
  simp only [SM.lift_apply, h2]
  rfl

theorem mem_insert {α} {m : PMap α} {p : Path} {a : α} {e : Path × α} (h : e ∈ PMap.insert m p a) : e ∈ m ∨ e.2 = a := by
  unfold PMap.insert at h
  split at h
  · obtain ⟨x, hx, he⟩ := List.mem_map.mp h
    split at he
    · subst he; exact .inr rfl
    · subst he; exact .inl hx
  · rcases List.mem_append.mp h with h | h
    · exact .inl h
    · rw [List.mem_singleton.mp h]; exact .inr rfl

theorem mem_extend {α} {m m' : PMap α} {e : Path × α} (h : e ∈ PMap.extend m m') : e ∈ m ∨ ∃ e' ∈ m', e.2 = e'.2 := by
  unfold PMap.extend at h
  induction m' generalizing m with
  | nil => exact .inl h
  | cons a m' ih =>
    rcases ih h with h | ⟨e', h1, h2⟩
    · rcases mem_insert h with h | h
      · exact .inl h
      · exact .inr ⟨a, by simp, h⟩
    · exact .inr ⟨e', by simp [h1], h2⟩

theorem mem_extendAll {α β} {f : β → Res (PMap α)} {m r : PMap α} {l : List β} (h : extendAll f m l = .ok r) {e : Path × α} (he : e ∈ r) :
    e ∈ m ∨ ∃ b ∈ l, ∃ m', f b = .ok m' ∧ ∃ e' ∈ m', e.2 = e'.2 := by
  induction l generalizing m with
  | nil => simp [extendAll] at h; subst h; exact .inl he
  | cons b l ih =>
    simp only [extendAll] at h
    obtain ⟨m', h1, h2⟩ := Res.bind_eq_ok h
    rcases ih h2 with h3 | ⟨b', h3, h4⟩
    · rcases mem_extend h3 with h3 | h3
      · exact .inl h3
      · exact .inr ⟨b, by simp, m', h1, h3⟩
    · exact .inr ⟨b', by simp [h3], h4⟩

theorem extendAll_err {α β} {f : β → Res (PMap α)} {m : PMap α} {l : List β} {e : Err} (h : extendAll f m l = .err e) : ∃ b ∈ l, ∃ e', f b = .err e' := by
  induction l generalizing m with
  | nil => simp [extendAll] at h
  | cons b l ih =>
    simp only [extendAll] at h
    cases hb : f b with
    | ok m' =>
      rw [hb, Res.ok_bind] at h
      obtain ⟨b', h1, h2⟩ := ih h
      exact ⟨b', by simp [h1], h2⟩
    | err e' => exact ⟨b, by simp, e', hb⟩
    | panic => rw [hb] at h; simp [bind, Res.bind] at h
    | fuel => rw [hb] at h; simp [bind, Res.bind] at h

/-- What the kind of an entry says about its key. -/
def EntryOk (db : Db) (v : Key × Bool) : Prop := LeadsTo db v.1 fun t => if v.2 then t = .fsItemDir else (IsData t ∨ t = .fsItemFile)

/-- The entries of a stored tree are what they are said to be. -/
theorem walkItemsFrom_typed {db : Db} (ht : Typed db) {n : Nat} {k : Key} {p : Path} {m : PMap (Key × Bool)} (hk : p ≠ [] → LeadsTo db k IsItem) (h : walkItemsFrom db n k p = .ok m) :
    ∀ e ∈ m, EntryOk db e.2 := by
  induction n generalizing k p m with
  | zero => simp [walkItemsFrom] at h
  | succ n ih =>
    unfold walkItemsFrom at h
    obtain ⟨i, hi, h⟩ := Res.bind_eq_ok h
    obtain ⟨o, h1, h2, h3⟩ := item_shape ht.closed hi
    have ht' := ht.typed k o h1
    unfold WellTyped at ht'
    intro e he
    cases hty : i.itemtype with
    | file =>
      rw [hty] at h
      simp only [Res.pure_eq, Res.ok.injEq] at h
      subst h
      have : e.2 = (k, false) := (mem_insert he).resolve_left (by simp)
      rw [this]
      refine ⟨o, h1, ?_⟩
      simp only [Bool.false_eq_true, if_false]
      rcases h3 with ⟨h3, _⟩ | ⟨h3, _⟩ | ⟨_, h3, _⟩
      · exact .inl (.inl h3)
      · exact .inr h3
      · rw [hty] at h3; simp at h3
    | dir =>
      rw [hty] at h
      simp only at h
      rcases mem_extendAll h he with he | ⟨b, hb, m', h4, e', h5, h6⟩
      · split at he
        · simp at he
        · rename_i hp
          have : e.2 = (k, true) := (mem_insert he).resolve_left (by simp)
          rw [this]
          obtain ⟨o', g1, g2⟩ := hk hp
          rw [h1] at g1
          simp at g1
          subst g1
          refine ⟨o, h1, ?_⟩
          simp only [if_true]
          rcases h3 with ⟨h3, _⟩ | ⟨_, h3, _⟩ | ⟨h3, _⟩
          · rw [h3] at g2; rcases g2 with g2 | g2 <;> simp at g2
          · rw [hty] at h3; simp at h3
          · exact h3
      · rw [h6]
        have hbk : b.1 ∈ i.children := (List.of_mem_zip hb).1
        rcases h3 with ⟨_, h3⟩ | ⟨_, h3, _⟩ | ⟨h3, _, h7⟩
        · rw [h3] at hbk; simp at hbk
        · rw [hty] at h3; simp at h3
        · rw [h3] at ht'
          exact ih (fun _ => ht'.1 _ (h7 ▸ hbk)) h4 e' h5

theorem walkItems_typed {db : Db} (ht : Typed db) {n : Nat} {k : Key} {m : PMap (Key × Bool)} (h : walkItems db n k = .ok m) : ∀ e ∈ m, EntryOk db e.2 :=
  walkItemsFrom_typed ht (fun h => (h rfl).elim) h

theorem toItems_typed {db : Db} (ht : Typed db) {n : Nat} {t : Option Key} {m : PMap (Key × Bool)} (h : toItems db n t = .ok m) : ∀ e ∈ m, EntryOk db e.2 := by
  cases t with
  | none => simp [toItems] at h; subst h; simp
  | some t => exact walkItems_typed ht h

/-- Listing a tree fails only if there is none. -/
theorem walkItemsFrom_err {db : Db} (ht : Typed db) {n : Nat} {k : Key} {p : Path} {e : Err} (h : walkItemsFrom db n k p = .err e) : ¬ IsTree db k := by
  induction n generalizing k p e with
  | zero => simp [walkItemsFrom] at h
  | succ n ih =>
    rintro ⟨i, hi⟩
    unfold walkItemsFrom at h
    rw [hi, Res.ok_bind] at h
    obtain ⟨o, h1, h2, h3⟩ := item_shape ht.closed hi
    have ht' := ht.typed k o h1
    unfold WellTyped at ht'
    cases hty : i.itemtype with
    | file => rw [hty] at h; simp at h
    | dir =>
      rw [hty] at h
      simp only at h
      obtain ⟨b, hb, e', h4⟩ := extendAll_err h
      have hbk : b.1 ∈ i.children := (List.of_mem_zip hb).1
      rcases h3 with ⟨_, h3⟩ | ⟨_, h3, _⟩ | ⟨h3, _, h7⟩
      · rw [h3] at hbk; simp at hbk
      · rw [hty] at h3; simp at h3
      · rw [h3] at ht'
        exact ih h4 (isTree_of ht.closed (ht'.1 _ (h7 ▸ hbk)))

/-- Listing a tree succeeds or there is no tree. -/
theorem walkItems_cases {db : Db} (ht : Typed db) {n : Nat} (hn : db.data.length < n) (k : Key) : (∃ m, walkItems db n k = .ok m ∧ IsTree db k) ∨ ((∃ e, walkItems db n k = .err e) ∧ ¬ IsTree db k) := by
  have h1 := walkItems_calm db n k
  have h2 := walkItems_fuel ht.closed n hn k
  cases h : walkItems db n k with
  | ok m =>
    refine .inl ⟨m, rfl, ?_⟩
    obtain ⟨n, rfl⟩ : ∃ m, n = m + 1 := ⟨n - 1, by omega⟩
    unfold walkItems walkItemsFrom at h
    obtain ⟨i, hi, _⟩ := Res.bind_eq_ok h
    exact ⟨i, hi⟩
  | err e => exact .inr ⟨⟨e, rfl⟩, walkItemsFrom_err ht h⟩
  | panic => exact (h1 h).elim
  | fuel => exact (h2 h).elim

/-- Reading a commit succeeds or panics. -/
theorem fromKey_cases {db : Db} (hc : Closed db) (k : Key) :
    (∃ c, Commit.fromKey db k = .ok c ∧ LeadsTo db k (· = .commit)) ∨ (Commit.fromKey db k = .panic ∧ ¬ LeadsTo db k (· = .commit)) := by
  unfold Commit.fromKey LeadsTo
  cases h : getObj db k with
  | panic => exact (getObj_calm db k h).elim
  | fuel => exact (getObj_fuel db k h).elim
  | err e => exact .inr ⟨rfl, by simp⟩
  | ok o =>
    have hs := (closed_shape hc h).commit_iff
    have h0 := commitOf_fuel o
    simp only [Res.unwrap, Res.ok_bind]
    cases h' : Commit.ofObject o with
    | ok c => exact .inl ⟨c, rfl, o, rfl, hs.mp ⟨c, h'⟩⟩
    | err e => exact .inr ⟨rfl, by rintro ⟨o', h1, h2⟩; simp at h1; subst h1; obtain ⟨c, h3⟩ := hs.mpr h2; rw [h'] at h3; simp at h3⟩
    | panic => exact .inr ⟨rfl, by rintro ⟨o', h1, h2⟩; simp at h1; subst h1; obtain ⟨c, h3⟩ := hs.mpr h2; rw [h'] at h3; simp at h3⟩
    | fuel => exact (h0 h').elim

/-! ### What is displayed of a commit -/

/-- The tree a commit is compared with: that of its first parent, none if it has no parents. -/
def Before (db : Db) (c : Commit) (b : Option Key) : Prop := (c.parents = [] ∧ b = none) ∨ ∃ p ps c', c.parents = p :: ps ∧ Commit.fromKey db p = .ok c' ∧ b = some c'.tree

/-- A new file that is not text. -/
def NewData (db : Db) (n : Nat) (A B : PMap (Key × Bool)) : Prop := ∃ x k c, (x, k, false) ∈ A ∧ x ∉ B.map (·.1) ∧ readAll db n k = .ok c ∧ utf8 c = false

/-- Something is in both trees, differs, and is a directory in one of them. -/
def DirDiffers (A B : PMap (Key × Bool)) : Prop := ∃ x a b, (x, a) ∈ A ∧ (x, b) ∈ B ∧ a.1 ≠ b.1 ∧ (a.2 = true ∨ b.2 = true)

/-- Why the display of a commit panics: its first parent is not a commit; its tree, or that of its first parent, is neither file nor directory; something was removed; or something that
is a directory before or after differs (if patches are displayed and there is a new file that is not text, then there is an error instead). -/
def Undisplayable (db : Db) (n : Nat) (kind : Kind) (c : Commit) : Prop :=
  (∃ p ps, c.parents = p :: ps ∧ ¬ LeadsTo db p (· = .commit)) ∨
  ∃ before, Before db c before ∧ (¬ IsTree db c.tree ∨ (∃ t, before = some t ∧ ¬ IsTree db t) ∨
    ∃ A B, walkItems db n c.tree = .ok A ∧ toItems db n before = .ok B ∧
      ((∃ x ∈ B.map (·.1), x ∉ A.map (·.1)) ∨ (DirDiffers A B ∧ ¬ (kind = .patch ∧ NewData db n A B))))

theorem mapRes_ok_of {α β : Type} {f : α → Res β} {l : List α} (h : ∀ a ∈ l, ∃ b, f a = .ok b) : ∃ r, mapRes f l = .ok r := by
  induction l with
  | nil => exact ⟨[], rfl⟩
  | cons a l ih =>
    obtain ⟨b, hb⟩ := h a (by simp)
    obtain ⟨r, hr⟩ := ih fun x hx => h x (by simp [hx])
    exact ⟨b :: r, by simp only [mapRes, hb, hr, Res.ok_bind]; rfl⟩

theorem mapRes_bind_ok {α β γ : Type} {f : α → Res β} {l : List α} (g : List β → γ) (h : ∀ a ∈ l, ∃ b, f a = .ok b) : ∃ r, (do
    let r ← mapRes f l
    pure (g r) : Res γ) = .ok r := by
  obtain ⟨r, hr⟩ := mapRes_ok_of h
  exact ⟨g r, by rw [hr]; rfl⟩

section
variable {db : Db} (ht : Typed db) {n : Nat} (hn : db.data.length < n) {A B : PMap (Key × Bool)} (oA : A.Ok) (oB : B.Ok) (eA : ∀ e ∈ A, EntryOk db e.2) (eB : ∀ e ∈ B, EntryOk db e.2)

include ht hn in
theorem entry_reads {v : Key × Bool} (h : EntryOk db v) : (v.2 = false ∧ ∃ c, readAll db n v.1 = .ok c) ∨ (v.2 = true ∧ readAll db n v.1 = .panic) := by
  unfold EntryOk at h
  cases hv : v.2 with
  | false => rw [hv] at h; exact .inl ⟨rfl, readAll_typed ht hn (by simpa using h)⟩
  | true => rw [hv] at h; exact .inr ⟨rfl, readAll_leads (by omega) (by simpa using h)⟩

include oA in
/-- The added entries. -/
theorem addD_mem {x : Path} (hx : x ∈ A.map (·.1)) : ∃ v, (x, v) ∈ A ∧ addD A x = ⟨x, v.2, some v.1⟩ := by
  obtain ⟨v, hv⟩ := (PMap.get_some_iff (oA.key_norm hx)).mpr hx
  exact ⟨v, (PMap.get_iff oA (oA.key_norm hx)).mp hv, by simp [addD, hv]⟩

include oA oB in
theorem modD_mem {x : Path} (hx : x ∈ A.map (·.1)) (hx' : x ∈ B.map (·.1)) : ∃ a b, (x, a) ∈ A ∧ (x, b) ∈ B ∧ modD A B x = if a.1 = b.1 then none else some ⟨x, b.1, a.1⟩ := by
  obtain ⟨a, ha⟩ := (PMap.get_some_iff (oA.key_norm hx)).mpr hx
  obtain ⟨b, hb⟩ := (PMap.get_some_iff (oA.key_norm hx)).mpr hx'
  exact ⟨a, b, (PMap.get_iff oA (oA.key_norm hx)).mp ha, (PMap.get_iff oB (oA.key_norm hx)).mp hb, by simp [modD, ha, hb]⟩

include ht hn in
theorem modified_cases {α : Type} (g : Modified → Bytes → Bytes → Res α) (hg : ∀ m b a, ∃ r, g m b a = .ok r) {x : Path} {a b : Key × Bool} (ha : EntryOk db a) (hb : EntryOk db b) :
    ((a.2 = false ∧ b.2 = false) ∧ ∃ r, (do
      let before ← (readAll db n b.1).unwrap
      let after ← (readAll db n a.1).unwrap
      g ⟨x, b.1, a.1⟩ before after : Res α) = .ok r) ∨ ((a.2 = true ∨ b.2 = true) ∧ (do
      let before ← (readAll db n b.1).unwrap
      let after ← (readAll db n a.1).unwrap
      g ⟨x, b.1, a.1⟩ before after : Res α) = .panic) := by
  rcases entry_reads ht hn hb with ⟨b1, cb, b2⟩ | ⟨b1, b2⟩
  · rcases entry_reads ht hn ha with ⟨a1, ca, a2⟩ | ⟨a1, a2⟩
    · rw [b2, a2]
      obtain ⟨r, hr⟩ := hg ⟨x, b.1, a.1⟩ cb ca
      exact .inl ⟨⟨a1, b1⟩, r, hr⟩
    · rw [b2, a2]
      exact .inr ⟨.inl a1, rfl⟩
  · rw [b2]
    exact .inr ⟨.inr b1, rfl⟩

include ht hn oA oB eA eB in
/-- The modified files. -/
theorem mapRes_modified {α : Type} (g : Modified → Bytes → Bytes → Res α) (hg : ∀ m b a, ∃ r, g m b a = .ok r) {l : List Modified} (hl : l.Perm ((inBoth A B).filterMap (modD A B))) :
    (DirDiffers A B ∧ mapRes (fun m : Modified => do
      let before ← (readAll db n m.originalKey).unwrap
      let after ← (readAll db n m.newKey).unwrap
      g m before after) l = .panic) ∨ (¬ DirDiffers A B ∧ ∃ r, mapRes (fun m : Modified => do
      let before ← (readAll db n m.originalKey).unwrap
      let after ← (readAll db n m.newKey).unwrap
      g m before after) l = .ok r) := by
  have hmem : ∀ m ∈ l, ∃ x a b, (x, a) ∈ A ∧ (x, b) ∈ B ∧ a.1 ≠ b.1 ∧ m = ⟨x, b.1, a.1⟩ := by
    intro m hm
    obtain ⟨x, hx, hxm⟩ := List.mem_filterMap.mp (hl.subset hm)
    obtain ⟨h1, h2⟩ := mem_inBoth.mp hx
    obtain ⟨a, b, h3, h4, h5⟩ := modD_mem oA oB h1 h2
    rw [h5] at hxm
    split at hxm
    · simp at hxm
    · rename_i hne
      exact ⟨x, a, b, h3, h4, hne, by simpa using hxm.symm⟩
  by_cases hd : DirDiffers A B
  · refine .inl ⟨hd, mapRes_panic ?_ ?_⟩
    · intro m hm
      obtain ⟨x, a, b, h1, h2, h3, rfl⟩ := hmem m hm
      rcases modified_cases ht hn g hg (x := x) (eA _ h1) (eB _ h2) with h | h
      · exact .inl h.2
      · exact .inr h.2
    · obtain ⟨x, a, b, h1, h2, h3, h4⟩ := hd
      have hx : x ∈ A.map (·.1) := List.mem_map.mpr ⟨_, h1, rfl⟩
      have hx' : x ∈ B.map (·.1) := List.mem_map.mpr ⟨_, h2, rfl⟩
      refine ⟨⟨x, b.1, a.1⟩, hl.symm.subset (List.mem_filterMap.mpr ⟨x, mem_inBoth.mpr ⟨hx, hx'⟩, ?_⟩), ?_⟩
      · have ha := (PMap.get_iff oA (oA.key_norm hx)).mpr h1
        have hb := (PMap.get_iff oB (oA.key_norm hx)).mpr h2
        simp [modD, ha, hb, h3]
      · rcases modified_cases ht hn g hg (x := x) (eA _ h1) (eB _ h2) with h | h
        · obtain ⟨⟨h5, h6⟩, _⟩ := h
          simp only at h5 h6
          rcases h4 with h4 | h4 <;> simp_all
        · exact h.2
  · refine .inr ⟨hd, mapRes_ok_of ?_⟩
    intro m hm
    obtain ⟨x, a, b, h1, h2, h3, rfl⟩ := hmem m hm
    rcases modified_cases ht hn g hg (x := x) (eA _ h1) (eB _ h2) with h | h
    · exact h.2
    · exact (hd ⟨x, a, b, h1, h2, h3, h.1⟩).elim

include ht hn oA eA in
/-- The added files can be counted. -/
theorem countStat_added {l : List Added} (hl : l.Perm ((onlyIn A B).map (addD A))) (mk : Added → Nat → FileStat) : ∃ r, countStat db n Added.isDir Added.newKey mk l = .ok r := by
  unfold countStat
  refine mapRes_bind_ok _ fun a ha => ?_
  · · rw [List.mem_filter] at ha
      obtain ⟨x, hx, rfl⟩ := List.mem_map.mp (hl.subset ha.1)
      obtain ⟨v, h1, h2⟩ := addD_mem oA (mem_onlyIn.mp hx).1
      rw [h2] at ha ⊢
      rcases entry_reads ht hn (eA _ h1) with ⟨_, c, h3⟩ | ⟨h3, _⟩
      · simp only at h3
        simp only [lineCt, h3, Res.unwrap, Res.ok_bind, Res.pure_eq]
        exact ⟨_, rfl⟩
      · simp only at h3
        simp [h3] at ha

include ht hn oA eA in
/-- The patches of the added files: an error if one of them is not text. -/
theorem patches_added (lib : DiffLib) {l : List Added} (hl : l.Perm ((onlyIn A B).map (addD A))) :
    (NewData db n A B ∧ filePatches Added.isDir Added.newKey (fun x k => addedPatch lib db n x.path k) l = .err .binaryPatch) ∨
      (¬ NewData db n A B ∧ ∃ r, filePatches Added.isDir Added.newKey (fun x k => addedPatch lib db n x.path k) l = .ok r) := by
  have hone : ∀ a ∈ l, a.isDir = false → ∃ x k c, a = ⟨x, false, some k⟩ ∧ (x, k, false) ∈ A ∧ x ∉ B.map (·.1) ∧ readAll db n k = .ok c := by
    intro a ha hd
    obtain ⟨x, hx, rfl⟩ := List.mem_map.mp (hl.subset ha)
    obtain ⟨v, h1, h2⟩ := addD_mem oA (mem_onlyIn.mp hx).1
    rw [h2] at hd ⊢
    simp only at hd
    rcases entry_reads ht hn (eA _ h1) with ⟨_, c, h3⟩ | ⟨h3, _⟩
    · obtain ⟨k, b⟩ := v
      simp only at hd
      subst hd
      exact ⟨x, k, c, rfl, h1, (mem_onlyIn.mp hx).2, h3⟩
    · simp only at h3
      rw [h3] at hd
      simp at hd
  by_cases hb : NewData db n A B
  · refine .inl ⟨hb, ?_⟩
    unfold filePatches
    rw [mapRes_err (e := .binaryPatch)]
    · rfl
    · intro a ha
      rw [List.mem_filter] at ha
      obtain ⟨x, k, c, rfl, h1, h2, h3⟩ := hone a ha.1 (by simpa using ha.2)
      simp only [addedPatch, h3, Res.unwrap, Res.ok_bind]
      cases utf8 c
      · exact .inr rfl
      · exact .inl ⟨_, rfl⟩
    · obtain ⟨x, k, c, h1, h2, h3, h4⟩ := hb
      have hx : x ∈ A.map (·.1) := List.mem_map.mpr ⟨_, h1, rfl⟩
      refine ⟨⟨x, false, some k⟩, List.mem_filter.mpr ⟨hl.symm.subset (List.mem_map.mpr ⟨x, mem_onlyIn.mpr ⟨hx, h2⟩, ?_⟩), rfl⟩, ?_⟩
      · have := (PMap.get_iff oA (oA.key_norm hx)).mpr h1
        simp [addD, this]
      · simp only [addedPatch, h3, Res.unwrap, Res.ok_bind, h4]
        rfl
  · refine .inr ⟨hb, ?_⟩
    unfold filePatches
    refine mapRes_bind_ok _ fun a ha => ?_
    · · rw [List.mem_filter] at ha
        obtain ⟨x, k, c, rfl, h1, h2, h3⟩ := hone a ha.1 (by simpa using ha.2)
        have : utf8 c = true := by
          cases h : utf8 c with
          | true => rfl
          | false => exact (hb ⟨x, k, c, h1, h2, h3, h⟩).elim
        simp only [addedPatch, h3, Res.unwrap, Res.ok_bind, this, if_true, Res.pure_eq]
        exact ⟨_, rfl⟩
end

section
variable {E : Env} {lib : DiffLib} {fs : Fs} {iter : Nat → List Path → List Path} (hi : IterOk iter) {n : Nat} {db : Db} (ht : Typed db) (hn : db.data.length < n)
include hi ht hn

/-- The display of the changes panics for the causes given, and only for them; else it is shown, or a new file is not text. -/
theorem displayChanges_cases {kind : Kind} {c : Commit} (out : List Out) :
    ((displayChanges E lib fs iter n kind c (db, out)).1 = .panic ∧ Undisplayable db n kind c) ∨
    (¬ Undisplayable db n kind c ∧ ((displayChanges E lib fs iter n kind c (db, out)).1 = .ok () ∨ kind = .patch ∧ (displayChanges E lib fs iter n kind c (db, out)).1 = .err .binaryPatch)) := by
  have main : ∀ before, Before db c before → (∀ p ps, c.parents = p :: ps → LeadsTo db p (· = .commit)) →
      let x : P Unit := (do
        let dr ← SM.unwrap (compareDb E fs iter n (some c.tree) before)
        match kind with
        | .stat => do
          let l ← SM.read (fun s => printedStat lib s.1 n dr)
          say (.stats l)
        | .patch => do
          let l ← SM.read (fun s => createPatch lib s.1 n dr)
          say (.patches l))
      ((x (db, out)).1 = .panic ∧ Undisplayable db n kind c) ∨ (¬ Undisplayable db n kind c ∧ ((x (db, out)).1 = .ok () ∨ kind = .patch ∧ (x (db, out)).1 = .err .binaryPatch)) := by
    intro before hb hp x
    have huniq : ∀ b, Before db c b → b = before := by
      intro b hb'
      rcases hb with ⟨h1, rfl⟩ | ⟨p, ps, c', h1, h2, rfl⟩ <;> rcases hb' with ⟨g1, rfl⟩ | ⟨p', ps', c'', g1, g2, rfl⟩
      · rfl
      · rw [h1] at g1; simp at g1
      · rw [h1] at g1; simp at g1
      · rw [h1] at g1
        simp only [List.cons.injEq] at g1
        rw [← g1.1, h2] at g2
        simp at g2
        rw [g2]
    have hx : x (db, out) = (match (compare E fs iter n (.database c.tree) before (db, {})).1.unwrap with
        | .ok dr => (match kind with
          | .stat => (do
            let l ← SM.read (fun s => printedStat lib s.1 n dr)
            say (.stats l) : P Unit)
          | .patch => do
            let l ← SM.read (fun s => createPatch lib s.1 n dr)
            say (.patches l)) (db, out)
        | .err e => (.err e, (db, out))
        | .panic => (.panic, (db, out))
        | .fuel => (.fuel, (db, out))) := by
      show (_ >>= _ : P Unit) (db, out) = _
      rw [SM.bind_apply]
      simp only [SM.unwrap, compareDb, compare_database_state]
      cases (compare E fs iter n (.database c.tree) before (db, {})).1 <;> rfl
    rcases walkItems_cases ht hn c.tree with ⟨A, hA, hA'⟩ | ⟨⟨e, he⟩, hA'⟩
    · have hB : (∃ B, toItems db n before = .ok B ∧ ∀ t, before = some t → IsTree db t) ∨ ∃ t e, before = some t ∧ walkItems db n t = .err e ∧ ¬ IsTree db t := by
        cases before with
        | none => exact .inl ⟨[], rfl, nofun⟩
        | some t =>
          rcases walkItems_cases ht hn t with ⟨B, hB, hB'⟩ | ⟨⟨e, he⟩, hB'⟩
          · exact .inl ⟨B, hB, fun t' h => by simp at h; exact h ▸ hB'⟩
          · exact .inr ⟨t, e, rfl, he, hB'⟩
      rcases hB with ⟨B, hB, hB'⟩ | ⟨t, e, rfl, he, hB'⟩
      · have okA := walkItemsFrom_okMap hA
        have okB := toItems_okMap hB
        have eA := walkItems_typed ht hA
        have eB := toItems_typed ht hB
        have hnot : ¬ (∃ x ∈ B.map (·.1), x ∉ A.map (·.1)) → ¬ (DirDiffers A B ∧ ¬ (kind = .patch ∧ NewData db n A B)) → ¬ Undisplayable db n kind c := by
          rintro hr hd (⟨p, ps, h1, h2⟩ | ⟨b, h1, h2⟩)
          · exact h2 (hp p ps h1)
          · have := huniq b h1
            subst this
            rcases h2 with h2 | ⟨t, h3, h4⟩ | ⟨A', B', h3, h4, h5⟩
            · exact h2 hA'
            · exact h4 (hB' t h3)
            · rw [hA] at h3
              rw [hB] at h4
              simp only [Res.ok.injEq] at h3 h4
              subst h3 h4
              rcases h5 with h5 | h5
              · exact hr h5
              · exact hd h5
        have hcmp := compare_db (E := E) (fs := fs) hi (ca := {}) hA hB
        by_cases hr : ∃ x ∈ B.map (·.1), x ∉ A.map (·.1)
        · refine .inl ⟨?_, .inr ⟨before, hb, .inr (.inr ⟨A, B, hA, hB, .inl hr⟩)⟩⟩
          rw [hx, hcmp, if_neg]
          · rfl
          · intro h0
            obtain ⟨x, h1, h2⟩ := hr
            have := mem_onlyIn.mpr ⟨h1, h2⟩
            rw [h0] at this
            simp at this
        · have h0 : onlyIn B A = [] := by
            rw [List.eq_nil_iff_forall_not_mem]
            intro x hx
            exact hr ⟨x, mem_onlyIn.mp hx⟩
          rw [hx, hcmp, if_pos h0]
          simp only [Res.unwrap]
          have hadd : (sortBy Added.le ((iter 0 (onlyIn A B)).map (addD A))).Perm ((onlyIn A B).map (addD A)) := (sortBy_perm _ _).trans ((hi 0 _).map _)
          have hmod : (sortBy Modified.le ((iter 2 (inBoth A B)).filterMap (modD A B))).Perm ((inBoth A B).filterMap (modD A B)) := (sortBy_perm _ _).trans ((hi 2 _).filterMap _)
          cases kind with
          | stat =>
            obtain ⟨ra, hra⟩ := countStat_added (B := B) ht hn okA eA hadd (fun x c => ⟨x.path, c, 0⟩)
            have hm := mapRes_modified ht hn okA okB eA eB (fun m before after => (pure ⟨m.path, (lib.lines (lib.lossy before) (lib.lossy after)).count .right,
              (lib.lines (lib.lossy before) (lib.lossy after)).count .left⟩ : Res FileStat)) (fun _ _ _ => ⟨_, rfl⟩) hmod
            have hd0 : countStat db n Deleted.isDir Deleted.originalKey (fun x c => ⟨x.path, 0, c⟩) [] = .ok [] := rfl
            rcases hm with ⟨h1, h2⟩ | ⟨h1, r, h2⟩
            · refine .inl ⟨?_, .inr ⟨before, hb, .inr (.inr ⟨A, B, hA, hB, .inr ⟨h1, by simp⟩⟩)⟩⟩
              show ((_ >>= _ : P Unit) (db, out)).1 = _
              rw [SM.bind_apply]
              simp only [SM.read, printedStat, lineStat, hra, hd0, Res.ok_bind]
              have h3 : mapRes (modifiedStat lib db n) (sortBy Modified.le ((iter 2 (inBoth A B)).filterMap (modD A B))) = .panic := h2
              rw [h3]
              rfl
            · refine .inr ⟨hnot hr (fun h => h1 h.1), .inl ?_⟩
              show ((_ >>= _ : P Unit) (db, out)).1 = _
              rw [SM.bind_apply]
              have h3 : mapRes (modifiedStat lib db n) (sortBy Modified.le ((iter 2 (inBoth A B)).filterMap (modD A B))) = .ok r := h2
              simp only [SM.read, printedStat, lineStat, hra, hd0, Res.ok_bind, h3]
              rfl
          | patch =>
            have hd0 : filePatches Deleted.isDir Deleted.originalKey (fun x k => removedPatch lib db n x.path k) [] = .ok [] := rfl
            rcases patches_added (B := B) ht hn okA eA lib hadd with ⟨h1, h2⟩ | ⟨h1, ra, h2⟩
            · refine .inr ⟨hnot hr (fun h => h.2 ⟨rfl, h1⟩), .inr ⟨rfl, ?_⟩⟩
              show ((_ >>= _ : P Unit) (db, out)).1 = _
              rw [SM.bind_apply]
              simp only [SM.read, createPatch, h2]
              rfl
            · have hm := mapRes_modified ht hn okA okB eA eB (fun m before after => patchFrom lib (lib.lossy before) (lib.lossy after) m.path)
                (fun m b a => ⟨_, by unfold patchFrom; rw [hunksOf_eq]; rfl⟩) hmod
              rcases hm with ⟨h3, h4⟩ | ⟨h3, r, h4⟩
              · refine .inl ⟨?_, .inr ⟨before, hb, .inr (.inr ⟨A, B, hA, hB, .inr ⟨h3, fun h => h1 h.2⟩⟩)⟩⟩
                show ((_ >>= _ : P Unit) (db, out)).1 = _
                rw [SM.bind_apply]
                have h5 : mapRes (modifiedPatch lib db n) (sortBy Modified.le ((iter 2 (inBoth A B)).filterMap (modD A B))) = .panic := h4
                simp only [SM.read, createPatch, h2, hd0, Res.ok_bind, h5]
                rfl
              · refine .inr ⟨hnot hr (fun h => h3 h.1), .inl ?_⟩
                show ((_ >>= _ : P Unit) (db, out)).1 = _
                rw [SM.bind_apply]
                have h5 : mapRes (modifiedPatch lib db n) (sortBy Modified.le ((iter 2 (inBoth A B)).filterMap (modD A B))) = .ok r := h4
                simp only [SM.read, createPatch, h2, hd0, Res.ok_bind, h5]
                rfl
      · refine .inl ⟨?_, .inr ⟨some t, hb, .inr (.inl ⟨t, rfl, hB'⟩)⟩⟩
        have : (compare E fs iter n (.database c.tree) (some t) (db, {})).1 = .err e := by
          unfold compare
          simp only [SM.bind_apply, SM.read_apply, hA, SM.pure_apply, he]
        rw [hx, this]
        rfl
    · refine .inl ⟨?_, .inr ⟨before, hb, .inl hA'⟩⟩
      have : (compare E fs iter n (.database c.tree) before (db, {})).1 = .err e := by
        unfold compare
        simp only [SM.bind_apply, SM.read_apply, he]
      rw [hx, this]
      rfl
  unfold displayChanges
  cases hp : c.parents with
  | nil =>
    have := main none (.inl ⟨hp, rfl⟩) (fun p ps h => by rw [hp] at h; simp at h)
    cases kind <;> simpa only [SM.bind_apply, SM.pure_apply] using this
  | cons p ps =>
    rcases fromKey_cases ht.closed p with ⟨c', h1, h2⟩ | ⟨h1, h2⟩
    · have := main (some c'.tree) (.inr ⟨p, ps, c', hp, h1, rfl⟩) (fun p' ps' h => by rw [hp] at h; simp at h; exact h.1 ▸ h2)
      cases kind <;> simpa only [SM.bind_apply, SM.read_apply, h1, SM.pure_apply] using this
    · refine .inl ⟨?_, .inl ⟨p, ps, hp, h2⟩⟩
      simp only [SM.bind_apply, SM.read_apply, h1]

omit hi ht hn in
/-- A commit read by its key, as the display reads it. -/
theorem fromKey_obj {k : Key} {o : Object} (ho : getObj db k = .ok o) : Commit.fromKey db k = (Commit.ofObject o).unwrap := by
  unfold Commit.fromKey
  rw [ho]
  rfl

/-- `show` of a stored key. -/
theorem displayObj_panic {kind : Kind} {f : Nat} {k : Key} (hk : Stored db k) (hf : 0 < f) (out : List Out) :
    (displayObj E lib fs iter n kind f k (db, out)).1 = .panic ↔ ∃ c, Commit.fromKey db k = .ok c ∧ Undisplayable db n kind c := by
  obtain ⟨f, rfl⟩ : ∃ m, f = m + 1 := ⟨f - 1, by omega⟩
  obtain ⟨o, ho⟩ := closed_getObj ht.closed hk
  have hT : ∀ {k : Key} {o : Object}, getObj db k = .ok o → o.objtype ≠ .commit → ¬ ∃ c, Commit.fromKey db k = .ok c ∧ Undisplayable db n kind c := by
    rintro k o ho hne ⟨c, h1, _⟩
    rcases fromKey_cases ht.closed k with ⟨c', _, o', h2, h3⟩ | ⟨h2, _⟩
    · rw [ho] at h2; simp at h2; exact hne (h2 ▸ h3)
    · rw [h1] at h2; simp at h2
  have hdata : ∀ (f : Nat) (k : Key) (out : List Out), LeadsTo db k IsData → (displayObj E lib fs iter n kind f k (db, out)).1 ≠ .panic := by
    intro f k out hd
    cases f with
    | zero => exact nofun
    | succ f =>
      obtain ⟨o, ho, hty⟩ := hd
      unfold displayObj
      rw [SM.bind_apply]
      simp only [SM.read, ho, Res.unwrap]
      have hr : (readDataTo db (fun d => SM.modify (· ++ [Out.data d])) n k out).1 ≠ .panic := by
        intro h
        obtain ⟨t, h1, h2⟩ := leads_unique (⟨o, ho, hty⟩ : LeadsTo db k IsData) (readDataTo_panic ht (fun d => calm_modify _) n k out h)
        rcases h1 with rfl | rfl <;> rcases h2 with h2 | h2 <;> simp at h2
      rcases hty with hty | hty <;> rw [hty] <;> exact hr
  have ht' := ht.typed k o ho
  unfold WellTyped at ht'
  unfold displayObj
  rw [SM.bind_apply]
  simp only [SM.read, ho, Res.unwrap]
  cases hty : o.objtype with
  | fileBlob =>
    refine iff_of_false ?_ (hT ho (by rw [hty]; simp))
    have := hdata (f + 1) k out ⟨o, ho, .inl hty⟩
    unfold displayObj at this
    rw [SM.bind_apply] at this
    simpa only [SM.read, ho, Res.unwrap, hty] using this
  | fileBlobTree =>
    refine iff_of_false ?_ (hT ho (by rw [hty]; simp))
    have := hdata (f + 1) k out ⟨o, ho, .inr hty⟩
    unfold displayObj at this
    rw [SM.bind_apply] at this
    simpa only [SM.read, ho, Res.unwrap, hty] using this
  | fsItemFile =>
    refine iff_of_false ?_ (hT ho (by rw [hty]; simp))
    rw [hty] at ht'
    obtain ⟨ck, h2, h3⟩ := ht'
    rw [h2]
    exact hdata f ck out h3
  | fsItemDir => exact iff_of_false nofun (hT ho (by rw [hty]; simp))
  | unknown => rw [hty] at ht'; exact ht'.elim
  | commit =>
    obtain ⟨c, hc⟩ := (closed_shape ht.closed ho).commit_iff.mpr hty
    have hfk := fromKey_obj ho
    rw [hc] at hfk
    have hfk : Commit.fromKey db k = .ok c := hfk
    have e : (∃ c, Commit.fromKey db k = .ok c ∧ Undisplayable db n kind c) ↔ Undisplayable db n kind c := by
      rw [hfk]
      exact ⟨by rintro ⟨c', h1, h2⟩; simp at h1; exact h1 ▸ h2, fun h => ⟨c, rfl, h⟩⟩
    rw [e]
    simp only [SM.bind_apply, SM.lift_apply, hc, Res.unwrap, say, SM.modify]
    rcases displayChanges_cases (E := E) (lib := lib) (fs := fs) hi ht hn (kind := kind) (c := c) (out ++ [.commit k c.attrs.message]) with ⟨h1, h2⟩ | ⟨h1, h2⟩
    · exact iff_of_true h1 h2
    · refine iff_of_false ?_ h1
      rcases h2 with h2 | ⟨_, h2⟩ <;> rw [h2] <;> exact nofun

/-- `show` of a commit with statistics: there are no errors. -/
theorem displayObj_stat {k : Key} {c : Commit} (hk : Commit.fromKey db k = .ok c) {f : Nat} (hf : 0 < f) (out : List Out) :
    (Undisplayable db n .stat c ∧ (displayObj E lib fs iter n .stat f k (db, out)).1 = .panic) ∨
    (¬ Undisplayable db n .stat c ∧ ∃ out', displayObj E lib fs iter n .stat f k (db, out) = (.ok (), (db, out'))) := by
  obtain ⟨f, rfl⟩ : ∃ m, f = m + 1 := ⟨f - 1, by omega⟩
  obtain ⟨o, ho, hc⟩ := fromKey_eq_ok.mp hk
  have hty := (closed_shape ht.closed ho).commit_iff.mp ⟨c, hc⟩
  have hdb := (haltsAt_displayChanges ht.closed hn E lib fs iter .stat c (out ++ [.commit k c.attrs.message])).2
  unfold displayObj
  simp only [SM.bind_apply, SM.read, ho, Res.unwrap, hty, SM.lift_apply, hc, say, SM.modify]
  rcases displayChanges_cases (E := E) (lib := lib) (fs := fs) hi ht hn (kind := .stat) (c := c) (out ++ [.commit k c.attrs.message]) with ⟨h1, h2⟩ | ⟨h1, h2⟩
  · exact .inl ⟨h2, h1⟩
  · refine .inr ⟨h1, ?_⟩
    rcases h2 with h2 | ⟨h2, _⟩
    · generalize displayChanges E lib fs iter n .stat c (db, out ++ [.commit k c.attrs.message]) = x at h2 hdb
      obtain ⟨r, d, o'⟩ := x
      simp only at h2 hdb
      subst h2 hdb
      exact ⟨o', rfl⟩
    · simp at h2

end

/-- The line of first parents. -/
inductive Line (db : Db) : Key → Key → Prop where
  | refl (k : Key) : Line db k k
  | step {k p k' : Key} {c : Commit} {ps : List Key} (h : Commit.fromKey db k = .ok c) (hp : c.parents = p :: ps) (t : Line db p k') : Line db k k'

section
variable {E : Env} {lib : DiffLib} {fs : Fs} {iter : Nat → List Path → List Path} (hi : IterOk iter) {n : Nat} {db : Db} (ht : Typed db) (hn : db.data.length < n)
include hi ht hn

theorem logLoop_panic {f : Nat} {c : Commit} (hd : ¬ Undisplayable db n .stat c) (hf : ∀ p ∈ c.parents, rank db p + 1 < f) (h0 : 0 < f) (out : List Out) :
    (logLoop E lib fs iter n .stat f c (db, out)).1 = .panic ↔ ∃ p ps k' c', c.parents = p :: ps ∧ Line db p k' ∧ Commit.fromKey db k' = .ok c' ∧ Undisplayable db n .stat c' := by
  induction f generalizing c out with
  | zero => omega
  | succ f ih =>
    unfold logLoop
    cases hp : c.parents with
    | nil => exact iff_of_false nofun (by simp)
    | cons p ps =>
      simp only [List.cons.injEq]
      have hpc : LeadsTo db p (· = .commit) := by
        by_cases h : LeadsTo db p (· = .commit)
        · exact h
        · exact (hd (.inl ⟨p, ps, hp, h⟩)).elim
      obtain ⟨c', hc', _⟩ := (fromKey_cases ht.closed p).resolve_right fun h => h.2 hpc
      have hiff : (∃ p' ps' k' c', (p = p' ∧ ps = ps') ∧ Line db p' k' ∧ Commit.fromKey db k' = .ok c' ∧ Undisplayable db n .stat c') ↔
          Undisplayable db n .stat c' ∨ ∃ p' ps' k' c'', c'.parents = p' :: ps' ∧ Line db p' k' ∧ Commit.fromKey db k' = .ok c'' ∧ Undisplayable db n .stat c'' := by
        constructor
        · rintro ⟨_, _, k', c'', ⟨rfl, rfl⟩, h1, h2, h3⟩
          cases h1 with
          | refl => rw [hc'] at h2; simp at h2; exact .inl (h2 ▸ h3)
          | step g1 g2 g3 => rw [hc'] at g1; simp at g1; subst g1; exact .inr ⟨_, _, k', c'', g2, g3, h2, h3⟩
        · rintro (h | ⟨p', ps', k', c'', h1, h2, h3, h4⟩)
          · exact ⟨p, ps, p, c', ⟨rfl, rfl⟩, .refl p, hc', h⟩
          · exact ⟨p, ps, k', c'', ⟨rfl, rfl⟩, .step hc' h1 h2, h3, h4⟩
      rw [hiff, SM.bind_apply]
      rcases displayObj_stat (E := E) (lib := lib) (fs := fs) hi ht hn hc' (f := n) (by omega) out with ⟨h1, h2⟩ | ⟨h1, out', h2⟩
      · refine iff_of_true ?_ (.inl h1)
        generalize displayObj E lib fs iter n .stat n p (db, out) = x at h2
        obtain ⟨r, s⟩ := x
        simp only at h2
        subst h2
        rfl
      · rw [h2]
        simp only [SM.bind_apply, SM.read, hc']
        have h3 := hf p (by rw [hp]; simp)
        rw [ih h1 (fun p' h => by have := (rank_parent ht.closed hc').2 p' h; omega) (by omega)]
        simp [h1]

/-- `log` of a stored key. -/
theorem logObj_panic {k : Key} (hk : Stored db k) (out : List Out) :
    (logObj E lib fs iter n .stat k (db, out)).1 = .panic ↔ ¬ LeadsTo db k (· = .commit) ∨ ∃ k' c, Line db k k' ∧ Commit.fromKey db k' = .ok c ∧ Undisplayable db n .stat c := by
  obtain ⟨o, ho⟩ := closed_getObj ht.closed hk
  unfold logObj
  rw [SM.bind_apply]
  simp only [SM.read, ho, Res.unwrap]
  have hT : o.objtype ≠ .commit → ¬ LeadsTo db k (· = .commit) := by
    rintro hne ⟨o', h1, h2⟩
    rw [ho] at h1
    simp at h1
    exact hne (h1 ▸ h2)
  cases hty : o.objtype with
  | commit =>
    have hl : LeadsTo db k (· = .commit) := ⟨o, ho, hty⟩
    obtain ⟨c, hc, _⟩ := (fromKey_cases ht.closed k).resolve_right fun h => h.2 hl
    have hiff : (¬ LeadsTo db k (· = .commit) ∨ ∃ k' c, Line db k k' ∧ Commit.fromKey db k' = .ok c ∧ Undisplayable db n .stat c) ↔
        Undisplayable db n .stat c ∨ ∃ p ps k' c', c.parents = p :: ps ∧ Line db p k' ∧ Commit.fromKey db k' = .ok c' ∧ Undisplayable db n .stat c' := by
      constructor
      · rintro (h | ⟨k', c'', h1, h2, h3⟩)
        · exact (h hl).elim
        · cases h1 with
          | refl => rw [hc] at h2; simp at h2; exact .inl (h2 ▸ h3)
          | step g1 g2 g3 => rw [hc] at g1; simp at g1; subst g1; exact .inr ⟨_, _, k', c'', g2, g3, h2, h3⟩
      · rintro (h | ⟨p', ps', k', c'', h1, h2, h3, h4⟩)
        · exact .inr ⟨k, c, .refl k, hc, h⟩
        · exact .inr ⟨k', c'', .step hc h1 h2, h3, h4⟩
    rw [hiff]
    simp only
    rw [SM.bind_apply]
    rcases displayObj_stat (E := E) (lib := lib) (fs := fs) hi ht hn hc (f := n) (by omega) out with ⟨h1, h2⟩ | ⟨h1, out', h2⟩
    · refine iff_of_true ?_ (.inl h1)
      generalize displayObj E lib fs iter n .stat n k (db, out) = x at h2
      obtain ⟨r, s⟩ := x
      simp only at h2
      subst h2
      rfl
    · rw [h2]
      simp only [SM.bind_apply, SM.read, hc]
      obtain ⟨g1, g2⟩ := rank_parent ht.closed hc
      rw [logLoop_panic hi ht hn h1 (fun p h => by have := g2 p h; omega) (by omega)]
      simp [h1]
  | fileBlob => exact iff_of_true rfl (.inl (hT (by rw [hty]; simp)))
  | fileBlobTree => exact iff_of_true rfl (.inl (hT (by rw [hty]; simp)))
  | fsItemFile => exact iff_of_true rfl (.inl (hT (by rw [hty]; simp)))
  | fsItemDir => exact iff_of_true rfl (.inl (hT (by rw [hty]; simp)))
  | unknown => exact iff_of_true rfl (.inl (hT (by rw [hty]; simp)))
end

/-! ### The commands -/

theorem keyOrHead_stored {db : Db} (hc : Closed db) {key : Option Keyish} {k : Key} (h : keyOrHead db key = .ok k) : Stored db k := by
  cases key with
  | some s => exact canonicalize_stored hc h
  | none =>
    obtain ⟨r, _, h2⟩ := Res.bind_eq_ok h
    exact reflogGet_stored hc h2

theorem keyOrHead_panic (db : Db) (key : Option Keyish) : keyOrHead db key = .panic ↔ ∃ s, key = some s ∧ AbsentKey db s := by
  cases key with
  | some s => simp [keyOrHead, canonicalize_panic]
  | none => simpa [keyOrHead] using getHeadKey_calm db

theorem readDb_then {g : Db → Res Key} {f : Key → Snap.C Unit} {s : Sys} {C : Prop} {D : Key → Prop} (hg : g s.db = .panic ↔ C) (hf : ∀ a, g s.db = .ok a → ((f a s).1 = .panic ↔ D a)) :
    ((readDb g >>= f) s).1 = .panic ↔ C ∨ ∃ a, g s.db = .ok a ∧ D a := by
  rw [readDb_bind]
  cases h : g s.db with
  | ok a =>
    rw [h] at hg
    have : ¬ C := fun hc => by have := hg.mpr hc; simp at this
    simp [hf a h, this]
  | err e =>
    rw [h] at hg
    have : ¬ C := fun hc => by have := hg.mpr hc; simp at this
    simp [this]
  | panic => exact iff_of_true rfl (.inl (hg.mp h))
  | fuel =>
    rw [h] at hg
    have : ¬ C := fun hc => by have := hg.mpr hc; simp at this
    simp [this]

/-- **C77** for `show`: it panics if and only if the given key is the text of a whole key that is not stored, or the key leads to a commit that cannot be displayed. -/
theorem C77_show (X : Ctx) (hi : IterOk X.iter) (w : World) (hs : w.Sound X.E.H) (R : Repo) (q : List Bytes) (hc : NoColl X.E.H (w.dbs q)) (hn : (w.dbs q).data.length < X.depth)
    (ho : Opens X w R q) (key : Option Keyish) :
    (mainRun X (.show key) w).1 = .panicked ↔ (∃ s, key = some s ∧ AbsentKey (w.dbs q) s) ∨
      ∃ k, keyOrHead (w.dbs q) key = .ok k ∧ ∃ c, Commit.fromKey (w.dbs q) k = .ok c ∧ Undisplayable (w.dbs q) X.depth .patch c := by
  have ht := typed_of hs q hc
  rw [panic_open (by simp) ho]
  exact readDb_then (keyOrHead_panic _ key) fun k hk => displayObj_panic hi ht hn (keyOrHead_stored ht.closed hk) (by omega) []

/-- **C77** for `log`: it panics if and only if the given key is the text of a whole key that is not stored, or the key does not lead to a commit, or one of the commits in the line
of first parents cannot be displayed. -/
theorem C77_log (X : Ctx) (hi : IterOk X.iter) (w : World) (hs : w.Sound X.E.H) (R : Repo) (q : List Bytes) (hc : NoColl X.E.H (w.dbs q)) (hn : (w.dbs q).data.length < X.depth)
    (ho : Opens X w R q) (key : Option Keyish) :
    (mainRun X (.log key) w).1 = .panicked ↔ (∃ s, key = some s ∧ AbsentKey (w.dbs q) s) ∨
      ∃ k, keyOrHead (w.dbs q) key = .ok k ∧ (¬ LeadsTo (w.dbs q) k (· = .commit) ∨ ∃ k' c, Line (w.dbs q) k k' ∧ Commit.fromKey (w.dbs q) k' = .ok c ∧ Undisplayable (w.dbs q) X.depth .stat c) := by
  have ht := typed_of hs q hc
  rw [panic_open (by simp) ho]
  exact readDb_then (keyOrHead_panic _ key) fun k hk => logObj_panic hi ht hn (keyOrHead_stored ht.closed hk) []

end Snap.Props
