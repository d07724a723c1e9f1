import Verif.Model.Flaky
/-! Functions with failing queries (Model/Flaky.lean) against those without: equal up to the first query that fails, which is the last query made. -/
namespace Snap.Flaky
set_option linter.unusedSectionVars false
variable [Serde] [LawfulSerde]

/-- The queries from number `n` up to before `m` are answered. -/
def Answered (F : Hitches) (n m : Nat) : Prop := n ≤ m ∧ ∀ i, n ≤ i → i < m → F i = none

theorem Answered.refl (F : Hitches) (n : Nat) : Answered F n n := ⟨Nat.le_refl n, fun i h h' => absurd (Nat.lt_of_le_of_lt h h') (Nat.lt_irrefl _)⟩

theorem Answered.trans {F : Hitches} {n m k : Nat} (h : Answered F n m) (h' : Answered F m k) : Answered F n k :=
  ⟨Nat.le_trans h.1 h'.1, fun i hi hk => if hm : i < m then h.2 i hi hm else h'.2 i (Nat.le_of_not_lt hm) hk⟩

/-- States can only grow, in the sense of `E`. -/
structure Growth {τ : Type} (E : τ → τ → Prop) : Prop where
  refl : ∀ s, E s s
  trans : ∀ {s t u}, E s t → E t u → E s u

/-- Either no query fails, and `y` does what `x` does, or one fails, then it is the last one, `y` ends with an error or a panic and has done no more than `x` does. -/
def Tame {τ α : Type} (F : Hitches) (E : τ → τ → Prop) (x : SM τ α) (y : SM (τ × Nat) α) : Prop :=
  ∀ s n, E s (x s).2 ∧ ∃ m, Answered F n m ∧ (y (s, n) = ((x s).1, (x s).2, m) ∨
    F m ≠ none ∧ ∃ r t, y (s, n) = (r, t, m + 1) ∧ (r = .err .sqlite ∨ r = .panic) ∧ E t (x s).2)

section
variable {τ α β : Type} {F : Hitches} {E : τ → τ → Prop}

theorem lift_bind (r : Res α) (f : α → Res β) : (SM.lift (r >>= f) : SM τ β) = (SM.lift r >>= fun a => SM.lift (f a)) := by
  cases r <;> rfl

theorem Tame.fst (hE : Growth E) {x : SM τ α} (h : ∀ s, E s (x s).2) : Tame F E x (SM.fst x) := fun s n =>
  ⟨h s, n, .refl F n, .inl rfl⟩

theorem Tame.lift (hE : Growth E) (r : Res α) : Tame F E (SM.lift r) (SM.lift r) := fun s n => ⟨hE.refl s, n, .refl F n, .inl rfl⟩

theorem Tame.pure (hE : Growth E) (a : α) : Tame F E (Pure.pure a) (Pure.pure a) := Tame.lift hE (.ok a)
theorem Tame.panic (hE : Growth E) : Tame F E (SM.panic : SM τ α) SM.panic := Tame.lift hE .panic
theorem Tame.throw (hE : Growth E) (e : Err) : Tame F E (SM.throw e : SM τ α) (SM.throw e) := Tame.lift hE (.err e)

theorem Tame.query (hE : Growth E) (r : Res α) (o : Res α) (ho : o = .err .sqlite ∨ o = .panic) : Tame F E (SM.lift r) (query F r o) := by
  intro s n
  refine ⟨hE.refl s, ?_⟩
  cases h : F n with
  | none =>
    refine ⟨n + 1, ⟨by omega, fun i hi hk => ?_⟩, .inl ?_⟩
    · have : i = n := by omega
      rw [this, h]
    · simp [Snap.query, h, SM.lift]
  | some a =>
    refine ⟨n, .refl F n, .inr ⟨by simp [h], ?_⟩⟩
    cases a with
    | start => exact ⟨.err .sqlite, s, by simp [Snap.query, h], .inl rfl, hE.refl s⟩
    | row => exact ⟨o, s, by simp [Snap.query, h], ho, hE.refl s⟩

theorem Tame.bind (hE : Growth E) {x : SM τ α} {y : SM (τ × Nat) α} {f : α → SM τ β} {g : α → SM (τ × Nat) β} (h : Tame F E x y)
    (hf : ∀ a, Tame F E (f a) (g a)) : Tame F E (x >>= f) (y >>= g) := by
  intro s n
  obtain ⟨h1, m, hm, h2⟩ := h s n
  have hg : E (x s).2 ((x >>= f) s).2 := by
    rw [SM.bind_apply]
    rcases hx : x s with ⟨r, t⟩
    cases r with
    | ok a => exact (hf a t 0).1
    | err e => exact hE.refl t
    | panic => exact hE.refl t
    | fuel => exact hE.refl t
  refine ⟨hE.trans h1 hg, ?_⟩
  rcases h2 with h2 | ⟨hF, r, t, h2, hr, ht⟩
  · rcases hx : x s with ⟨r, t⟩
    rw [hx] at h2
    cases r with
    | ok a =>
      obtain ⟨-, k, hk, h3⟩ := hf a t m
      refine ⟨k, hm.trans hk, ?_⟩
      rw [SM.bind_apply, SM.bind_apply, h2, hx]
      exact h3
    | err e => exact ⟨m, hm, .inl (by rw [SM.bind_apply, SM.bind_apply, h2, hx])⟩
    | panic => exact ⟨m, hm, .inl (by rw [SM.bind_apply, SM.bind_apply, h2, hx])⟩
    | fuel => exact ⟨m, hm, .inl (by rw [SM.bind_apply, SM.bind_apply, h2, hx])⟩
  · refine ⟨m, hm, .inr ⟨hF, ?_⟩⟩
    rcases hr with rfl | rfl
    · exact ⟨.err .sqlite, t, by rw [SM.bind_apply, h2], .inl rfl, hE.trans ht hg⟩
    · exact ⟨.panic, t, by rw [SM.bind_apply, h2], .inr rfl, hE.trans ht hg⟩

/-- A change of the result that does not hide such a failure. -/
theorem Tame.map {x : SM τ α} {y : SM (τ × Nat) α} (h : Tame F E x y) (g : Res α → Res β)
    (h1 : g (.err .sqlite) = .err .sqlite ∨ g (.err .sqlite) = .panic) (h2 : g .panic = .panic) :
    Tame F E (fun s => (g (x s).1, (x s).2)) (fun s => (g (y s).1, (y s).2)) := by
  intro s n
  obtain ⟨ha, m, hm, hb⟩ := h s n
  refine ⟨ha, m, hm, ?_⟩
  rcases hb with hb | ⟨hF, r, t, hb, hr, ht⟩
  · left; simp only [hb]
  · right
    refine ⟨hF, g r, t, by simp only [hb], ?_, ht⟩
    rcases hr with rfl | rfl
    · exact h1
    · exact .inr h2

theorem Tame.unwrap {x : SM τ α} {y : SM (τ × Nat) α} (h : Tame F E x y) : Tame F E (SM.unwrap x) (SM.unwrap y) :=
  h.map Res.unwrap (.inr rfl) rfl

theorem Tame.unwrapR {r : Res α} {y : SM (τ × Nat) α} (h : Tame F E (SM.lift r) y) : Tame F E (SM.lift r.unwrap) (SM.unwrap y) := h.unwrap

theorem Tame.using {x : τ → SM τ α} {y : τ → SM (τ × Nat) α} (h : ∀ t, Tame F E (x t) (y t)) : Tame F E (fun s => x s s) (SM.using y) :=
  fun s n => h s s n

theorem Tame.read {g : τ → Res α} {y : τ → SM (τ × Nat) α} (h : ∀ t, Tame F E (SM.lift (g t)) (y t)) : Tame F E (SM.read g) (SM.using y) :=
  fun s n => h s s n

theorem Tame.each (hE : Growth E) {f : α → SM τ Unit} {g : α → SM (τ × Nat) Unit} (h : ∀ a, Tame F E (f a) (g a)) (l : List α) :
    Tame F E (SM.each f l) (SM.each g l) := by
  induction l with
  | nil => exact Tame.pure hE ()
  | cons a l ih => exact (h a).bind hE fun _ => ih

theorem Tame.mapSM (hE : Growth E) {f : α → SM τ β} {g : α → SM (τ × Nat) β} (h : ∀ a, Tame F E (f a) (g a)) (l : List α) :
    Tame F E (mapSM f l) (mapSM g l) := by
  induction l with
  | nil => exact Tame.pure hE []
  | cons a l ih => exact (h a).bind hE fun _ => ih.bind hE fun _ => Tame.pure hE _

theorem Tame.mapRes (hE : Growth E) {f : α → Res β} {g : α → SM (τ × Nat) β} (h : ∀ a, Tame F E (SM.lift (f a)) (g a)) (l : List α) :
    Tame F E (SM.lift (mapRes f l)) (Snap.mapSM g l) := by
  induction l with
  | nil => exact Tame.pure hE []
  | cons a l ih =>
    simp only [Snap.mapRes, lift_bind]
    exact (h a).bind hE fun _ => ih.bind hE fun _ => Tame.pure hE _

theorem Tame.onPart {σ : Type} {G : σ → σ → Prop} {get : σ → τ} {set : τ → σ → σ} {x : SM τ α} {y : SM (τ × Nat) α} (h : Tame F E x y)
    (h1 : ∀ s t, E (get s) t → G s (set t s)) (h2 : ∀ s t t', E t t' → G (set t s) (set t' s)) : Tame F G (SM.on get set x) (SM.onPart get set y) := by
  intro s n
  obtain ⟨ha, m, hm, hb⟩ := h (get s) n
  refine ⟨h1 s _ ha, m, hm, ?_⟩
  rcases hb with hb | ⟨hF, r, t, hb, hr, ht⟩
  · left; simp only [SM.onPart, hb, SM.on]
  · exact .inr ⟨hF, r, set t s, by simp only [SM.onPart, hb], hr, h2 s _ _ ht⟩

/-! ### The functions -/

theorem tame_get (hE : Growth E) (db : Db) (k : Key) : Tame F E (SM.lift (Snap.get db k)) (get F db k) := Tame.query hE _ _ (.inl rfl)

theorem tame_getHead (hE : Growth E) (db : Db) : Tame F E (SM.lift (Snap.getHead db)) (getHead F db) := by
  unfold Snap.getHead getHead
  rw [lift_bind]
  refine (Tame.query hE _ _ (.inl rfl)).bind hE fun o => ?_
  cases o with
  | none => exact Tame.pure hE none
  | some b => dsimp only; split <;> exact Tame.lift hE _

theorem tame_reflogGet (hE : Growth E) (db : Db) (r : Bytes) (q : Option Bytes) : Tame F E (SM.lift (Snap.reflogGet db r q)) (reflogGet F db r q) :=
  Tame.query hE _ _ (.inl rfl)

theorem tame_reflogWalk (hE : Growth E) (db : Db) (r : Bytes) (q : Option Bytes) : Tame F E (SM.lift (Snap.reflogWalk db r q)) (reflogWalk F db r q) :=
  Tame.query hE _ _ (.inr rfl)

theorem tame_canonicalize (hE : Growth E) (db : Db) (k : Keyish) : Tame F E (SM.lift (Snap.canonicalize db k)) (canonicalize F db k) := by
  cases k with
  | key s key =>
    have : (SM.lift (Snap.canonicalize db (.key s key)) : SM τ Key) = (SM.lift (rawGet db key).unwrap >>= fun k => SM.lift (resolved s [k])) := by
      rw [← lift_bind]; rfl
    rw [this]
    exact (Tame.query hE _ _ (.inl rfl)).unwrapR.bind hE fun _ => Tame.lift hE _
  | range s a b =>
    have : (SM.lift (Snap.canonicalize db (.range s a b)) : SM τ Key) = (SM.lift (rawBetween db a b).unwrap >>= fun k => SM.lift (resolved s k)) := by
      rw [← lift_bind]
      have : ∀ l, resolved s l = (match l with
        | [] => .err (.canonNotFound s)
        | [k] => fromDbKey k
        | _ => (do
          let strs ← Snap.mapRes fromDbKey l
          .err (.ambiguous s (strs.map (·.hash))) : Res Key)) := fun l => rfl
      rfl
    rw [this]
    exact (Tame.query hE _ _ (.inl rfl)).unwrapR.bind hE fun _ => Tame.lift hE _
  | reflog orig remote name =>
    intro s n
    obtain ⟨h1, m, hm, h2⟩ := tame_reflogGet (F := F) hE db name remote s n
    refine ⟨h1, m, hm, ?_⟩
    simp only [canonicalize, Snap.canonicalize, SM.lift] at h2 ⊢
    rcases h2 with h2 | ⟨hF, r, t, h2, hr, ht⟩
    · left
      rw [h2]
      generalize Snap.reflogGet db name remote = r
      cases r with
      | err e => cases e <;> rfl
      | ok a => rfl
      | panic => rfl
      | fuel => rfl
    · right
      refine ⟨hF, r, t, ?_, hr, ht⟩
      rw [h2]
      rcases hr with rfl | rfl <;> rfl

theorem tame_getObj (hE : Growth E) (db : Db) (k : Key) : Tame F E (SM.lift (Snap.getObj db k)) (getObj F db k) := by
  unfold Snap.getObj getObj
  rw [lift_bind]
  exact (tame_get hE db k).bind hE fun _ => Tame.lift hE _

theorem tame_getItem (hE : Growth E) (db : Db) (k : Key) : Tame F E (SM.lift (Snap.getItem db k)) (getItem F db k) := by
  unfold Snap.getItem getItem
  rw [lift_bind]
  exact (tame_getObj hE db k).bind hE fun _ => Tame.lift hE _

theorem tame_commitAt (hE : Growth E) (db : Db) (k : Key) : Tame F E (SM.lift (Commit.fromKey db k)) (commitAt F db k) := by
  unfold Commit.fromKey commitAt
  rw [lift_bind]
  exact (tame_getObj hE db k).unwrapR.bind hE fun _ => Tame.lift hE _

theorem tame_readDataTo (hE : Growth E) (db : Db) (sink : Bytes → SM τ Unit) (hs : ∀ d s, E s (sink d s).2) :
    ∀ n k, Tame F E (Snap.readDataTo db sink n k) (readDataTo F db sink n k) := by
  intro n
  induction n with
  | zero => intro k; exact Tame.lift hE .fuel
  | succ n ih =>
    intro k
    unfold Snap.readDataTo readDataTo
    refine (tame_getObj hE db k).bind hE fun obj => ?_
    cases obj.objtype with
    | fileBlobTree => exact Tame.each hE ih _
    | fileBlob => exact Tame.fst hE (hs _)
    | fsItemFile =>
      dsimp only
      rcases obj.keys with _ | ⟨a, _ | ⟨b, l⟩⟩
      · exact Tame.panic hE
      · exact ih a
      · exact Tame.panic hE
    | _ => exact Tame.panic hE

/-- No condition. -/
def Any {τ : Type} : τ → τ → Prop := fun _ _ => True
theorem growth_any {τ : Type} : Growth (Any : τ → τ → Prop) := ⟨fun _ => trivial, fun _ _ => trivial⟩

theorem tame_getFsItem (db : Db) : ∀ n k p, Tame F Any (Snap.getFsItem db n k p) (getFsItem F db n k p) := by
  have hE : Growth (Any : Fs → Fs → Prop) := growth_any
  intro n
  induction n with
  | zero => intro k p; exact Tame.lift hE .fuel
  | succ n ih =>
    intro k p
    unfold Snap.getFsItem getFsItem
    refine (tame_getItem hE db k).bind hE fun item => ?_
    cases item.itemtype with
    | dir => exact Tame.each hE (fun c => ih _ _) _
    | file =>
      have hrest : Tame F Any (do
          let f ← Fs.createNew p
          match item.children with
          | c :: _ => Snap.readDataTo db (Fs.writeAll f) n c
          | [] => SM.panic) (do
          let f ← SM.fst (Fs.createNew p)
          match item.children with
          | c :: _ => readDataTo F db (Fs.writeAll f) n c
          | [] => SM.panic) := by
        refine (Tame.fst hE fun _ => trivial).bind hE fun f => ?_
        cases item.children with
        | cons c l => exact tame_readDataTo hE db _ (fun _ _ => trivial) _ _
        | nil => exact Tame.panic hE
      dsimp only
      cases Path.parent p with
      | some q => exact (Tame.fst hE fun _ => trivial).bind hE fun _ => hrest
      | none => exact hrest

theorem tame_checkoutFsItem (db : Db) (filter : Filter) (iter : List Bytes → List Bytes) :
    ∀ n k p, Tame F Any (Snap.checkoutFsItem db filter iter n k p) (checkoutFsItem F db filter iter n k p) := by
  have hE : Growth (Any : Fs → Fs → Prop) := growth_any
  intro n
  induction n with
  | zero => intro k p; exact Tame.lift hE .fuel
  | succ n ih =>
    intro k p
    unfold Snap.checkoutFsItem checkoutFsItem
    refine (tame_getItem hE db k).bind hE fun item => ?_
    cases item.itemtype with
    | dir =>
      refine (Tame.fst hE fun _ => trivial).bind hE fun _ => (Tame.fst hE fun _ => trivial).bind hE fun _ => (Tame.fst hE fun _ => trivial).bind hE fun _ => ?_
      exact Tame.each hE (fun c => (Tame.fst hE fun _ => trivial).bind hE fun _ => ih _ _) _
    | file =>
      refine (Tame.fst hE fun _ => trivial).bind hE fun _ => ?_
      split
      · cases item.children with
        | cons c l => exact tame_readDataTo hE db _ (fun _ _ => trivial) _ _
        | nil => exact Tame.panic hE
      · exact Tame.panic hE

theorem tame_extendAll {γ : Type} (hE : Growth E) {f : β → Res (PMap γ)} {g : β → SM (τ × Nat) (PMap γ)} (h : ∀ b, Tame F E (SM.lift (f b)) (g b)) (l : List β) :
    ∀ m, Tame F E (SM.lift (Snap.extendAll f m l)) (extendAll g m l) := by
  induction l with
  | nil => intro m; exact Tame.pure hE m
  | cons b l ih =>
    intro m
    unfold Snap.extendAll extendAll
    rw [lift_bind]
    exact (h b).bind hE fun _ => ih _

theorem tame_walkItemsFrom (hE : Growth E) (db : Db) : ∀ n k p, Tame F E (SM.lift (Snap.walkItemsFrom db n k p)) (walkItemsFrom F db n k p) := by
  intro n
  induction n with
  | zero => intro k p; exact Tame.lift hE .fuel
  | succ n ih =>
    intro k p
    unfold Snap.walkItemsFrom walkItemsFrom
    rw [lift_bind]
    refine (tame_getItem hE db k).bind hE fun item => ?_
    cases item.itemtype with
    | dir => exact tame_extendAll hE (fun c => ih _ _) _ _
    | file => exact Tame.pure hE _

theorem tame_walkItems (hE : Growth E) (db : Db) (n : Nat) (k : Key) : Tame F E (SM.lift (Snap.walkItems db n k)) (walkItems F db n k) :=
  tame_walkItemsFrom hE db n k []

end

section
variable {F : Hitches}

theorem tame_hashFsItem (E : Env) (fs : Fs) (p : Path) : Tame F Any (Snap.hashFsItem E fs p) (hashFsItem F E fs p) := by
  have hE : Growth (Any : Db × Cache → Db × Cache → Prop) := growth_any
  unfold Snap.hashFsItem hashFsItem
  refine (Tame.lift hE _).bind hE fun e => ?_
  cases e with
  | file c md =>
    refine (Tame.read fun t => Tame.query hE _ _ (.inl rfl)).bind hE fun o => ?_
    cases o with
    | some h => exact Tame.pure hE h
    | none => exact (Tame.fst hE fun _ => trivial).bind hE fun _ => (Tame.fst hE fun _ => trivial).bind hE fun _ => Tame.pure hE _
  | _ => exact Tame.throw hE _

theorem tame_addedOf (E : Env) (fs : Fs) (m : FromMap) (x : Path) : Tame F Any (Snap.addedOf E fs m x) (addedOf F E fs m x) := by
  have hE : Growth (Any : Db × Cache → Db × Cache → Prop) := growth_any
  unfold Snap.addedOf addedOf
  refine Tame.bind hE ?_ fun _ => (Tame.lift hE _).bind hE fun _ => Tame.pure hE _
  cases m with
  | left y =>
    refine (Tame.lift hE _).bind hE fun b => ?_
    split
    · exact Tame.pure hE _
    · exact (tame_hashFsItem E fs x).unwrap.bind hE fun _ => Tame.pure hE _
  | right y =>
    dsimp only
    cases y.get x with
    | some b => exact Tame.pure hE _
    | none => exact Tame.panic hE

theorem tame_modifiedOf (E : Env) (fs : Fs) (m : FromMap) (base : Path) (to : PMap (Key × Bool)) (x : Path) :
    Tame F Any (Snap.modifiedOf E fs m base to x) (modifiedOf F E fs m base to x) := by
  have hE : Growth (Any : Db × Cache → Db × Cache → Prop) := growth_any
  unfold Snap.modifiedOf modifiedOf
  refine Tame.bind hE ?_ fun f => ?_
  · cases m with
    | left y =>
      dsimp only
      rcases y.get x with _ | _ | _
      · exact Tame.panic hE
      · exact (tame_hashFsItem E fs _).bind hE fun _ => Tame.pure hE _
      · exact Tame.pure hE _
    | right y =>
      dsimp only
      cases y.get x with
      | some b => exact Tame.pure hE _
      | none => exact Tame.panic hE
  · cases f with
    | none => exact Tame.pure hE _
    | some f =>
      dsimp only
      cases to.get x with
      | some t => exact Tame.pure hE _
      | none => exact Tame.panic hE

theorem tame_compare (E : Env) (fs : Fs) (iter : Nat → List Path → List Path) (n : Nat) (source : Target) (to : Option Key) :
    Tame F Any (Snap.compare E fs iter n source to) (compare F E fs iter n source to) := by
  have hE : Growth (Any : Db × Cache → Db × Cache → Prop) := growth_any
  unfold Snap.compare compare
  refine Tame.bind hE ?_ fun m => Tame.bind hE ?_ fun toMap => (Tame.mapSM hE (tame_addedOf E fs m) _).bind hE fun _ =>
    (Tame.mapSM hE (fun _ => Tame.lift hE _) _).bind hE fun _ => (Tame.mapSM hE (tame_modifiedOf E fs m _ toMap) _).bind hE fun _ => Tame.pure hE _
  · cases source with
    | fileSystem p g d => exact (Tame.lift hE _).bind hE fun _ => Tame.pure hE _
    | database k => exact (Tame.read fun t => tame_walkItems hE _ _ _).bind hE fun _ => Tame.pure hE _
  · cases to with
    | some t => exact Tame.read fun s => tame_walkItems hE _ _ _
    | none => exact Tame.pure hE _

end

section
variable {τ : Type} {F : Hitches} {E : τ → τ → Prop}

theorem tame_readAll (hE : Growth E) (db : Db) (n : Nat) (k : Key) : Tame F E (SM.lift (Snap.readAll db n k)) (readAll F db n k) := by
  intro s i
  refine ⟨hE.refl s, ?_⟩
  obtain ⟨-, m, hm, h⟩ := tame_readDataTo (F := F) (E := Any) growth_any db (fun d => SM.modify (· ++ d)) (fun _ _ => trivial) n k ([] : Bytes) i
  refine ⟨m, hm, ?_⟩
  simp only [readAll, Snap.readAll, readData, SM.lift]
  rcases h with h | ⟨hF, r, t, h, hr, -⟩
  · left
    rw [h]
    rcases Snap.readDataTo db (fun d => SM.modify (· ++ d)) n k [] with ⟨r, t⟩
    cases r <;> rfl
  · right
    rw [h]
    rcases hr with rfl | rfl
    · exact ⟨hF, _, _, rfl, .inl rfl, hE.refl s⟩
    · exact ⟨hF, _, _, rfl, .inr rfl, hE.refl s⟩

theorem tame_lineCt (hE : Growth E) (db : Db) (n : Nat) (k : Key) : Tame F E (SM.lift (Snap.lineCt db n k)) (lineCt F db n k) := by
  unfold Snap.lineCt lineCt
  rw [lift_bind]
  exact (tame_readAll hE db n k).unwrapR.bind hE fun _ => Tame.pure hE _

theorem tame_modifiedStat (hE : Growth E) (lib : DiffLib) (db : Db) (n : Nat) (m : Modified) :
    Tame F E (SM.lift (Snap.modifiedStat lib db n m)) (modifiedStat F lib db n m) := by
  unfold Snap.modifiedStat modifiedStat
  simp only [lift_bind]
  exact (tame_readAll hE db n _).unwrapR.bind hE fun _ => (tame_readAll hE db n _).unwrapR.bind hE fun _ => Tame.pure hE _

theorem tame_countStat {α : Type} (hE : Growth E) (db : Db) (n : Nat) (d : α → Bool) (key : α → Option Key) (mk : α → Nat → FileStat) (l : List α) :
    Tame F E (SM.lift (Snap.countStat db n d key mk l)) (countStat F db n d key mk l) := by
  unfold Snap.countStat countStat
  rw [lift_bind]
  refine (Tame.mapRes hE (fun a => ?_) _).bind hE fun _ => Tame.pure hE _
  cases key a with
  | none => exact Tame.pure hE _
  | some k =>
    simp only [lift_bind]
    exact (tame_lineCt hE db n k).bind hE fun _ => Tame.pure hE _

theorem tame_printedStat (hE : Growth E) (lib : DiffLib) (db : Db) (n : Nat) (r : DiffResult) :
    Tame F E (SM.lift (Snap.printedStat lib db n r)) (printedStat F lib db n r) := by
  unfold Snap.printedStat printedStat Snap.lineStat lineStat
  simp only [lift_bind]
  exact ((tame_countStat hE db n _ _ _ _).bind hE fun _ => (tame_countStat hE db n _ _ _ _).bind hE fun _ =>
    (Tame.mapRes hE (tame_modifiedStat hE lib db n) _).bind hE fun _ => Tame.pure hE _).bind hE fun _ => Tame.pure hE _

theorem tame_addedPatch (hE : Growth E) (lib : DiffLib) (db : Db) (n : Nat) (p : Path) (k : Key) :
    Tame F E (SM.lift (Snap.addedPatch lib db n p k)) (addedPatch F lib db n p k) := by
  unfold Snap.addedPatch addedPatch
  rw [lift_bind]
  refine (tame_readAll hE db n k).unwrapR.bind hE fun _ => ?_
  split <;> exact Tame.lift hE _

theorem tame_removedPatch (hE : Growth E) (lib : DiffLib) (db : Db) (n : Nat) (p : Path) (k : Key) :
    Tame F E (SM.lift (Snap.removedPatch lib db n p k)) (removedPatch F lib db n p k) := by
  unfold Snap.removedPatch removedPatch
  rw [lift_bind]
  refine (tame_readAll hE db n k).unwrapR.bind hE fun _ => ?_
  split <;> exact Tame.lift hE _

theorem tame_modifiedPatch (hE : Growth E) (lib : DiffLib) (db : Db) (n : Nat) (m : Modified) :
    Tame F E (SM.lift (Snap.modifiedPatch lib db n m)) (modifiedPatch F lib db n m) := by
  unfold Snap.modifiedPatch modifiedPatch
  simp only [lift_bind]
  exact (tame_readAll hE db n _).unwrapR.bind hE fun _ => (tame_readAll hE db n _).unwrapR.bind hE fun _ => Tame.lift hE _

theorem tame_filePatches {α : Type} (hE : Growth E) (d : α → Bool) (key : α → Option Key) {f : α → Key → Res Patch} {g : α → Key → SM (τ × Nat) Patch}
    (h : ∀ a k, Tame F E (SM.lift (f a k)) (g a k)) (l : List α) : Tame F E (SM.lift (Snap.filePatches d key f l)) (filePatches d key g l) := by
  unfold Snap.filePatches filePatches
  rw [lift_bind]
  refine (Tame.mapRes hE (fun a => ?_) _).bind hE fun _ => Tame.pure hE _
  cases key a with
  | none => exact Tame.pure hE _
  | some k =>
    simp only [lift_bind]
    exact (h a k).bind hE fun _ => Tame.pure hE _

theorem tame_createPatch (hE : Growth E) (lib : DiffLib) (db : Db) (n : Nat) (r : DiffResult) :
    Tame F E (SM.lift (Snap.createPatch lib db n r)) (createPatch F lib db n r) := by
  unfold Snap.createPatch createPatch
  simp only [lift_bind]
  exact (tame_filePatches hE _ _ (fun a k => tame_addedPatch hE lib db n _ k) _).bind hE fun _ =>
    (tame_filePatches hE _ _ (fun a k => tame_removedPatch hE lib db n _ k) _).bind hE fun _ =>
    (Tame.mapRes hE (tame_modifiedPatch hE lib db n) _).bind hE fun _ => Tame.pure hE _

end

/-! ### Terminal -/

/-- More has been printed. -/
def Printed (s t : Db × List Out) : Prop := s.2 <+: t.2
theorem growth_printed : Growth Printed := ⟨fun s => List.prefix_refl s.2, fun h h' => List.IsPrefix.trans h h'⟩

/-- Output only grows. -/
def Spoke (s t : List Out) : Prop := s <+: t
theorem growth_spoke : Growth Spoke := ⟨fun s => List.prefix_refl s, fun h h' => List.IsPrefix.trans h h'⟩

section
variable {F : Hitches}

theorem tame_say (o : Out) : Tame F Printed (say o) (SM.fst (say o)) := Tame.fst growth_printed fun s => List.prefix_append _ _

theorem tame_compareDb (E : Env) (fs : Fs) (iter : Nat → List Path → List Path) (n : Nat) (source to : Option Key) :
    Tame F Printed (Snap.compareDb E fs iter n source to) (compareDb F E fs iter n source to) := by
  cases source with
  | none => exact Tame.panic growth_printed
  | some k => exact (tame_compare E fs iter n (.database k) to).onPart (G := Printed) (set := fun d s => (d.1, s.2)) (fun s t _ => List.prefix_refl s.2) fun s t t' _ => List.prefix_refl s.2

theorem tame_displayChanges (E : Env) (lib : DiffLib) (fs : Fs) (iter : Nat → List Path → List Path) (n : Nat) (kind : Kind) (c : Commit) :
    Tame F Printed (Snap.displayChanges E lib fs iter n kind c) (displayChanges F E lib fs iter n kind c) := by
  have hE := growth_printed
  unfold Snap.displayChanges displayChanges
  refine Tame.bind hE ?_ fun _ => (tame_compareDb E fs iter n _ _).unwrap.bind hE fun _ => ?_
  · cases c.parents with
    | nil => exact Tame.pure hE _
    | cons p l => exact (Tame.read fun t => tame_commitAt hE _ _).bind hE fun _ => Tame.pure hE _
  · cases kind with
    | stat => exact (Tame.read fun t => tame_printedStat hE lib _ _ _).bind hE fun _ => tame_say _
    | patch => exact (Tame.read fun t => tame_createPatch hE lib _ _ _).bind hE fun _ => tame_say _

theorem tame_printData (n : Nat) (k : Key) :
    Tame F Printed (fun s => ((Snap.readDataTo s.1 (fun d => SM.modify (· ++ [Out.data d])) n k s.2).1,
      (s.1, (Snap.readDataTo s.1 (fun d => SM.modify (· ++ [Out.data d])) n k s.2).2))) (printData F n k) := by
  have h := fun t : Db × List Out => tame_readDataTo (F := F) growth_spoke t.1 (fun d => SM.modify (· ++ [Out.data d])) (fun d s => List.prefix_append _ _) n k
  exact Tame.using fun t => (h t).onPart (G := Printed) (get := fun s : Db × List Out => s.2) (set := fun o s => (s.1, o)) (fun s t h => h) fun s t t' h => h

theorem tame_displayObj (E : Env) (lib : DiffLib) (fs : Fs) (iter : Nat → List Path → List Path) (n : Nat) (kind : Kind) :
    ∀ f k, Tame F Printed (Snap.displayObj E lib fs iter n kind f k) (displayObj F E lib fs iter n kind f k) := by
  have hE := growth_printed
  intro f
  induction f with
  | zero => intro k; exact Tame.lift hE .fuel
  | succ f ih =>
    intro k
    unfold Snap.displayObj displayObj
    refine (Tame.read fun t => (tame_getObj hE _ _).unwrapR).bind hE fun obj => ?_
    cases obj.objtype with
    | fileBlobTree => exact tame_printData n k
    | fileBlob => exact tame_printData n k
    | fsItemFile =>
      dsimp only
      rcases obj.keys with _ | ⟨a, _ | ⟨b, l⟩⟩
      · exact Tame.panic hE
      · exact ih a
      · exact Tame.panic hE
    | commit => exact (Tame.lift hE _).bind hE fun _ => (tame_say _).bind hE fun _ => tame_displayChanges E lib fs iter n kind _
    | fsItemDir => exact tame_say _
    | unknown => exact Tame.panic hE

theorem tame_logLoop (E : Env) (lib : DiffLib) (fs : Fs) (iter : Nat → List Path → List Path) (n : Nat) (kind : Kind) :
    ∀ f c, Tame F Printed (Snap.logLoop E lib fs iter n kind f c) (logLoop F E lib fs iter n kind f c) := by
  have hE := growth_printed
  intro f
  induction f with
  | zero => intro c; exact Tame.lift hE .fuel
  | succ f ih =>
    intro c
    unfold Snap.logLoop logLoop
    cases c.parents with
    | nil => exact Tame.pure hE _
    | cons p l => exact (tame_displayObj E lib fs iter n kind _ _).bind hE fun _ => (Tame.read fun t => tame_commitAt hE _ _).bind hE fun _ => ih _

theorem tame_logObj (E : Env) (lib : DiffLib) (fs : Fs) (iter : Nat → List Path → List Path) (n : Nat) (kind : Kind) (k : Key) :
    Tame F Printed (Snap.logObj E lib fs iter n kind k) (logObj F E lib fs iter n kind k) := by
  have hE := growth_printed
  unfold Snap.logObj logObj
  refine (Tame.read fun t => (tame_getObj hE _ _).unwrapR).bind hE fun obj => ?_
  cases obj.objtype with
  | commit => exact (tame_displayObj E lib fs iter n kind _ _).bind hE fun _ => (Tame.read fun t => tame_commitAt hE _ _).bind hE fun _ => tame_logLoop E lib fs iter n kind _ _
  | _ => exact Tame.panic hE

end

/-! ### Commands -/

/-- Output only grows, and the files stay if they should. -/
def Told (still : Bool) (s t : Sys) : Prop := s.out <+: t.out ∧ (still = true → t.fs = s.fs)
theorem growth_told (b : Bool) : Growth (Told b) :=
  ⟨fun s => ⟨List.prefix_refl _, fun _ => rfl⟩, fun h h' => ⟨h.1.trans h'.1, fun e => (h'.2 e).trans (h.2 e)⟩⟩

section
variable {F : Hitches} {b : Bool}

theorem tame_asking {α : Type} {f : Db → Res α} {g : Db → CQ α} (h : ∀ db, Tame F (Told b) (SM.lift (f db)) (g db)) : Tame F (Told b) (readDb f) (asking g) :=
  fun s n => h s.db s n

theorem tame_emit (o : Out) : Tame F (Told b) (emit o) (SM.fst (emit o)) :=
  Tame.fst (growth_told b) fun s => ⟨List.prefix_append _ _, fun _ => rfl⟩

theorem tame_onDb {α : Type} (x : M α) : Tame F (Told b) (onDb x) (SM.fst (onDb x)) :=
  Tame.fst (growth_told b) fun s => ⟨List.prefix_refl _, fun _ => rfl⟩

theorem told_bind {α β : Type} {x : C α} {f : α → C β} (h : ∀ s, Told b s (x s).2) (hf : ∀ a s, Told b s (f a s).2) (s : Sys) : Told b s ((x >>= f) s).2 := by
  have h1 := h s
  rw [SM.bind_apply]
  rcases hx : x s with ⟨r, t⟩
  rw [hx] at h1
  cases r with
  | ok u => exact (growth_told b).trans h1 (hf u t)
  | err e => exact h1
  | panic => exact h1
  | fuel => exact h1

theorem told_each {α : Type} {f : α → C Unit} (h : ∀ a s, Told b s (f a s).2) (l : List α) : ∀ s, Told b s (SM.each f l s).2 := by
  induction l with
  | nil => intro s; exact (growth_told b).refl s
  | cons a l ih => exact told_bind (h a) fun _ => ih

theorem told_emit (o : Out) (s : Sys) : Told b s (emit o s).2 := ⟨List.prefix_append _ _, fun _ => rfl⟩

theorem told_emitAll {α : Type} (order : List Path → List Path) (m : PMap α) (line : Path → α → Out) (s : Sys) : Told b s (emitAll order m line s).2 := by
  refine told_each (fun p s => ?_) _ s
  cases m.get p with
  | some v => exact told_emit _ _
  | none => exact (growth_told b).refl s

section
variable {τ : Type} {E : τ → τ → Prop}

theorem tame_headName (hE : Growth E) (db : Db) : Tame F E (SM.lift (Snap.headName db)) (headName F db) := by
  unfold Snap.headName headName
  rw [lift_bind]
  refine (tame_getHead hE db).bind hE fun o => ?_
  cases o <;> exact Tame.lift hE _

theorem tame_refOrHead (hE : Growth E) (db : Db) (r : Option Bytes) : Tame F E (SM.lift (Snap.refOrHead db r)) (refOrHead F db r) := by
  cases r with
  | some s => exact Tame.pure hE s
  | none => exact tame_headName hE db

theorem tame_getHeadKey (hE : Growth E) (db : Db) : Tame F E (SM.lift (Snap.getHeadKey db)) (getHeadKey F db) := by
  unfold Snap.getHeadKey getHeadKey
  rw [lift_bind]
  exact (tame_headName hE db).bind hE fun _ => tame_reflogGet hE _ _ _

theorem tame_keyOrHead (hE : Growth E) (db : Db) (k : Option Keyish) : Tame F E (SM.lift (Snap.keyOrHead db k)) (keyOrHead F db k) := by
  cases k with
  | some s => exact tame_canonicalize hE db s
  | none => exact tame_getHeadKey hE db

theorem tame_parentsOf (hE : Growth E) (db : Db) (r : Bytes) : Tame F E (SM.lift (Snap.parentsOf db r)) (parentsOf F db r) := by
  intro s n
  obtain ⟨h1, m, hm, h2⟩ := tame_reflogGet (F := F) hE db r none s n
  refine ⟨h1, m, hm, ?_⟩
  simp only [parentsOf, Snap.parentsOf, SM.lift] at h2 ⊢
  rcases h2 with h2 | ⟨hF, r, t, h2, hr, ht⟩
  · left
    rw [h2]
    generalize Snap.reflogGet db _ none = r
    cases r with
    | err e => cases e <;> rfl
    | ok a => rfl
    | panic => rfl
    | fuel => rfl
  · right
    rw [h2]
    rcases hr with rfl | rfl
    · exact ⟨hF, _, t, rfl, .inl rfl, ht⟩
    · exact ⟨hF, _, t, rfl, .inr rfl, ht⟩

end

theorem tame_compareWork (X : Ctx) (R : Repo) (p : Path) (to : Option Key) : Tame F (Told b) (Snap.compareWork X R p to) (compareWork F X R p to) :=
  Tame.using (x := fun t => onDbCache (Snap.compare X.E t.fs X.iter X.depth (.fileSystem p X.glob R.folder) to)) fun t =>
    (tame_compare X.E t.fs X.iter X.depth _ to).onPart (G := Told b) (get := fun s : Sys => (s.db, s.cache))
    (set := fun d s => { s with db := d.1, cache := d.2 }) (fun s t _ => ⟨List.prefix_refl _, fun _ => rfl⟩) fun s t t' _ => ⟨List.prefix_refl _, fun _ => rfl⟩

theorem tame_fetch (X : Ctx) (key : Keyish) (dest : Path) : Tame F (Told false) (Snap.cmdFetch X key dest) (cmdFetch F X key dest) := by
  have hE := growth_told false
  refine (tame_asking fun db => tame_canonicalize hE db key).bind hE fun k =>
    Tame.using (x := fun t => onFs (Snap.getFsItem t.db X.depth k dest)) fun t => ?_
  exact (tame_getFsItem t.db X.depth k dest).onPart (G := Told false) (get := Sys.fs) (set := fun f s => { s with fs := f })
    (fun s t _ => ⟨List.prefix_refl _, fun e => by cases e⟩) fun s t t' _ => ⟨List.prefix_refl _, fun e => by cases e⟩

theorem tame_checkout (X : Ctx) (R : Repo) : Tame F (Told false) (Snap.cmdCheckout X R) (cmdCheckout F X R) := by
  have hE := growth_told false
  refine (tame_asking fun db => tame_getHeadKey hE db).bind hE fun k => (tame_asking fun db => tame_commitAt hE db k).bind hE fun c =>
    Tame.using (x := fun t => onFs (Snap.checkoutFsItem t.db (makeFilter X.glob R.folder) X.iterNames X.depth c.tree R.root)) fun t => ?_
  exact (tame_checkoutFsItem t.db _ _ X.depth c.tree R.root).onPart (G := Told false) (get := Sys.fs) (set := fun f s => { s with fs := f })
    (fun s t _ => ⟨List.prefix_refl _, fun e => by cases e⟩) fun s t t' _ => ⟨List.prefix_refl _, fun e => by cases e⟩

theorem tame_onP {x : P Unit} {y : SM ((Db × List Out) × Nat) Unit} (h : Tame F Printed x y) :
    Tame F (Told b) (onP x) (SM.onPart (fun s => (s.db, s.out)) (fun d s => { s with db := d.1, out := d.2 }) y) :=
  h.onPart (G := Told b) (fun s t h => ⟨h, fun _ => rfl⟩) fun s t t' h => ⟨h, fun _ => rfl⟩

theorem tame_show (X : Ctx) (key : Option Keyish) : Tame F (Told b) (Snap.cmdShow X key) (cmdShow F X key) := by
  have hE := growth_told b
  exact (tame_asking fun db => tame_keyOrHead hE db key).bind hE fun k =>
    Tame.using (x := fun t => onP (Snap.displayObj X.E X.lib t.fs X.iter X.depth .patch X.depth k)) fun t => tame_onP (tame_displayObj X.E X.lib t.fs X.iter X.depth .patch X.depth k)

theorem tame_log (X : Ctx) (key : Option Keyish) : Tame F (Told b) (Snap.cmdLog X key) (cmdLog F X key) := by
  have hE := growth_told b
  exact (tame_asking fun db => tame_keyOrHead hE db key).bind hE fun k =>
    Tame.using (x := fun t => onP (Snap.logObj X.E X.lib t.fs X.iter X.depth .stat k)) fun t => tame_onP (tame_logObj X.E X.lib t.fs X.iter X.depth .stat k)

theorem tame_refLog (r q : Option Bytes) : Tame F (Told b) (Snap.cmdRefLog r q) (cmdRefLog F r q) := by
  have hE := growth_told b
  exact (tame_asking fun db => tame_refOrHead hE db r).bind hE fun _ => (tame_asking fun db => tame_reflogWalk hE db _ _).bind hE fun _ =>
    Tame.fst hE fun s => told_each (fun _ _ => told_emit _ _) _ s

theorem tame_refUpdate (k : Keyish) (r : Option Bytes) : Tame F (Told b) (Snap.cmdRefUpdate k r) (cmdRefUpdate F k r) := by
  have hE := growth_told b
  exact (tame_asking fun db => tame_canonicalize hE db k).bind hE fun _ => (tame_asking fun db => tame_refOrHead hE db r).bind hE fun _ => tame_onDb _

theorem tame_cmdGetHead : Tame F (Told b) Snap.cmdGetHead (cmdGetHead F) := by
  have hE := growth_told b
  exact (tame_asking fun db => tame_getHead hE db).bind hE fun _ => tame_emit _

theorem tame_walkTree (X : Ctx) (k : Keyish) : Tame F (Told b) (Snap.cmdWalkTree X k) (cmdWalkTree F X k) := by
  have hE := growth_told b
  exact (tame_asking fun db => tame_canonicalize hE db k).bind hE fun _ => (tame_asking fun db => tame_walkItems hE db _ _).bind hE fun _ =>
    Tame.fst hE fun s => told_emitAll _ _ _ s

theorem tame_prettyPrint (k : Keyish) : Tame F (Told b) (Snap.cmdPrettyPrint k) (cmdPrettyPrint F k) := by
  have hE := growth_told b
  exact (tame_asking fun db => tame_canonicalize hE db k).bind hE fun _ => (tame_asking fun db => tame_getObj hE db _).bind hE fun _ => tame_emit _

theorem tame_commitTree (X : Ctx) (k : Keyish) (l : List Keyish) : Tame F (Told b) (Snap.cmdCommitTree X k l) (cmdCommitTree F X k l) := by
  have hE := growth_told b
  exact (tame_asking fun db => tame_canonicalize hE db k).bind hE fun _ => (tame_asking fun db => Tame.mapRes hE (tame_canonicalize hE db) l).bind hE fun _ =>
    (tame_onDb _).bind hE fun _ => tame_emit _

theorem tame_cmdReflogGet (r : Bytes) (q : Option Bytes) : Tame F (Told b) (Snap.cmdReflogGet r q) (cmdReflogGet F r q) := by
  have hE := growth_told b
  exact (tame_asking fun db => tame_reflogGet hE db r q).bind hE fun _ => tame_emit _

theorem tame_reflogPush (k : Keyish) (r : Bytes) (q : Option Bytes) : Tame F (Told b) (Snap.cmdReflogPush k r q) (cmdReflogPush F k r q) := by
  have hE := growth_told b
  exact (tame_asking fun db => tame_canonicalize hE db k).bind hE fun _ => tame_onDb _

theorem tame_cmdCommit (X : Ctx) (R : Repo) (p : Option Path) (m : Bytes) (r : Option Bytes) : Tame F (Told b) (Snap.cmdCommit X R p m r) (cmdCommit F X R p m r) := by
  have hE := growth_told b
  exact (tame_asking fun db => tame_refOrHead hE db r).bind hE fun _ => (tame_asking fun db => tame_parentsOf hE db _).bind hE fun _ =>
    (Tame.fst hE fun s => ⟨List.prefix_refl _, fun _ => rfl⟩).bind hE fun _ => (tame_onDb _).bind hE fun _ => tame_onDb _

theorem tame_cmdCompare (X : Ctx) (R : Repo) (p : Option Path) (k : Option Keyish) (st : Bool) : Tame F (Told b) (Snap.cmdCompare X R p k st) (cmdCompare F X R p k st) := by
  have hE := growth_told b
  unfold Snap.cmdCompare cmdCompare
  refine (tame_asking fun db => ?_).bind hE fun _ => (tame_compareWork X R _ _).bind hE fun _ => ?_
  · cases k with
    | some k => exact tame_canonicalize hE db k
    | none =>
      simp only [lift_bind]
      exact (tame_getHeadKey hE db).bind hE fun _ => (tame_commitAt hE db _).bind hE fun _ => Tame.pure hE _
  · cases st with
    | true => exact (tame_asking fun db => tame_printedStat hE X.lib db _ _).bind hE fun _ => tame_emit _
    | false => exact tame_emit _

/-- Commands that read nothing. -/
theorem tame_rest {x : C Unit} (h : ∀ s, Told b s (x s).2) : Tame F (Told b) x (SM.fst x) := Tame.fst (growth_told b) h

/-- All commands but `status` and `checkout-head`. -/
theorem tame_body (X : Ctx) (R : Repo) (cmd : Command) (h1 : cmd ≠ .status) (h2 : ∀ r, cmd ≠ .checkoutHead r)
    (h3 : b = true → (∀ k d, cmd ≠ .fetch k d) ∧ cmd ≠ .checkout) : Tame F (Told b) (cmd.inRepo X R) (body F X R cmd) := by
  have hE := growth_told b
  have hb : (∀ k d, cmd ≠ .fetch k d) ∧ cmd ≠ .checkout ∨ b = false := by
    cases b with
    | true => exact .inl (h3 rfl)
    | false => exact .inr rfl
  cases cmd with
  | status => exact absurd rfl h1
  | checkoutHead r => exact absurd rfl (h2 r)
  | fetch k d =>
    rcases hb with hb | rfl
    · exact absurd rfl (hb.1 k d)
    · exact tame_fetch X k d
  | checkout =>
    rcases hb with hb | rfl
    · exact absurd rfl hb.2
    · exact tame_checkout X R
  | insert p =>
    refine tame_rest fun s => ?_
    exact told_bind (f := fun h => emit (.key h)) (fun s => ⟨List.prefix_refl _, fun _ => rfl⟩) (fun _ => told_emit _) s
  | walkFsTree p =>
    refine tame_rest fun s => ?_
    change Told b s (Snap.cmdWalkFsTree X p s).2
    unfold Snap.cmdWalkFsTree
    rw [SM.bind_apply, SM.read_apply]
    cases walkReal s.fs (fun _ _ => .ok true) X.depth p with
    | ok k => exact told_emitAll _ _ _ s
    | err e => exact hE.refl s
    | panic => exact hE.refl s
    | fuel => exact hE.refl s
  | setHead r => exact tame_rest fun s => ⟨List.prefix_refl _, fun _ => rfl⟩
  | init => exact tame_rest fun s => hE.refl s
  | commit p m r => exact tame_cmdCommit X R p m r
  | «show» k => exact tame_show X k
  | log k => exact tame_log X k
  | compare p k s => exact tame_cmdCompare X R p k s
  | refLog r q => exact tame_refLog r q
  | refUpdate k r => exact tame_refUpdate k r
  | prettyPrint k => exact tame_prettyPrint k
  | commitTree k l => exact tame_commitTree X k l
  | reflogGet r q => exact tame_cmdReflogGet r q
  | reflogPush k r q => exact tame_reflogPush k r q
  | walkTree k => exact tame_walkTree X k
  | getHead => exact tame_cmdGetHead

end

end Snap.Flaky
