import Verif.Lemmas.Steps
/-! Computations that cannot tell two related states apart. -/
namespace Snap
set_option linter.unusedSectionVars false
variable [Serde] [LawfulSerde]

/-- Started in states related by `R`, the computation has the same result in both, leaves states related by `R'`, and a successful result satisfies `Q`. -/
def Sim {σ α} (R R' : σ → σ → Prop) (x : SM σ α) (Q : α → Prop) : Prop :=
  ∀ s t, R s t → (x s).1 = (x t).1 ∧ R' (x s).2 (x t).2 ∧ ∀ v, (x s).1 = .ok v → Q v

variable {σ τ α β : Type} {R R' : σ → σ → Prop} {Q : α → Prop} {Q' : β → Prop}

theorem sim_weaken {P : α → Prop} {x : SM σ α} (h : Sim R R' x Q) (hq : ∀ a, Q a → P a) : Sim R R' x P :=
  fun s t hr => ⟨(h s t hr).1, (h s t hr).2.1, fun v hv => hq v ((h s t hr).2.2 v hv)⟩
theorem sim_post {R'' : σ → σ → Prop} {x : SM σ α} (h : Sim R R' x Q) (hq : ∀ s t, R' s t → R'' s t) : Sim R R'' x Q :=
  fun s t hr => ⟨(h s t hr).1, hq _ _ (h s t hr).2.1, (h s t hr).2.2⟩
theorem sim_true {x : SM σ α} (h : Sim R R' x Q) : Sim R R' x (fun _ => True) := sim_weaken h fun _ _ => trivial
theorem sim_read {f : σ → Res α} (h : ∀ s t, R s t → f s = f t ∧ ∀ v, f s = .ok v → Q v) : Sim R R (SM.read f) Q :=
  fun s t hr => ⟨(h s t hr).1, hr, (h s t hr).2⟩
theorem sim_lift {r : Res α} (h : ∀ v, r = .ok v → Q v) : Sim R R (SM.lift r) Q := fun _ _ hr => ⟨rfl, hr, h⟩
theorem sim_pure {a : α} (h : Q a) : Sim R R (pure a : SM σ α) Q := fun _ _ hr => ⟨rfl, hr, fun v hv => by simp at hv; subst hv; exact h⟩
theorem sim_throw {e : Err} : Sim R R (SM.throw e : SM σ α) Q := fun _ _ hr => ⟨rfl, hr, fun v hv => by simp at hv⟩
theorem sim_panic : Sim R R (SM.panic : SM σ α) Q := fun _ _ hr => ⟨rfl, hr, fun v hv => by simp at hv⟩
theorem sim_modify {f : σ → σ} (h : ∀ s t, R s t → R (f s) (f t)) : Sim R R (SM.modify f) (fun _ => True) := fun s t hr => ⟨rfl, h s t hr, fun _ _ => trivial⟩

theorem sim_last {R₁ : σ → σ → Prop} {x : SM σ α} {f : α → SM σ β} (hx : Sim R R₁ x Q) (hr : ∀ s t, R₁ s t → R' s t) (hf : ∀ a, Q a → Sim R₁ R' (f a) Q') : Sim R R' (x >>= f) Q' := by
  intro s t hst
  obtain ⟨h1, h2, h3⟩ := hx s t hst
  rw [SM.bind_apply, SM.bind_apply]
  cases hxs : x s with
  | mk r s' =>
    cases hxt : x t with
    | mk r' t' =>
      rw [hxs, hxt] at h1 h2
      rw [hxs] at h3
      simp only at h1 h2 h3
      subst h1
      cases r with
      | ok a => exact hf a (h3 a rfl) s' t' h2
      | err e => exact ⟨rfl, hr _ _ h2, by simp⟩
      | panic => exact ⟨rfl, hr _ _ h2, by simp⟩
      | fuel => exact ⟨rfl, hr _ _ h2, by simp⟩

theorem sim_bind {x : SM σ α} {f : α → SM σ β} (hx : Sim R R x Q) (hf : ∀ a, Q a → Sim R R (f a) Q') : Sim R R (x >>= f) Q' := sim_last hx (fun _ _ h => h) hf

theorem sim_ite {c : Prop} [Decidable c] {x y : SM σ α} (hx : Sim R R x Q) (hy : Sim R R y Q) : Sim R R (if c then x else y) Q := by split <;> assumption

theorem sim_unwrap {x : SM σ α} (h : Sim R R x Q) : Sim R R (SM.unwrap x) Q := by
  intro s t hr
  obtain ⟨h1, h2, h3⟩ := h s t hr
  refine ⟨?_, h2, fun v hv => h3 v ?_⟩
  · unfold SM.unwrap; simp only [h1]
  · unfold SM.unwrap at hv
    cases hx : (x s).1 <;> rw [hx] at hv <;> simp [Res.unwrap] at hv
    rw [hv]

theorem sim_each {f : α → SM σ Unit} {l : List α} (h : ∀ a ∈ l, Sim R R (f a) (fun _ => True)) : Sim R R (SM.each f l) (fun _ => True) := by
  induction l with
  | nil => exact sim_pure trivial
  | cons a l ih => exact sim_bind (h a (by simp)) fun _ _ => ih fun b hb => h b (by simp [hb])

theorem sim_mapSM {f : α → SM σ β} {l : List α} (h : ∀ a ∈ l, Sim R R (f a) Q') : Sim R R (mapSM f l) (fun r => ∀ b ∈ r, Q' b) := by
  induction l with
  | nil => exact sim_pure (by simp)
  | cons a l ih =>
    refine sim_bind (h a (by simp)) fun b hb => sim_bind (ih fun c hc => h c (by simp [hc])) fun r hr => sim_pure ?_
    intro c hc
    rcases List.mem_cons.mp hc with rfl | hc
    · exact hb
    · exact hr c hc

/-! ### Databases -/

/-- The databases agree on the objects with keys in `S`, all of which exist and refer to keys in `S` only; HEAD, refs and the failures to come are the same;
the refs point to keys in `S`. -/
structure Agree (S : Key → Prop) (a b : Db) : Prop where
  same : ∀ k, S k → get a k = get b k
  stored : ∀ k, S k → ∃ v, get a k = .ok v
  keys : ∀ k, S k → ∀ o, getObj a k = .ok o → ∀ k' ∈ o.keys, S k'
  state : a.state = b.state
  reflog : a.reflog = b.reflog
  faults : a.faults = b.faults
  refs : ∀ r ∈ a.reflog, ∃ k, r.key = k.asDbKey ∧ S k

variable {S : Key → Prop} {a b : Db}

theorem Agree.getObj (h : Agree S a b) {k : Key} (hk : S k) : getObj a k = getObj b k := by
  unfold Snap.getObj; rw [h.same k hk]

theorem get_put_stored {H : Bytes → Key} {d : Bytes} {db : Db} {k : Key} {v : Bytes} (h : get db k = .ok v) : get (put H d db).2 k = .ok v := by
  rcases put_cases H d db with e | e <;> rw [e]
  · exact h
  · exact rawGet_mono (insertIgnore_prefix _ _ _) h

theorem sim_put (H : Bytes → Key) (d : Bytes) : Sim (Agree S) (Agree S) (put H d) (fun _ => True) := by
  intro a b h
  have hs : ∀ k, S k → get (put H d a).2 k = get a k ∧ get (put H d b).2 k = get b k := by
    intro k hk
    obtain ⟨v, hv⟩ := h.stored k hk
    have hv' := hv
    rw [h.same k hk] at hv'
    rw [get_put_stored hv, get_put_stored hv', hv, hv']
    exact ⟨rfl, rfl⟩
  have hf : (put H d a).1 = (put H d b).1 ∧ (put H d a).2.faults = (put H d b).2.faults ∧ (put H d a).2.state = (put H d b).2.state ∧ (put H d a).2.reflog = (put H d b).2.reflog := by
    unfold put
    simp only [SM.bind_apply, SM.modify_apply, rawPut, write]
    rw [← h.faults]
    match hfa : a.faults with
    | true :: fs => exact ⟨rfl, rfl, h.state, h.reflog⟩
    | false :: fs => exact ⟨rfl, rfl, h.state, h.reflog⟩
    | [] => exact ⟨rfl, rfl, h.state, h.reflog⟩
  refine ⟨hf.1, ⟨fun k hk => ?_, fun k hk => ?_, fun k hk o ho => ?_, hf.2.2.1, hf.2.2.2, hf.2.1, ?_⟩, fun _ _ => trivial⟩
  · rw [(hs k hk).1, (hs k hk).2, h.same k hk]
  · rw [(hs k hk).1]; exact h.stored k hk
  · refine h.keys k hk o ?_
    unfold Snap.getObj at ho ⊢
    rw [(hs k hk).1] at ho
    exact ho
  · have : (put H d a).2.reflog = a.reflog := by rcases put_cases H d a with e | e <;> rw [e]
    rw [this]
    exact h.refs

theorem sim_isPuts {H : Bytes → Key} {x : M α} (h : IsPuts H x) : Sim (Agree S) (Agree S) x (fun _ => True) := by
  obtain ⟨ws, r, h⟩ := h
  have e : x = execPuts H ws r := SM.ext' h
  subst e
  clear h
  induction ws with
  | nil => exact sim_lift fun _ _ => trivial
  | cons w ws ih => exact sim_bind (sim_put H w) fun _ _ => ih

/-! ### Reading -/

theorem each_congr {f g : α → SM σ Unit} {l : List α} (h : ∀ a ∈ l, f a = g a) : SM.each f l = SM.each g l := by
  induction l with
  | nil => rfl
  | cons a l ih => simp only [SM.each]; rw [h a (by simp), ih fun b hb => h b (by simp [hb])]

theorem bind_congr_res {r : Res α} {f g : α → SM σ β} (h : ∀ a, r = .ok a → f a = g a) : (SM.lift r >>= f) = (SM.lift r >>= g) := by
  funext s
  rw [SM.bind_apply, SM.bind_apply]
  cases r with
  | ok a => simp only [SM.lift_apply]; rw [h a rfl]
  | err e => rfl
  | panic => rfl
  | fuel => rfl

theorem res_bind_congr {r : Res α} {f g : α → Res β} (h : ∀ a, r = .ok a → f a = g a) : (r >>= f) = (r >>= g) := by
  cases r with
  | ok a => exact h a rfl
  | err e => rfl
  | panic => rfl
  | fuel => rfl

theorem mapRes_congr {f g : α → Res β} {l : List α} (h : ∀ a ∈ l, f a = g a) : mapRes f l = mapRes g l := by
  induction l with
  | nil => rfl
  | cons a l ih => simp only [mapRes]; rw [h a (by simp), ih fun b hb => h b (by simp [hb])]

theorem agree_readDataTo (h : Agree S a b) (sink : Bytes → SM σ Unit) (n : Nat) (k : Key) (hk : S k) : readDataTo a sink n k = readDataTo b sink n k := by
  induction n generalizing k with
  | zero => rfl
  | succ n ih =>
    unfold readDataTo
    rw [← h.getObj hk]
    refine bind_congr_res fun o ho => ?_
    have hs := h.keys k hk o ho
    cases o.objtype with
    | fileBlobTree => exact each_congr fun k' hk' => ih k' (hs k' hk')
    | fsItemFile =>
      simp only
      match hl : o.keys with
      | [k'] => exact ih k' (hs k' (by simp [hl]))
      | [] => rfl
      | _ :: _ :: _ => rfl
    | fileBlob => rfl
    | commit => rfl
    | fsItemDir => rfl
    | unknown => rfl

theorem agree_readAll (h : Agree S a b) (n : Nat) {k : Key} (hk : S k) : readAll a n k = readAll b n k := by
  unfold readAll readData; rw [agree_readDataTo h _ n k hk]

theorem item_children {o : Object} {i : FsItem} (h : FsItem.ofObject o = .ok i) : i.children = o.keys := FsItem.ofObject_keys h

theorem agree_getItem (h : Agree S a b) {k : Key} (hk : S k) : getItem a k = getItem b k ∧ ∀ i, getItem a k = .ok i → ∀ k' ∈ i.children, S k' := by
  unfold getItem
  rw [← h.getObj hk]
  refine ⟨rfl, fun i hi => ?_⟩
  obtain ⟨o, ho, hi⟩ := Res.bind_eq_ok hi
  rw [item_children hi]
  exact h.keys k hk o ho

theorem agree_getFsItem (h : Agree S a b) (n : Nat) (k : Key) (path : Path) (hk : S k) : getFsItem a n k path = getFsItem b n k path := by
  induction n generalizing k path with
  | zero => rfl
  | succ n ih =>
    unfold getFsItem
    rw [← (agree_getItem h hk).1]
    refine bind_congr_res fun i hi => ?_
    have hs := (agree_getItem h hk).2 i hi
    cases i.itemtype with
    | dir => exact each_congr fun c hc => ih c.1 _ (hs c.1 (List.of_mem_zip hc).1)
    | file =>
      simp only
      match hl : i.children with
      | [] => rfl
      | c :: _ => simp only [fun sink : Bytes → SM Fs Unit => agree_readDataTo h sink n c (hs c (by simp [hl]))]

theorem agree_checkout (h : Agree S a b) (filter : Filter) (iter : List Bytes → List Bytes) (n : Nat) (k : Key) (path : Path) (hk : S k) :
    checkoutFsItem a filter iter n k path = checkoutFsItem b filter iter n k path := by
  induction n generalizing k path with
  | zero => rfl
  | succ n ih =>
    unfold checkoutFsItem
    rw [← (agree_getItem h hk).1]
    refine bind_congr_res fun i hi => ?_
    have hs := (agree_getItem h hk).2 i hi
    cases i.itemtype with
    | dir =>
      simp only
      have : ∀ c ∈ i.children.zip i.names, (do Fs.createDirAll path; checkoutFsItem a filter iter n c.1 (Path.join path c.2) : SM Fs Unit) =
          (do Fs.createDirAll path; checkoutFsItem b filter iter n c.1 (Path.join path c.2)) := by
        intro c hc
        rw [ih c.1 _ (hs c.1 (List.of_mem_zip hc).1)]
      rw [each_congr this]
    | file =>
      simp only
      match hl : i.children with
      | [] => rfl
      | c :: _ => simp only [fun sink : Bytes → SM Fs Unit => agree_readDataTo h sink n c (hs c (by simp [hl]))]

/-- All keys of the map are in `S`. -/
def MapIn (S : Key → Prop) (m : PMap (Key × Bool)) : Prop := ∀ e ∈ m, S e.2.1

theorem mapIn_insert {m : PMap (Key × Bool)} (h : MapIn S m) {p : Path} {v : Key × Bool} (hv : S v.1) : MapIn S (PMap.insert m p v) := by
  intro e he
  unfold PMap.insert at he
  split at he
  · obtain ⟨e', h1, h2⟩ := List.mem_map.mp he
    split at h2
    · rw [← h2]; exact hv
    · rw [← h2]; exact h e' h1
  · rcases List.mem_append.mp he with he | he
    · exact h e he
    · simp at he; rw [he]; exact hv

theorem mapIn_extend {m m' : PMap (Key × Bool)} (h : MapIn S m) (h' : MapIn S m') : MapIn S (PMap.extend m m') := by
  unfold PMap.extend
  induction m' generalizing m with
  | nil => exact h
  | cons e m' ih => exact ih (mapIn_insert h (h' e (by simp))) fun e' he => h' e' (by simp [he])

theorem mapIn_get {m : PMap (Key × Bool)} (h : MapIn S m) {p : Path} {v : Key × Bool} (hg : m.get p = some v) : S v.1 := by
  unfold PMap.get at hg
  obtain ⟨e, he, rfl⟩ := Option.map_eq_some_iff.mp hg
  exact h e (List.mem_of_find?_eq_some he)

theorem agree_extendAll {f g : β → Res (PMap (Key × Bool))} {l : List β} (h : ∀ c ∈ l, f c = g c ∧ ∀ m, f c = .ok m → MapIn S m) (m : PMap (Key × Bool)) (hm : MapIn S m) :
    extendAll f m l = extendAll g m l ∧ ∀ r, extendAll f m l = .ok r → MapIn S r := by
  induction l generalizing m with
  | nil => exact ⟨rfl, fun r hr => by simp only [extendAll, Res.ok.injEq] at hr; rw [← hr]; exact hm⟩
  | cons c l ih =>
    simp only [extendAll]
    rw [← (h c (by simp)).1]
    cases hc : f c with
    | ok r =>
      simp only [Res.ok_bind]
      exact ih (fun c hc => h c (by simp [hc])) _ (mapIn_extend hm ((h c (by simp)).2 r hc))
    | err e => exact ⟨rfl, by simp⟩
    | panic => exact ⟨rfl, by simp⟩
    | fuel => exact ⟨rfl, by simp⟩

theorem agree_walkFrom (h : Agree S a b) (n : Nat) (k : Key) (path : Path) (hk : S k) :
    walkItemsFrom a n k path = walkItemsFrom b n k path ∧ ∀ m, walkItemsFrom a n k path = .ok m → MapIn S m := by
  induction n generalizing k path with
  | zero => exact ⟨rfl, by simp [walkItemsFrom]⟩
  | succ n ih =>
    unfold walkItemsFrom
    rw [← (agree_getItem h hk).1]
    have hs := (agree_getItem h hk).2
    cases hi : getItem a k with
    | ok i =>
      simp only [Res.ok_bind]
      cases i.itemtype with
      | dir =>
        refine agree_extendAll (fun c hc => ih c.1 _ (hs i hi c.1 (List.of_mem_zip hc).1)) _ ?_
        split
        · intro e he; simp at he
        · exact mapIn_insert (fun e he => by simp at he) hk
      | file =>
        refine ⟨rfl, fun m hm => ?_⟩
        simp only [Res.pure_eq, Res.ok.injEq] at hm
        rw [← hm]
        exact mapIn_insert (fun e he => by simp at he) hk
    | err e => exact ⟨rfl, by simp⟩
    | panic => exact ⟨rfl, by simp⟩
    | fuel => exact ⟨rfl, by simp⟩

theorem agree_walk (h : Agree S a b) (n : Nat) {k : Key} (hk : S k) : walkItems a n k = walkItems b n k ∧ ∀ m, walkItems a n k = .ok m → MapIn S m := agree_walkFrom h n k [] hk

theorem agree_fromKey (h : Agree S a b) {k : Key} (hk : S k) : Commit.fromKey a k = Commit.fromKey b k ∧ ∀ c, Commit.fromKey a k = .ok c → S c.tree ∧ ∀ p ∈ c.parents, S p := by
  refine ⟨by unfold Commit.fromKey; rw [h.getObj hk], fun c hc => ?_⟩
  obtain ⟨o, ho, hc⟩ := fromKey_eq_ok.mp hc
  have hs := h.keys k hk o ho
  have hl := Commit.ofObject_keys hc
  exact ⟨hs _ (by simp [hl]), fun p hp => hs p (by simp [hl, hp])⟩

/-! ### Differences -/

/-- All keys of the result are in `S`. -/
structure DiffIn (S : Key → Prop) (r : DiffResult) : Prop where
  added : ∀ x ∈ r.added, ∀ k, x.newKey = some k → S k
  deleted : ∀ x ∈ r.deleted, ∀ k, x.originalKey = some k → S k
  modified : ∀ x ∈ r.modified, S x.originalKey ∧ S x.newKey

theorem agree_lineCt (h : Agree S a b) (n : Nat) {k : Key} (hk : S k) : lineCt a n k = lineCt b n k := by
  unfold lineCt; rw [agree_readAll h n hk]

theorem agree_countStat (h : Agree S a b) (n : Nat) (isDir : α → Bool) (key : α → Option Key) (mk : α → Nat → FileStat) (l : List α) (hl : ∀ x ∈ l, ∀ k, key x = some k → S k) :
    countStat a n isDir key mk l = countStat b n isDir key mk l := by
  unfold countStat
  rw [mapRes_congr]
  intro x hx
  match hk : key x with
  | none => rfl
  | some k => simp only; rw [agree_lineCt h n (hl x (List.mem_filter.mp hx).1 k hk)]

theorem agree_printedStat (h : Agree S a b) (lib : DiffLib) (n : Nat) {r : DiffResult} (hr : DiffIn S r) : printedStat lib a n r = printedStat lib b n r := by
  have hm : mapRes (modifiedStat lib a n) r.modified = mapRes (modifiedStat lib b n) r.modified := by
    refine mapRes_congr fun x hx => ?_
    unfold modifiedStat
    rw [agree_readAll h n (hr.modified x hx).1, agree_readAll h n (hr.modified x hx).2]
  unfold printedStat lineStat
  rw [agree_countStat h n _ _ _ _ hr.added, agree_countStat h n _ _ _ _ hr.deleted, hm]

theorem filePatches_congr {isDir : α → Bool} {key : α → Option Key} {mk mk' : α → Key → Res Patch} {l : List α} (hl : ∀ x ∈ l, ∀ k, key x = some k → mk x k = mk' x k) :
    filePatches isDir key mk l = filePatches isDir key mk' l := by
  unfold filePatches
  rw [mapRes_congr]
  intro x hx
  match hk : key x with
  | none => rfl
  | some k => simp only; rw [hl x (List.mem_filter.mp hx).1 k hk]

theorem agree_createPatch (h : Agree S a b) (lib : DiffLib) (n : Nat) {r : DiffResult} (hr : DiffIn S r) : createPatch lib a n r = createPatch lib b n r := by
  have hm : mapRes (modifiedPatch lib a n) r.modified = mapRes (modifiedPatch lib b n) r.modified := by
    refine mapRes_congr fun x hx => ?_
    unfold modifiedPatch
    rw [agree_readAll h n (hr.modified x hx).1, agree_readAll h n (hr.modified x hx).2]
  unfold createPatch
  rw [hm]
  rw [filePatches_congr (mk := fun (x : Added) k => addedPatch lib a n x.path k) (mk' := fun (x : Added) k => addedPatch lib b n x.path k) (fun x hx k hk => by
    unfold addedPatch; rw [agree_readAll h n (hr.added x hx k hk)])]
  rw [filePatches_congr (mk := fun (x : Deleted) k => removedPatch lib a n x.path k) (mk' := fun (x : Deleted) k => removedPatch lib b n x.path k) (fun x hx k hk => by
    unfold removedPatch; rw [agree_readAll h n (hr.deleted x hx k hk)])]

/-! ### compare -/

/-- Databases related by `Agree`, the rest equal. -/
def AgreeFst (S : Key → Prop) (s t : Db × τ) : Prop := Agree S s.1 t.1 ∧ s.2 = t.2

theorem sim_fst {x : M α} (h : Sim (Agree S) (Agree S) x Q) : Sim (AgreeFst (τ := τ) S) (AgreeFst S) (SM.fst x) Q := by
  intro s t hr
  obtain ⟨h1, h2, h3⟩ := h s.1 t.1 hr.1
  exact ⟨h1, ⟨h2, hr.2⟩, h3⟩

theorem sim_snd {x : SM τ α} (h : ∀ s v, (x s).1 = .ok v → Q v) : Sim (AgreeFst S) (AgreeFst S) (SM.snd x : SM (Db × τ) α) Q := by
  intro s t hr
  obtain ⟨h1, h2⟩ := hr
  unfold SM.snd
  rw [h2]
  exact ⟨rfl, ⟨h1, rfl⟩, h _⟩

theorem sim_hashFsItem (E : Env) (fs : Fs) (path : Path) : Sim (AgreeFst S) (AgreeFst S) (hashFsItem E fs path) (fun _ => True) := by
  unfold hashFsItem
  refine sim_bind (Q := fun _ => True) (sim_lift fun _ _ => trivial) fun e _ => ?_
  cases e with
  | file c md =>
    refine sim_bind (Q := fun _ => True) (sim_read fun s t h => ⟨by rw [h.2], fun _ _ => trivial⟩) fun o _ => ?_
    cases o with
    | some h => exact sim_pure trivial
    | none => exact sim_bind (sim_fst (sim_isPuts (isPuts_putFile E path c))) fun k _ => sim_bind (sim_snd (Q := fun _ => True) fun _ _ _ => trivial) fun _ _ => sim_pure trivial
  | dir => exact sim_throw
  | special => exact sim_throw
  | broken => exact sim_throw

/-- What holds of the keys in the result of a comparison: that of a stored tree has keys in `S` only. -/
def DiffOf (S : Key → Prop) (source : Target) (r : DiffResult) : Prop :=
  match source with
  | .database _ => DiffIn S r
  | .fileSystem _ _ _ => True

theorem sim_compare (E : Env) (fs : Fs) (iter : Nat → List Path → List Path) (n : Nat) (source : Target) (to : Option Key) (h1 : ∀ k, source = .database k → S k) (h2 : ∀ k, to = some k → S k) :
    Sim (AgreeFst S) (AgreeFst S) (compare E fs iter n source to) (DiffOf S source) := by
  unfold compare
  refine sim_bind (Q := fun m => (∀ y, m = .right y → MapIn S y) ∧ ∀ k, source = .database k → ∃ y, m = .right y) ?_ fun m hm => ?_
  · cases source with
    | fileSystem path glob dbPath => exact sim_bind (Q := fun _ => True) (sim_lift fun _ _ => trivial) fun m _ => sim_pure ⟨by intro y hy; simp at hy, by intro k hk; simp at hk⟩
    | database key =>
      refine sim_bind (Q := fun m => MapIn S m) (sim_read fun s t h => agree_walk h.1 n (h1 key rfl)) fun m hm => sim_pure ?_
      refine ⟨fun y hy => ?_, fun _ _ => ⟨m, rfl⟩⟩
      simp only [FromMap.right.injEq] at hy
      exact hy ▸ hm
  refine sim_bind (Q := fun m => MapIn S m) ?_ fun B hB => ?_
  · cases to with
    | none => exact sim_pure (fun e he => by simp at he)
    | some t => exact sim_read fun s u h => agree_walk h.1 n (h2 t rfl)
  have hadd : ∀ x, Sim (AgreeFst S) (AgreeFst S) (addedOf E fs m x) (fun r => ∀ y, m = .right y → ∀ k, r.newKey = some k → S k) := by
    intro x
    unfold addedOf
    refine sim_bind (Q := fun r => ∀ y, m = .right y → ∀ k, r = some k → S k) ?_ fun key hk => sim_bind (Q := fun _ => True) (sim_lift fun _ _ => trivial) fun d _ => sim_pure hk
    cases m with
    | left y =>
      exact sim_bind (Q := fun _ => True) (sim_lift fun _ _ => trivial) fun c _ => sim_ite (sim_pure (by simp)) (sim_bind (sim_unwrap (sim_hashFsItem E fs x)) fun _ _ => sim_pure (by simp))
    | right y =>
      simp only
      match hy : y.get x with
      | none => exact sim_panic
      | some v =>
        refine sim_pure ?_
        intro _ _ k hk
        simp only [Option.some.injEq] at hk
        exact hk ▸ mapIn_get (hm.1 y rfl) hy
  have hmod : ∀ x, Sim (AgreeFst S) (AgreeFst S) (modifiedOf E fs m (match source with | .fileSystem path _ _ => path | .database _ => []) B x)
      (fun r => ∀ y, m = .right y → ∀ d, r = some d → S d.originalKey ∧ S d.newKey) := by
    intro x
    unfold modifiedOf
    refine sim_bind (Q := fun r => ∀ y, m = .right y → ∀ k, r = some k → S k) ?_ fun f hf => ?_
    · cases m with
      | left y =>
        simp only
        match y.get x with
        | none => exact sim_panic
        | some true => exact sim_pure (by simp)
        | some false => exact sim_bind (sim_hashFsItem E fs _) fun _ _ => sim_pure (by simp)
      | right y =>
        simp only
        match hy : y.get x with
        | none => exact sim_panic
        | some v =>
          refine sim_pure ?_
          intro _ _ k hk
          simp only [Option.some.injEq] at hk
          exact hk ▸ mapIn_get (hm.1 y rfl) hy
    · cases f with
      | none => exact sim_pure (by simp)
      | some f =>
        simp only
        match hB' : B.get x with
        | none => exact sim_panic
        | some t =>
          refine sim_pure ?_
          intro y hy d hd
          by_cases hft : f = t.1
          · simp [hft] at hd
          · simp only [hft, if_false, Option.some.injEq] at hd
            rw [← hd]
            exact ⟨mapIn_get hB hB', hf y hy f rfl⟩
  refine sim_bind (sim_mapSM fun x _ => hadd x) fun added h3 => sim_bind (Q := fun r => ∀ d ∈ r, ∀ k, d.originalKey = some k → S k) (sim_mapSM fun x _ => sim_lift ?_) fun deleted h4 =>
    sim_bind (sim_mapSM fun x _ => hmod x) fun modified h5 => sim_pure ?_
  · intro d hd k hk
    unfold deletedOf at hd
    obtain ⟨k', h6, hd⟩ := Res.bind_eq_ok hd
    obtain ⟨_, _, hd⟩ := Res.bind_eq_ok hd
    simp only [Res.pure_eq, Res.ok.injEq] at hd
    rw [← hd] at hk
    simp only [Option.some.injEq] at hk
    subst hk
    match hB' : B.get x with
    | none => rw [hB'] at h6; simp at h6
    | some t => rw [hB'] at h6; simp only [Res.ok.injEq] at h6; exact h6 ▸ mapIn_get hB hB'
  · cases source with
    | fileSystem path glob dbPath => trivial
    | database key =>
      obtain ⟨y, hy⟩ := hm.2 key rfl
      refine ⟨fun x hx => h3 x ((sortBy_perm _ _).mem_iff.mp hx) y hy, fun x hx => h4 x ((sortBy_perm _ _).mem_iff.mp hx), fun x hx => ?_⟩
      obtain ⟨o, ho, hx⟩ := List.mem_filterMap.mp ((sortBy_perm _ _).mem_iff.mp hx)
      exact h5 o ho y hy x hx

end Snap
