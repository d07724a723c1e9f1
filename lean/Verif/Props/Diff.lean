import Verif.Props.Walk
import Verif.Lemmas.Diff
/-! Properties C49 and C51 (comparing two stored trees). -/
namespace Snap.Props
open Snap
set_option linter.unusedSectionVars false
variable [Serde] [LawfulSerde]

/-! ### C49 -/

/-- What a comparison of two stored trees reports when it returns. The trees are given as what `walk_fs_items` lists: path, key, directory flag. -/
structure Exact (A B : List (Path × Key × Bool)) (r : DiffResult) : Prop where
  added : ∀ e, e ∈ r.added ↔ ∃ k, e.newKey = some k ∧ (e.path, k, e.isDir) ∈ A ∧ ∀ v, (e.path, v) ∉ B
  modified : ∀ e, e ∈ r.modified ↔ (∃ d, (e.path, e.newKey, d) ∈ A) ∧ (∃ d, (e.path, e.originalKey, d) ∈ B) ∧ e.newKey ≠ e.originalKey
  deleted : r.deleted = []

theorem mem_keys {α} {m : PMap α} {p : Path} : p ∈ m.map (·.1) ↔ ∃ v, (p, v) ∈ m := by
  simp

theorem exact_of {A B : PMap (Key × Bool)} (hA : A.Ok) (hB : B.Ok) {la lm : List Path} (ha : la.Perm (onlyIn A B)) (hm : lm.Perm (inBoth A B)) :
    Exact A B ⟨[], sortBy Added.le (la.map (addD A)), sortBy Modified.le (lm.filterMap (modD A B))⟩ := by
  constructor
  · intro e
    rw [(sortBy_perm _ _).mem_iff, List.mem_map]
    constructor
    · rintro ⟨x, hx, rfl⟩
      obtain ⟨h1, h2⟩ := mem_onlyIn.mp (ha.subset hx)
      obtain ⟨a, h⟩ := (PMap.get_some_iff (hA.key_norm h1)).mpr h1
      have h' := (PMap.get_iff hA (hA.key_norm h1)).mp h
      unfold addD
      rw [h]
      exact ⟨a.1, rfl, h', fun v hv => h2 (mem_keys.mpr ⟨v, hv⟩)⟩
    · rintro ⟨k, h1, h2, h3⟩
      have hk : e.path ∈ A.map (·.1) := mem_keys.mpr ⟨_, h2⟩
      refine ⟨e.path, ha.symm.subset (mem_onlyIn.mpr ⟨hk, fun h => ?_⟩), ?_⟩
      · obtain ⟨v, hv⟩ := mem_keys.mp h; exact h3 v hv
      · unfold addD
        rw [(PMap.get_iff hA (hA.key_norm hk)).mpr h2]
        cases e; simp_all
  · intro e
    rw [(sortBy_perm _ _).mem_iff, List.mem_filterMap]
    constructor
    · rintro ⟨x, hx, he⟩
      obtain ⟨h1, h2⟩ := mem_inBoth.mp (hm.subset hx)
      unfold modD at he
      cases ga : A.get x with
      | none => rw [ga] at he; simp at he
      | some a => cases gb : B.get x with
        | none => rw [ga, gb] at he; simp at he
        | some b =>
          rw [ga, gb] at he
          simp only at he
          split at he
          · simp at he
          · rename_i hne
            simp at he
            subst he
            exact ⟨⟨a.2, (PMap.get_iff hA (hA.key_norm h1)).mp ga⟩, ⟨b.2, (PMap.get_iff hB (hB.key_norm h2)).mp gb⟩, hne⟩
    · rintro ⟨⟨d, h1⟩, ⟨d', h2⟩, h3⟩
      have hk : e.path ∈ A.map (·.1) := mem_keys.mpr ⟨_, h1⟩
      have hk' : e.path ∈ B.map (·.1) := mem_keys.mpr ⟨_, h2⟩
      refine ⟨e.path, hm.symm.subset (mem_inBoth.mpr ⟨hk, hk'⟩), ?_⟩
      unfold modD
      rw [(PMap.get_iff hA (hA.key_norm hk)).mpr h1, (PMap.get_iff hB (hB.key_norm hk')).mpr h2]
      simp only [if_neg h3]
  · rfl

/-- **C49**: comparing two stored trees panics iff some path is only in the second one; otherwise the added and modified paths are reported exactly and nothing is
changed. -/
theorem C49_exact (E : Env) (fs : Fs) (iter : Nat → List Path → List Path) (hi : IterOk iter) (n : Nat) (k : Key) (t : Option Key) (db : Db) (ca : Cache)
    (A B : PMap (Key × Bool)) (hA : walkItems db n k = .ok A) (hB : toItems db n t = .ok B) :
    ((∃ e ∈ B, ∀ v, (e.1, v) ∉ A) → compare E fs iter n (.database k) t (db, ca) = (.panic, (db, ca))) ∧
    ((∀ e ∈ B, ∃ v, (e.1, v) ∈ A) → ∃ r, compare E fs iter n (.database k) t (db, ca) = (.ok r, (db, ca)) ∧ Exact A B r) := by
  have okA := walkItemsFrom_okMap hA
  have okB := toItems_okMap hB
  constructor
  · rintro ⟨e, he, hn⟩
    rw [compare_db hi hA hB, if_neg]
    intro h
    have : e.1 ∈ onlyIn B A := mem_onlyIn.mpr ⟨List.mem_map_of_mem he, fun h => by obtain ⟨v, hv⟩ := mem_keys.mp h; exact hn v hv⟩
    rw [h] at this
    simp at this
  · intro h
    rw [compare_db hi hA hB, if_pos]
    · exact ⟨_, rfl, exact_of okA okB (hi 0 _) (hi 2 _)⟩
    · rw [List.eq_nil_iff_forall_not_mem]
      intro x hx
      obtain ⟨h1, h2⟩ := mem_onlyIn.mp hx
      obtain ⟨v, hv⟩ := mem_keys.mp h1
      obtain ⟨v', hv'⟩ := h _ hv
      exact h2 (mem_keys.mpr ⟨v', hv'⟩)

/-! ### C49 in terms of the directories the trees were made from -/

/-- `k` is the key of the directory `path` of `fs`, stored in `db` by `put_fs_item`, possibly followed by other writes. -/
structure Snapshot (E : Env) (db : Db) (k : Key) (fs : Fs) (filter : Filter) (n : Nat) (path : Path) : Prop where
  wf : fs.Wf
  dir : fs.metadata path = .ok .dir
  put : ∃ d d', Inv E.H d ∧ putFsItem E fs filter n path d = (.ok k, d') ∧ NoColl E.H d' ∧ d'.data <+: db.data

/-- Below `path`, at `rel`, there is something the filter accepts: a directory (`b`) or a file. -/
def Shown (fs : Fs) (filter : Filter) (path : Path) (rel : List Bytes) (b : Bool) : Prop :=
  rel ≠ [] ∧ Visible fs filter path rel ∧ KindAt fs (loc fs.cwd path ++ rel) b

theorem Shown.okNames {fs : Fs} (hw : fs.Wf) {filter : Filter} {path : Path} {rel : List Bytes} {b : Bool} (h : Shown fs filter path rel b) : ∀ m ∈ rel, okName m := by
  refine okName_rel hw (q := loc fs.cwd path) ?_
  rcases h.2.2 with ⟨_, h⟩ | ⟨_, c, h⟩
  · rw [h]; simp
  · obtain ⟨md, h⟩ := content_some.mp h; rw [h]; simp

theorem Shown.unique {fs : Fs} {filter : Filter} {path : Path} {rel : List Bytes} {b b' : Bool} (h : Shown fs filter path rel b) (h' : Shown fs filter path rel b') : b = b' := by
  rcases h.2.2 with ⟨e, h⟩ | ⟨e, c, h⟩ <;> rcases h'.2.2 with ⟨e', h'⟩ | ⟨e', c', h'⟩
  · rw [e, e']
  · obtain ⟨md, h'⟩ := content_some.mp h'; rw [h] at h'; simp at h'
  · obtain ⟨md, h⟩ := content_some.mp h; rw [h] at h'; simp at h'
  · rw [e, e']

/-- What walking a snapshot gives. -/
structure Walked (E : Env) (db : Db) (fs : Fs) (filter : Filter) (path : Path) (m : PMap (Key × Bool)) : Prop where
  ok : m.Ok
  shown : ∀ rel b, Shown fs filter path rel b → ∃ k, (relPath rel, k, b) ∈ m
  only : ∀ p k b, (p, k, b) ∈ m → ∃ rel, p = relPath rel ∧ Shown fs filter path rel b
  file : ∀ rel k c, (relPath rel, k, false) ∈ m → (∀ x ∈ rel, okName x) → fs.content (loc fs.cwd path ++ rel) = some c →
    (∃ d d', putFile E (joins path rel) c d = (.ok k, d')) ∧
    ∃ sz nm ck c', getItem db k = .ok ⟨sz, .file, nm, [ck]⟩ ∧ ReadsBack db ck c' ∧ ReadBackAs E (joins path rel) c c'
  isDir : ∀ p k, (p, k, true) ∈ m → ∃ sz nm ch, getItem db k = .ok ⟨sz, .dir, nm, ch⟩
  below : ∀ rel k b, (∀ x ∈ rel, okName x) → (relPath rel, k, b) ∈ m → ∃ N sub, Snap.Stored db N k sub ∧ ∀ r kf b', r ≠ [] → (∀ x ∈ r, okName x) →
    ((relPath (rel ++ r), kf, b') ∈ m ↔ ∃ c, (⟨⟨r, c⟩, kf⟩ : KNode) ∈ sub ∧ c.isNone = b')
  typed : ∀ p k b, (p, k, b) ∈ m → Typed db k b
  made : ∀ rel k b, (∀ x ∈ rel, okName x) → (relPath rel, k, b) ∈ m →
    ∃ n d d', Inv E.H d ∧ putFsItem E fs filter n (joins path rel) d = (.ok k, d') ∧ NoColl E.H d' ∧ d'.data <+: db.data

theorem stored_dir {db : Db} {n : Nat} {k : Key} {ns : List KNode} (hs : Snap.Stored db n k ns) {x : KNode} (hx : x ∈ ns) (hc : x.node.content = none) :
    ∃ sz nm ch, getItem db x.key = .ok ⟨sz, .dir, nm, ch⟩ := by
  induction n generalizing k ns x with
  | zero => exact hs.elim
  | succ n ih =>
    rcases hs with ⟨sz, nm, ck, c', m, h1, h2, h3, rfl⟩ | ⟨sz, es, h1, rfl, h3⟩
    · simp at hx
      subst hx
      simp at hc
    · rcases List.mem_cons.mp hx with rfl | hx
      · exact ⟨sz, _, _, h1⟩
      · obtain ⟨e, he, hx⟩ := List.mem_flatMap.mp hx
        obtain ⟨y, hy, rfl⟩ := List.mem_map.mp hx
        exact ih (x := y) (h3 e he) hy hc

theorem stored_self {db : Db} {n : Nat} {k : Key} {ns : List KNode} (h : Snap.Stored db n k ns) : ∃ c, (⟨⟨[], c⟩, k⟩ : KNode) ∈ ns := by
  cases n with
  | zero => exact h.elim
  | succ n =>
    rcases h with ⟨sz, nm, ck, c, m, h1, h2, h3, rfl⟩ | ⟨sz, es, h1, rfl, h3⟩
    · exact ⟨some c, by simp⟩
    · exact ⟨none, by simp⟩

theorem pairwise_ne {α} {R : α → α → Prop} {l : List α} (h : l.Pairwise R) {a b : α} (ha : a ∈ l) (hb : b ∈ l) (hne : a ≠ b) : R a b ∨ R b a := by
  induction l with
  | nil => simp at ha
  | cons c l ih =>
    rw [List.pairwise_cons] at h
    rcases List.mem_cons.mp ha with rfl | ha <;> rcases List.mem_cons.mp hb with rfl | hb
    · exact absurd rfl hne
    · exact Or.inl (h.1 b hb)
    · rename_i ha'; exact Or.inr (h.1 a ha')
    · exact ih h.2 ha hb

theorem stored_unique {db : Db} {n n' : Nat} {k : Key} {ns ns' : List KNode} (h : Snap.Stored db n k ns) (h' : Snap.Stored db n' k ns') : ns = ns' := by
  induction n generalizing n' k ns ns' with
  | zero => exact h.elim
  | succ n ih =>
    cases n' with
    | zero => exact h'.elim
    | succ n' =>
      rcases h with ⟨sz, nm, ck, c, m, h1, h2, h3, rfl⟩ | ⟨sz, es, h1, rfl, h3⟩ <;>
        rcases h' with ⟨sz', nm', ck', c', m', h1', h2', h3', rfl⟩ | ⟨sz', es', h1', rfl, h3'⟩
      · rw [h1] at h1'
        simp at h1'
        obtain ⟨_, _, rfl⟩ := h1'
        rw [readsBack_unique (den_readsBack h2 h3) (den_readsBack h2' h3')]
      · rw [h1] at h1'; simp at h1'
      · rw [h1] at h1'; simp at h1'
      · rw [h1] at h1'
        simp at h1'
        obtain ⟨_, e1, e2⟩ := h1'
        have : es = es' := by
          clear h1
          induction es generalizing es' with
          | nil => cases es' with
            | nil => rfl
            | cons _ _ => simp at e1
          | cons e es ihe => cases es' with
            | nil => simp at e1
            | cons e' es' =>
              simp only [List.map_cons, List.cons.injEq] at e1 e2
              have : e = e' := by
                obtain ⟨a, b, c⟩ := e
                obtain ⟨a', b', c'⟩ := e'
                obtain ⟨rfl, _⟩ := e1
                obtain ⟨e2, _⟩ := e2
                simp only at e2
                subst e2
                have := ih (h3 (a, b, c) (by simp)) (h3' (a, b, c') (by simp))
                simp only at this
                rw [this]
              rw [this, ihe (fun x hx => h3 x (by simp [hx])) es' (fun x hx => h3' x (by simp [hx])) e1.2 e2.2]
        rw [this]

/-- The part of a stored tree below one of its nodes. -/
theorem stored_sub {db : Db} {n : Nat} {k : Key} {ns : List KNode} (hs : Snap.Stored db n k ns) (hd : (ns.map (fun x => x.node.rel)).Nodup) {x : KNode} (hx : x ∈ ns) :
    ∃ m sub, Snap.Stored db m x.key sub ∧ ∀ r c kf, (⟨⟨x.node.rel ++ r, c⟩, kf⟩ : KNode) ∈ ns ↔ (⟨⟨r, c⟩, kf⟩ : KNode) ∈ sub := by
  induction n generalizing k ns x with
  | zero => exact hs.elim
  | succ n ih =>
    have hs0 := hs
    rcases hs with ⟨sz, nm, ck, c', m, h1, h2, h3, rfl⟩ | ⟨sz, es, h1, rfl, h3⟩
    · simp at hx
      subst hx
      exact ⟨n + 1, _, hs0, by simp⟩
    · rcases List.mem_cons.mp hx with rfl | hx
      · exact ⟨n + 1, _, hs0, by simp⟩
      · obtain ⟨e, he, hx⟩ := List.mem_flatMap.mp hx
        obtain ⟨y, hy, rfl⟩ := List.mem_map.mp hx
        rw [List.map_cons, List.nodup_cons] at hd
        have hd2 := hd.2
        rw [List.map_flatMap] at hd2
        have hde : (e.2.2.map fun x => x.node.rel).Nodup := by
          unfold List.Nodup at hd2 ⊢
          rw [List.pairwise_flatMap] at hd2
          have := hd2.1 e he
          rw [List.map_map] at this
          rw [List.pairwise_map] at this ⊢
          exact this.imp fun h h' => h (by simp [h'])
        obtain ⟨m, sub, g1, g2⟩ := ih (h3 e he) hde hy
        refine ⟨m, sub, g1, fun r c kf => ?_⟩
        rw [← g2]
        simp only [KNode.under_node, Node.under_rel, List.cons_append, List.mem_cons, KNode.mk.injEq, Node.mk.injEq, List.cons_ne_nil, false_and, false_or, List.mem_flatMap, List.mem_map]
        constructor
        · rintro ⟨e', he', z, hz, hze⟩
          obtain ⟨⟨zr, zc⟩, zk⟩ := z
          simp only [KNode.under, Node.under, KNode.mk.injEq, Node.mk.injEq, List.cons.injEq] at hze
          obtain ⟨⟨⟨e1, rfl⟩, rfl⟩, rfl⟩ := hze
          have : e' = e := by
            refine Classical.byContradiction fun hne => ?_
            have hpw : es.Pairwise fun a b => ∀ u ∈ a.2.2, ∀ v ∈ b.2.2, a.1 :: u.node.rel ≠ b.1 :: v.node.rel := by
              unfold List.Nodup at hd2
              rw [List.pairwise_flatMap] at hd2
              refine hd2.2.imp ?_
              intro a b hab u hu v hv
              exact hab _ (List.mem_map.mpr ⟨u.under a.1, List.mem_map_of_mem hu, rfl⟩) _ (List.mem_map.mpr ⟨v.under b.1, List.mem_map_of_mem hv, rfl⟩)
            obtain ⟨c1, r1⟩ := stored_self (h3 e he)
            obtain ⟨c2, r2⟩ := stored_self (h3 e' he')
            rcases pairwise_ne hpw he' he hne with h | h
            · exact h _ r2 _ r1 (by simp [e1])
            · exact h _ r1 _ r2 (by simp [e1])
          subst this
          exact hz
        · intro h
          exact ⟨e, he, _, h, rfl⟩

theorem Snapshot.walked_later {E : Env} {db : Db} {k : Key} {fs : Fs} {filter : Filter} {n : Nat} {path : Path} (h : Snapshot E db k fs filter n path) {fuel : Nat} (hf : n ≤ fuel) :
    ∃ m, ∀ later : Db, db.data <+: later.data → walkItems later fuel k = .ok m ∧ Walked E later fs filter path m := by
  obtain ⟨d, d', hi, hp, hc, hd⟩ := h.put
  have hw := h.wf
  obtain ⟨ps, hst, hl, hpa, hma⟩ := putFsItem_made hi hp hc
  refine ⟨((ps.map (·.1)).filter fun x => !(x.node.rel = [] ∧ x.node.content = none)).map (fun x => (relPath x.node.rel, x.key, x.node.content.isNone)), fun later hlater => ?_⟩
  have hst := hst.mono (hd.trans hlater)
  have hwalk := walkItems_stored hw hst hl hpa hf
  refine ⟨hwalk, walkItemsFrom_okMap hwalk, ?_, ?_, ?_, ?_, ?_, ?_, ?_⟩
  · rintro rel b ⟨h0, hv, hk⟩
    have : ∃ x ∈ ps.map (·.2), x.rel = rel ∧ x.content.isNone = b := by
      rcases hk with ⟨rfl, ha⟩ | ⟨rfl, c, ha⟩
      · exact ⟨⟨rel, none⟩, (hl.mem hw _).mpr ⟨hv, ha⟩, rfl, rfl⟩
      · exact ⟨⟨rel, some c⟩, (hl.mem hw _).mpr ⟨hv, content_some.mp ha⟩, rfl, rfl⟩
    obtain ⟨x, hx, rfl, rfl⟩ := this
    obtain ⟨p, hp, rfl⟩ := List.mem_map.mp hx
    refine ⟨p.1.key, List.mem_map.mpr ⟨p.1, List.mem_filter.mpr ⟨List.mem_map_of_mem hp, ?_⟩, ?_⟩⟩
    · rw [(hpa p hp).1]; simp [h0]
    · rw [(hpa p hp).1, paired_isNone hpa hp]
  · intro q kf b hm
    obtain ⟨x, hx, he⟩ := List.mem_map.mp hm
    obtain ⟨hx, hr⟩ := List.mem_filter.mp hx
    obtain ⟨p, hp, rfl⟩ := List.mem_map.mp hx
    simp at he
    obtain ⟨rfl, rfl, rfl⟩ := he
    obtain ⟨hv, ha⟩ := (hl.mem hw p.2).mp (List.mem_map_of_mem hp)
    have hk := isAt_kind ha
    rw [(hpa p hp).1, paired_isNone hpa hp]
    refine ⟨p.2.rel, rfl, ?_, hv, hk⟩
    intro h0
    rw [h0, List.append_nil] at hk
    obtain ⟨_, hat, _⟩ := metadata_ok h.dir
    rcases hk with ⟨hn, _⟩ | ⟨_, c, hcon⟩
    · have := paired_isNone hpa hp
      rw [(hpa p hp).1, h0] at hr
      rw [hn] at this
      simp at hr this
      exact hr this
    · obtain ⟨md, hcon⟩ := content_some.mp hcon; rw [hat] at hcon; simp at hcon
  · intro rel kf c hm hok hcon
    obtain ⟨x, hx, he⟩ := List.mem_map.mp hm
    obtain ⟨hx, hr⟩ := List.mem_filter.mp hx
    obtain ⟨p, hp, rfl⟩ := List.mem_map.mp hx
    simp at he
    obtain ⟨e1, rfl, e3⟩ := he
    rw [(hpa p hp).1] at e1
    have e1 := relPath_inj (fun m hm => (hl.okNames hw p.2 (List.mem_map_of_mem hp) m hm).comp) (fun m hm => (hok m hm).comp) e1
    subst e1
    obtain ⟨hv, ha⟩ := (hl.mem hw p.2).mp (List.mem_map_of_mem hp)
    have hpc : p.2.content = some c := by
      have e4 := paired_isNone hpa hp
      unfold Node.isAt at ha
      cases hc2 : p.2.content with
      | none => rw [hc2] at e4; cases hq : p.1.node.content <;> simp [hq] at e3 e4
      | some c2 =>
        rw [hc2] at ha
        have := content_some.mpr ha
        rw [this] at hcon
        simpa using hcon
    refine ⟨?_, ?_⟩
    · obtain ⟨⟨m, _, d1, d2, _, hput, _⟩, _⟩ := hma p hp
      cases m with
      | zero => simp [putFsItem] at hput
      | succ m =>
        unfold putFsItem at hput
        obtain ⟨e, d3, h3, h4⟩ := bind_ok hput
        simp only [SM.lift_apply, Prod.mk.injEq] at h3
        obtain ⟨h3, rfl⟩ := h3
        obtain ⟨md, hat⟩ := content_some.mp hcon
        obtain ⟨_, g2, _⟩ := metadata_ok h3
        rw [loc_joins _ _ (hl.okNames hw p.2 (List.mem_map_of_mem hp)), hat] at g2
        simp at g2
        subst g2
        exact ⟨d1, d2, h4⟩
    · cases hc1 : p.1.node.content with
      | none => rw [hc1] at e3; simp at e3
      | some c' =>
        obtain ⟨sz, nm, ck, m, g1, g2, g3⟩ := stored_file hst (List.mem_map_of_mem hp) hc1
        have h2 := (hpa p hp).2
        rw [hc1, hpc] at h2
        exact ⟨sz, nm, ck, c', g1, den_readsBack g2 g3, h2⟩
  · intro q kf hm
    obtain ⟨x, hx, he⟩ := List.mem_map.mp hm
    obtain ⟨hx, _⟩ := List.mem_filter.mp hx
    simp at he
    obtain ⟨_, rfl, e3⟩ := he
    exact stored_dir hst hx e3
  · intro rel kd b hok hm
    have hoks : ∀ x ∈ ps.map (·.1), ∀ y ∈ x.node.rel, okComp y := by
      intro x hx y hy
      obtain ⟨p, hp, rfl⟩ := List.mem_map.mp hx
      rw [(hpa p hp).1] at hy
      exact (hl.okNames hw p.2 (List.mem_map_of_mem hp) y hy).comp
    have hmem : ∀ rel kf b, (∀ x ∈ rel, okName x) → rel ≠ [] → ((relPath rel, kf, b) ∈ ((ps.map (·.1)).filter fun x => !(x.node.rel = [] ∧ x.node.content = none)).map
        (fun x => (relPath x.node.rel, x.key, x.node.content.isNone)) ↔ ∃ c, (⟨⟨rel, c⟩, kf⟩ : KNode) ∈ ps.map (·.1) ∧ c.isNone = b) := by
      intro rel kf b hok h0
      constructor
      · intro h
        obtain ⟨x, hx, he⟩ := List.mem_map.mp h
        obtain ⟨hx, _⟩ := List.mem_filter.mp hx
        simp only [Prod.mk.injEq] at he
        obtain ⟨e1, rfl, rfl⟩ := he
        have := relPath_inj (hoks x hx) (fun y hy => (hok y hy).comp) e1
        subst this
        exact ⟨x.node.content, hx, rfl⟩
      · rintro ⟨c, hx, rfl⟩
        exact List.mem_map.mpr ⟨_, List.mem_filter.mpr ⟨hx, by simp [h0]⟩, rfl⟩
    obtain ⟨x, hx, he⟩ := List.mem_map.mp hm
    obtain ⟨hx, _⟩ := List.mem_filter.mp hx
    simp only [Prod.mk.injEq] at he
    obtain ⟨e1, rfl, _⟩ := he
    have := relPath_inj (hoks x hx) (fun y hy => (hok y hy).comp) e1
    subst this
    have hrel : (ps.map (·.1)).map (fun x => x.node.rel) = (ps.map (·.2)).map Node.rel := by
      simp only [List.map_map]
      exact List.map_congr_left fun p hp => (hpa p hp).1
    obtain ⟨N, sub, g1, g2⟩ := stored_sub hst (by rw [hrel]; exact hl.nodup hw) hx
    refine ⟨N, sub, g1, fun r kf b' h0 hr => ?_⟩
    rw [hmem (x.node.rel ++ r) kf b' (by
      intro y hy
      rcases List.mem_append.mp hy with hy | hy
      · exact hok y hy
      · exact hr y hy) (by simp [h0])]
    simp only [g2]
  · intro q kf b hm
    obtain ⟨x, hx, he⟩ := List.mem_map.mp hm
    obtain ⟨hx, _⟩ := List.mem_filter.mp hx
    obtain ⟨p, hp, rfl⟩ := List.mem_map.mp hx
    simp only [Prod.mk.injEq] at he
    obtain ⟨_, rfl, rfl⟩ := he
    exact (hma p hp).2.mono (hd.trans hlater)
  · intro rel kf b hok hm
    obtain ⟨x, hx, he⟩ := List.mem_map.mp hm
    obtain ⟨hx, _⟩ := List.mem_filter.mp hx
    obtain ⟨p, hp, rfl⟩ := List.mem_map.mp hx
    simp only [Prod.mk.injEq] at he
    obtain ⟨e1, rfl, _⟩ := he
    rw [(hpa p hp).1] at e1
    have e1 := relPath_inj (fun m hm => (hl.okNames hw p.2 (List.mem_map_of_mem hp) m hm).comp) (fun m hm => (hok m hm).comp) e1
    subst e1
    obtain ⟨⟨m, _, d1, d2, h1, h2, h3, h4⟩, _⟩ := hma p hp
    exact ⟨m, d1, d2, h1, h2, h3, h4.trans (hd.trans hlater)⟩

theorem Snapshot.walked {E : Env} {db : Db} {k : Key} {fs : Fs} {filter : Filter} {n : Nat} {path : Path} (h : Snapshot E db k fs filter n path) {fuel : Nat} (hf : n ≤ fuel) :
    ∃ m, walkItems db fuel k = .ok m ∧ Walked E db fs filter path m := by
  obtain ⟨m, hm⟩ := h.walked_later hf
  exact ⟨m, hm db (List.prefix_refl _)⟩

/-- A file whose contents the reader delivers in reads of at most 32768 bytes, outside the exceptional situation of C24. -/
def FullyRead (E : Env) (p : Path) (c : Bytes) : Prop :=
  Spec.delivered (E.rd p c) = c ∧ Spec.readFails (E.rd p c) = false ∧ Spec.smallReads (E.rd p c) ∧ ¬ Spec.Spilled ((Spec.cuts E.table 0#64 [] c).1.map Prod.snd)

/-- Files stored in one store have the same key iff they have the same contents. -/
theorem same_key_iff {E : Env} {db : Db} {p p' : Path} {c c' : Bytes} {k k' : Key} (h : FullyRead E p c) (h' : FullyRead E p' c')
    (hp : ∃ d d', putFile E p c d = (.ok k, d')) (hp' : ∃ d d', putFile E p' c' d = (.ok k', d'))
    (hr : ∃ sz nm ck b, getItem db k = .ok ⟨sz, .file, nm, [ck]⟩ ∧ ReadsBack db ck b ∧ ReadBackAs E p c b)
    (hr' : ∃ sz nm ck b, getItem db k' = .ok ⟨sz, .file, nm, [ck]⟩ ∧ ReadsBack db ck b ∧ ReadBackAs E p' c' b) : k = k' ↔ c = c' := by
  obtain ⟨a1, a2, a3, a4⟩ := h
  obtain ⟨b1, b2, b3, b4⟩ := h'
  constructor
  · rintro rfl
    obtain ⟨sz, nm, ck, b, g1, g2, g3⟩ := hr
    obtain ⟨sz', nm', ck', b', g1', g2', g3'⟩ := hr'
    rw [g1] at g1'
    simp at g1'
    obtain ⟨_, _, rfl⟩ := g1'
    rw [← readBackAs_exact g3 a1 (Or.inl ⟨a3, a4⟩), ← readBackAs_exact g3' b1 (Or.inl ⟨b3, b4⟩)]
    exact readsBack_unique g2 g2'
  · rintro rfl
    obtain ⟨d, d', hp⟩ := hp
    obtain ⟨e, e', hp'⟩ := hp'
    have : putFile E p c = putFile E p' c := by
      unfold putFile
      have : putData E.table E.H (E.rd p c) = putData E.table E.H (E.rd p' c) := by
        funext db
        exact C25_small_reads E.table E.H _ _ a3 b3 (a1.trans b1.symm) (a2.trans b2.symm) db
      rw [this]
    rw [this] at hp
    exact isPuts_same (isPuts_putFile E p' c) hp hp'

/-- **C49** for snapshots of two directories: the comparison panics iff something is only in the second; otherwise it reports as added exactly what is only in the first,
with the right directory flag, of the files in both exactly those with different contents, and every path that is a file in one and a directory in the other;
every directory with a difference inside is reported as modified too. -/
theorem C49_snapshots (E : Env) (db : Db) (ca : Cache) (k t : Key) (fs1 fs2 : Fs) (f1 f2 : Filter) (n1 n2 : Nat) (p1 p2 : Path) (h1 : Snapshot E db k fs1 f1 n1 p1)
    (h2 : Snapshot E db t fs2 f2 n2 p2) (hr1 : ∀ rel c, VisFile fs1 f1 p1 rel c → FullyRead E (joins p1 rel) c)
    (hr2 : ∀ rel c, VisFile fs2 f2 p2 rel c → FullyRead E (joins p2 rel) c)
    (fs : Fs) (iter : Nat → List Path → List Path) (hi : IterOk iter) (n : Nat) (hn1 : n1 ≤ n) (hn2 : n2 ≤ n) :
    ((∃ rel b, Shown fs2 f2 p2 rel b ∧ ∀ b', ¬ Shown fs1 f1 p1 rel b') → compare E fs iter n (.database k) (some t) (db, ca) = (.panic, (db, ca))) ∧
    ((∀ rel b, Shown fs2 f2 p2 rel b → ∃ b', Shown fs1 f1 p1 rel b') → ∃ r, compare E fs iter n (.database k) (some t) (db, ca) = (.ok r, (db, ca)) ∧
      r.deleted = [] ∧
      (∀ p b, (∃ o, (⟨p, b, o⟩ : Added) ∈ r.added) ↔ ∃ rel, p = relPath rel ∧ Shown fs1 f1 p1 rel b ∧ ∀ b', ¬ Shown fs2 f2 p2 rel b') ∧
      (∀ e ∈ r.modified, ∃ rel b b', e.path = relPath rel ∧ Shown fs1 f1 p1 rel b ∧ Shown fs2 f2 p2 rel b') ∧
      (∀ rel c c', rel ≠ [] → VisFile fs1 f1 p1 rel c → VisFile fs2 f2 p2 rel c' → ((∃ e ∈ r.modified, e.path = relPath rel) ↔ c ≠ c')) ∧
      (∀ rel b, Shown fs1 f1 p1 rel b → Shown fs2 f2 p2 rel (!b) → ∃ e ∈ r.modified, e.path = relPath rel) ∧
      (∀ rel r', r' ≠ [] → (∀ x ∈ r', okName x) → Shown fs1 f1 p1 rel true → Shown fs2 f2 p2 rel true →
        ((∃ e ∈ r.added, e.path = relPath (rel ++ r')) ∨ (∃ e ∈ r.modified, e.path = relPath (rel ++ r'))) → ∃ e ∈ r.modified, e.path = relPath rel)) := by
  obtain ⟨A, hA, wA⟩ := h1.walked hn1
  obtain ⟨B, hB, wB⟩ := h2.walked hn2
  have hcmp := C49_exact E fs iter hi n k (some t) db ca A B hA hB
  have ok1 : ∀ {rel b}, Shown fs1 f1 p1 rel b → ∀ m ∈ rel, okName m := fun h => h.okNames h1.wf
  have ok2 : ∀ {rel b}, Shown fs2 f2 p2 rel b → ∀ m ∈ rel, okName m := fun h => h.okNames h2.wf
  have inj : ∀ {a b : List Bytes}, (∀ m ∈ a, okName m) → (∀ m ∈ b, okName m) → relPath a = relPath b → a = b :=
    fun ha hb h => relPath_inj (fun m hm => (ha m hm).comp) (fun m hm => (hb m hm).comp) h
  have inA : ∀ {rel kf b}, (∀ m ∈ rel, okName m) → (relPath rel, kf, b) ∈ A → Shown fs1 f1 p1 rel b := by
    intro rel kf b hok h
    obtain ⟨rel', e, hs⟩ := wA.only _ _ _ h
    rwa [inj hok (ok1 hs) e]
  have inB : ∀ {rel kf b}, (∀ m ∈ rel, okName m) → (relPath rel, kf, b) ∈ B → Shown fs2 f2 p2 rel b := by
    intro rel kf b hok h
    obtain ⟨rel', e, hs⟩ := wB.only _ _ _ h
    rwa [inj hok (ok2 hs) e]
  constructor
  · rintro ⟨rel, b, hs, hno⟩
    obtain ⟨kf, hm⟩ := wB.shown rel b hs
    refine hcmp.1 ⟨_, hm, fun v hv => ?_⟩
    exact hno v.2 (inA (kf := v.1) (ok2 hs) hv)
  · intro hall
    obtain ⟨r, hr, hex⟩ := hcmp.2 (by
      rintro ⟨p, kf, b⟩ he
      obtain ⟨rel, rfl, hs⟩ := wB.only _ _ _ he
      obtain ⟨b', hs'⟩ := hall rel b hs
      obtain ⟨k', hm⟩ := wA.shown rel b' hs'
      exact ⟨_, hm⟩)
    refine ⟨r, hr, hex.deleted, ?_, ?_, ?_, ?_, ?_⟩
    · intro p b
      constructor
      · rintro ⟨o, ho⟩
        obtain ⟨kf, _, e2, e3⟩ := (hex.added _).mp ho
        obtain ⟨rel, rfl, hs⟩ := wA.only _ _ _ e2
        refine ⟨rel, rfl, hs, fun b' hs' => ?_⟩
        obtain ⟨k', hm⟩ := wB.shown rel b' hs'
        exact e3 _ hm
      · rintro ⟨rel, rfl, hs, hno⟩
        obtain ⟨kf, hm⟩ := wA.shown rel b hs
        refine ⟨some kf, (hex.added _).mpr ⟨kf, rfl, hm, fun v hv => ?_⟩⟩
        exact hno v.2 (inB (kf := v.1) (ok1 hs) hv)
    · intro e he
      obtain ⟨⟨d, e1⟩, ⟨d', e2⟩, _⟩ := (hex.modified _).mp he
      obtain ⟨rel, e3, hs⟩ := wA.only _ _ _ e1
      rw [e3] at e2
      exact ⟨rel, d, d', e3, hs, inB (ok1 hs) e2⟩
    · intro rel c c' h0 hv hv'
      have hs : Shown fs1 f1 p1 rel false := ⟨h0, hv.1, Or.inr ⟨rfl, c, hv.2⟩⟩
      have hs' : Shown fs2 f2 p2 rel false := ⟨h0, hv'.1, Or.inr ⟨rfl, c', hv'.2⟩⟩
      obtain ⟨kf, hm⟩ := wA.shown rel _ hs
      obtain ⟨kf', hm'⟩ := wB.shown rel _ hs'
      obtain ⟨g1, g2⟩ := wA.file rel kf c hm (ok1 hs) hv.2
      obtain ⟨g1', g2'⟩ := wB.file rel kf' c' hm' (ok2 hs') hv'.2
      rw [Ne, ← same_key_iff (hr1 rel c hv) (hr2 rel c' hv') g1 g1' g2 g2']
      constructor
      · rintro ⟨e, he, hep⟩ rfl
        obtain ⟨⟨d, e1⟩, ⟨d', e2⟩, e3⟩ := (hex.modified _).mp he
        rw [hep] at e1 e2
        have u1 := (PMap.get_iff wA.ok (wA.ok.norm _ e1)).mpr e1
        have u2 := (PMap.get_iff wB.ok (wB.ok.norm _ e2)).mpr e2
        rw [(PMap.get_iff wA.ok (wA.ok.norm _ e1)).mpr hm] at u1
        rw [(PMap.get_iff wB.ok (wB.ok.norm _ e2)).mpr hm'] at u2
        simp at u1 u2
        exact e3 (u1.1.symm.trans u2.1)
      · intro hne
        exact ⟨⟨relPath rel, kf', kf⟩, (hex.modified _).mpr ⟨⟨_, hm⟩, ⟨_, hm'⟩, hne⟩, rfl⟩
    · intro rel b hs hs'
      obtain ⟨kf, hm⟩ := wA.shown rel _ hs
      obtain ⟨kf', hm'⟩ := wB.shown rel _ hs'
      refine ⟨⟨relPath rel, kf', kf⟩, (hex.modified _).mpr ⟨⟨_, hm⟩, ⟨_, hm'⟩, ?_⟩, rfl⟩
      simp only
      rintro rfl
      have key : ∀ {rel c} {F : Fs} {F' : Filter} {P : Path} {M : PMap (Key × Bool)} {M' : PMap (Key × Bool)} {q} {G : Fs} {G' : Filter} {Q : Path}, Walked E db F F' P M → Walked E db G G' Q M' → (relPath rel, kf, false) ∈ M → (∀ x ∈ rel, okName x) →
          F.content (loc F.cwd P ++ rel) = some c → (q, kf, true) ∈ M' → False := by
        intro rel c F F' P M M' q G G' Q w w' hm hok hcon hm'
        obtain ⟨_, sz, nm, ck, _, g1, _⟩ := w.file rel kf c hm hok hcon
        obtain ⟨sz', nm', ch', g2⟩ := w'.isDir _ _ hm'
        rw [g1] at g2
        simp at g2
      cases b with
      | true =>
        rcases hs'.2.2 with ⟨e, _⟩ | ⟨_, c, hc⟩
        · simp at e
        · exact key wB wA hm' (ok2 hs') hc hm
      | false =>
        rcases hs.2.2 with ⟨e, _⟩ | ⟨_, c, hc⟩
        · simp at e
        · exact key wA wB hm (ok1 hs) hc hm'
    · intro rel r' h0' hok hs hs' hdiff
      obtain ⟨kf, hm⟩ := wA.shown rel _ hs
      obtain ⟨kf', hm'⟩ := wB.shown rel _ hs'
      refine ⟨⟨relPath rel, kf', kf⟩, (hex.modified _).mpr ⟨⟨_, hm⟩, ⟨_, hm'⟩, ?_⟩, rfl⟩
      simp only
      rintro rfl
      obtain ⟨N, sub, g1, g2⟩ := wA.below rel kf _ (ok1 hs) hm
      obtain ⟨N', sub', g1', g2'⟩ := wB.below rel kf _ (ok2 hs') hm'
      have := stored_unique g1 g1'
      subst this
      have same : ∀ kf b, (relPath (rel ++ r'), kf, b) ∈ A ↔ (relPath (rel ++ r'), kf, b) ∈ B :=
        fun kf b => (g2 r' kf b h0' hok).trans (g2' r' kf b h0' hok).symm
      rcases hdiff with ⟨e, he, hep⟩ | ⟨e, he, hep⟩
      · obtain ⟨kf, _, e2, e3⟩ := (hex.added _).mp he
        rw [hep] at e2 e3
        exact e3 _ ((same _ _).mp e2)
      · obtain ⟨⟨d, e1⟩, ⟨d', e2⟩, e3⟩ := (hex.modified _).mp he
        rw [hep] at e1 e2
        have e2 := (same _ _).mpr e2
        have u1 := (PMap.get_iff wA.ok (wA.ok.norm _ e1)).mpr e1
        rw [(PMap.get_iff wA.ok (wA.ok.norm _ e1)).mpr e2] at u1
        simp at u1
        exact e3 u1.1.symm

end Snap.Props
