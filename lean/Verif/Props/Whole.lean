import Verif.Props.Types
import Verif.Props.Diff
import Verif.Props.Collect
import Verif.Props.Retrieve
/-! C75: whatever is in a database, every file and every directory stored there is complete. -/
namespace Snap.Props
open Snap
set_option linter.unusedSectionVars false
variable [Serde] [LawfulSerde]

variable {H : Bytes → Key}

/-! ### From hashes to the table -/

theorem hashed_getObj {db : Db} (hi : Inv H db) (hc : NoColl H db) {o : Object} {k : Key} (h : Hashed H o k db) (hs : Stored db k) : getObj db k = .ok o := by
  obtain ⟨b, h1, h2, h3⟩ := h
  obtain ⟨v, hv⟩ := hs
  obtain ⟨r1, r2⟩ := hi.rows _ (assoc_some_mem (get_eq_ok.mp hv))
  have : v = b := hc v r2 b h2 (by rw [h3]; exact (asDbKey_inj r1).symm)
  subst this
  simp only [getObj]
  rw [hv, Res.ok_bind]
  exact Object.decode_encode h1

theorem denH_den {db : Db} (hi : Inv H db) (hc : NoColl H db) (hcl : Closed db) {n : Nat} {k : Key} {c : Bytes} (h : DenH H db n k c) (hs : Stored db k) : Den db n k c := by
  induction n generalizing k c with
  | zero => exact hashed_getObj hi hc h hs
  | succ n ih =>
    obtain ⟨ps, h1, h2, h3⟩ := h
    have ho := hashed_getObj hi hc h1 hs
    exact ⟨ps, ho, fun p hp => ih (h2 p hp) (refs_stored hcl ho (by simp only [treeObj]; exact List.mem_map_of_mem hp)), h3⟩

/-- A stored tree is no deeper than its place in the table. -/
theorem treeH_stored {db : Db} (hi : Inv H db) (hc : NoColl H db) (hcl : Closed db) {n : Nat} {k : Key} {ns : List KNode} (h : TreeH H db n k ns) (hs : Stored db k) {m : Nat} (hm : rank db k < m) :
    Snap.Stored db m k ns := by
  induction n generalizing k ns m with
  | zero => exact h.elim
  | succ n ih =>
    obtain ⟨m, rfl⟩ : ∃ m', m = m' + 1 := ⟨m - 1, by omega⟩
    rcases h with ⟨sz, ck, c, i, o, h1, h2, h3, h4, h5⟩ | ⟨o, es, h1, h2, h3, h4, h5⟩
    · have ho := hashed_getObj hi hc h2 hs
      have hk : ck ∈ o.keys := by obtain ⟨_, rfl⟩ := FsItem.toObject_ok h1; simp
      refine .inl ⟨sz, [], ck, c, i, ?_, h3, denH_den hi hc hcl h4 (refs_stored hcl ho hk), h5⟩
      simp only [getItem]
      rw [ho, Res.ok_bind]
      exact FsItem.ofObject_toObject h1
    · have ho := hashed_getObj hi hc h2 hs
      have hkeys : o.keys = es.map (·.2.1) := by obtain ⟨_, rfl⟩ := FsItem.toObject_ok h1; rfl
      refine .inr ⟨es.length, es, ?_, h4, fun e he => ?_⟩
      · simp only [getItem]
        rw [ho, Res.ok_bind]
        exact FsItem.ofObject_toObject h1
      · have hk : e.2.1 ∈ o.keys := by rw [hkeys]; exact List.mem_map_of_mem (f := fun e => e.2.1) he
        have := (rank_lt hcl ho).2 _ hk
        exact ih (h5 e he) (refs_stored hcl ho hk) (by omega)

/-! ### Shape of these trees -/

/-- The files of a tree: where, and what. -/
def filesOf (ns : List KNode) : List (List Bytes × Bytes) := ns.filterMap fun x => x.node.content.map fun c => (x.node.rel, c)

theorem mem_filesOf {ns : List KNode} {rel : List Bytes} {c : Bytes} : (rel, c) ∈ filesOf ns ↔ ∃ x ∈ ns, x.node.rel = rel ∧ x.node.content = some c := by
  simp only [filesOf, List.mem_filterMap]
  constructor
  · rintro ⟨x, hx, h⟩
    cases hc : x.node.content with
    | none => rw [hc] at h; simp at h
    | some d => rw [hc] at h; simp at h; exact ⟨x, hx, h.1, by rw [hc, h.2]⟩
  · rintro ⟨x, hx, h1, h2⟩
    exact ⟨x, hx, by rw [h2]; simp [h1]⟩

theorem filesOf_cons_dir (k : Key) (ns : List KNode) : filesOf (⟨⟨[], none⟩, k⟩ :: ns) = filesOf ns := rfl

theorem filesOf_under (n : Bytes) (ns : List KNode) : filesOf (ns.map (KNode.under n)) = (filesOf ns).map fun x => (n :: x.1, x.2) := by
  simp only [filesOf, List.filterMap_map, List.map_filterMap]
  congr 1
  funext x
  simp [Function.comp_def]

theorem filesOf_flatMap {α : Type} (es : List α) (f : α → List KNode) : filesOf (es.flatMap f) = es.flatMap fun e => filesOf (f e) := by
  simp [filesOf, List.filterMap_flatMap]

theorem treeH_names {db : Db} {n : Nat} {k : Key} {ns : List KNode} (h : TreeH H db n k ns) : ∀ x ∈ ns, ∀ m ∈ x.node.rel, okName m := by
  induction n generalizing k ns with
  | zero => exact h.elim
  | succ n ih =>
    rcases h with ⟨sz, ck, c, i, o, _, _, _, _, rfl⟩ | ⟨o, es, _, _, h3, rfl, h5⟩
    · simp
    · intro x hx m hm
      rcases List.mem_cons.mp hx with rfl | hx
      · simp at hm
      · obtain ⟨e, he, hx⟩ := List.mem_flatMap.mp hx
        obtain ⟨y, hy, rfl⟩ := List.mem_map.mp hx
        simp only [KNode.under_node, Node.under_rel, List.mem_cons] at hm
        rcases hm with rfl | hm
        · exact h3.1 _ (List.mem_map_of_mem (f := fun e => e.1) he)
        · exact ih (h5 e he) y hy m hm

theorem treeH_nodup {db : Db} {n : Nat} {k : Key} {ns : List KNode} (h : TreeH H db n k ns) : (ns.map fun x => x.node.rel).Nodup := by
  induction n generalizing k ns with
  | zero => exact h.elim
  | succ n ih =>
    rcases h with ⟨sz, ck, c, i, o, _, _, _, _, rfl⟩ | ⟨o, es, _, _, h3, rfl, h5⟩
    · simp
    · have := nodup_cons_under (es := es.map fun e => (e.1, e.2.2.map (·.node))) (c := none) (by simpa [Function.comp_def] using h3.2) (by
        intro e he
        obtain ⟨e', he', rfl⟩ := List.mem_map.mp he
        simpa [Function.comp_def] using ih (h5 e' he'))
      simpa [Function.comp_def, List.map_flatMap, List.flatMap_map] using this

/-- No file is above another. -/
theorem treeH_apart {db : Db} {n : Nat} {k : Key} {ns : List KNode} (h : TreeH H db n k ns) :
    (filesOf ns).Pairwise fun x y => ¬ x.1 <+: y.1 ∧ ¬ y.1 <+: x.1 := by
  induction n generalizing k ns with
  | zero => exact h.elim
  | succ n ih =>
    rcases h with ⟨sz, ck, c, i, o, _, _, _, _, rfl⟩ | ⟨o, es, h1, h2, h3, rfl, h5⟩
    · simp [filesOf]
    · rw [filesOf_cons_dir, filesOf_flatMap]
      have hd := h3.2
      clear h1 h2 h3
      induction es with
      | nil => simp
      | cons e es ihe =>
        rw [List.flatMap_cons, List.pairwise_append]
        simp only [List.map_cons, List.nodup_cons] at hd
        refine ⟨?_, ihe (fun e he => h5 e (List.mem_cons_of_mem _ he)) hd.2, ?_⟩
        · rw [filesOf_under, List.pairwise_map]
          refine (ih (h5 e (by simp))).imp fun hxy => ?_
          simpa [List.cons_prefix_cons] using hxy
        · intro x hx y hy
          rw [filesOf_under] at hx
          obtain ⟨x', _, rfl⟩ := List.mem_map.mp hx
          obtain ⟨e', he', hy⟩ := List.mem_flatMap.mp hy
          rw [filesOf_under] at hy
          obtain ⟨y', _, rfl⟩ := List.mem_map.mp hy
          have hne : e.1 ≠ e'.1 := fun h => hd.1 (by rw [h]; exact List.mem_map_of_mem (f := fun e => e.1) he')
          exact ⟨fun h => hne (List.cons_prefix_cons.mp h).1, fun h => hne (List.cons_prefix_cons.mp h).1.symm⟩

/-! ### C75 -/

/-- `k` leads to an object of such a type. -/
def LeadsTo (db : Db) (k : Key) (t : ObjType → Prop) : Prop := ∃ o, getObj db k = .ok o ∧ t o.objtype

/-- What an object may refer to: contents are made of contents, a file has exactly one contents, a directory has files and directories, with as many different proper names. -/
def WellTyped (db : Db) (o : Object) : Prop :=
  match o.objtype with
  | .fileBlob => o.keys = []
  | .fileBlobTree => ∀ k ∈ o.keys, LeadsTo db k IsData
  | .fsItemFile => ∃ k, o.keys = [k] ∧ LeadsTo db k IsData
  | .fsItemDir => (∀ k ∈ o.keys, LeadsTo db k IsItem) ∧ ∃ i, FsItem.ofObject o = .ok i ∧ i.names.length = o.keys.length ∧ ProperNames i.names
  | .commit => True
  | .unknown => False

theorem den_leads {db : Db} {n : Nat} {k : Key} {c : Bytes} (h : Den db n k c) : LeadsTo db k IsData := by
  cases n with
  | zero => exact ⟨_, h, .inl rfl⟩
  | succ n => obtain ⟨ps, h1, _⟩ := h; exact ⟨_, h1, .inr rfl⟩

theorem treeH_leads {db : Db} (hi : Inv H db) (hc : NoColl H db) {n : Nat} {k : Key} {ns : List KNode} (h : TreeH H db n k ns) (hs : Stored db k) : LeadsTo db k IsItem := by
  cases n with
  | zero => exact h.elim
  | succ n =>
    rcases h with ⟨sz, ck, c, i, o, h1, h2, _⟩ | ⟨o, es, h1, h2, _⟩ <;> refine ⟨o, hashed_getObj hi hc h2 hs, ?_⟩ <;> obtain ⟨_, rfl⟩ := FsItem.toObject_ok h1
    · exact .inl rfl
    · exact .inr rfl

theorem getObj_row {db : Db} (hi : Inv H db) {k : Key} {o : Object} (h : getObj db k = .ok o) : ∃ v, get db k = .ok v ∧ H v = k ∧ (k.asDbKey, v) ∈ db.data ∧ Object.decode v = .ok o := by
  simp only [getObj] at h
  obtain ⟨v, hv, hd⟩ := Res.bind_eq_ok h
  have hm := assoc_some_mem (get_eq_ok.mp hv)
  exact ⟨v, hv, (asDbKey_inj (hi.rows _ hm).1).symm, hm, hd⟩

theorem whole_get {db : Db} (hi : Inv H db) (hwh : Whole H db) {k : Key} {o : Object} (h : getObj db k = .ok o) :
    (IsData o.objtype → ∃ i, i ≤ 5 ∧ ∃ c, DenH H db i k c) ∧ (IsItem o.objtype → ∃ n ns, TreeH H db n k ns) := by
  obtain ⟨v, _, e, hm, hd⟩ := getObj_row hi h
  obtain ⟨o', h1, h2⟩ := hwh _ hm
  have : o' = o := by have := Object.decode_encode h1; rw [hd] at this; simpa using this.symm
  subst this
  simp only [e] at h2
  exact h2

/-- In every database: under a key that leads to contents is a complete tree of chunks; under a key that leads to a file or a directory is a complete tree. -/
theorem trees_of {db : Db} (hi : Inv H db) (hcl : Closed db) (hwh : Whole H db) (hc : NoColl H db) {k : Key} {o : Object} (h : getObj db k = .ok o) :
    (IsData o.objtype → ∃ i, i ≤ 5 ∧ ∃ c, Den db i k c) ∧
    (IsItem o.objtype → ∃ ns, (∀ m, db.data.length ≤ m → Snap.Stored db m k ns) ∧ (∀ x ∈ ns, ∀ m ∈ x.node.rel, okName m) ∧ (ns.map fun x => x.node.rel).Nodup ∧
      (filesOf ns).Pairwise fun x y => ¬ x.1 <+: y.1 ∧ ¬ y.1 <+: x.1) := by
  obtain ⟨h1, h2⟩ := whole_get hi hwh h
  obtain ⟨v, hv, _⟩ := getObj_row hi h
  refine ⟨fun ht => ?_, fun ht => ?_⟩
  · obtain ⟨i, h3, c, h4⟩ := h1 ht
    exact ⟨i, h3, c, denH_den hi hc hcl h4 ⟨v, hv⟩⟩
  · obtain ⟨n, ns, h3⟩ := h2 ht
    refine ⟨ns, fun m hm => treeH_stored hi hc hcl h3 ⟨v, hv⟩ (Nat.lt_of_lt_of_le (rank_lt hcl h).1 hm), treeH_names h3, treeH_nodup h3, treeH_apart h3⟩

theorem whole_trees {w : World} (hw : w.Sound H) (q : List Bytes) (hc : NoColl H (w.dbs q)) {k : Key} {o : Object} (h : getObj (w.dbs q) k = .ok o) :
    (IsData o.objtype → ∃ i, i ≤ 5 ∧ ∃ c, Den (w.dbs q) i k c) ∧
    (IsItem o.objtype → ∃ ns, (∀ m, (w.dbs q).data.length ≤ m → Snap.Stored (w.dbs q) m k ns) ∧ (∀ x ∈ ns, ∀ m ∈ x.node.rel, okName m) ∧ (ns.map fun x => x.node.rel).Nodup ∧
      (filesOf ns).Pairwise fun x y => ¬ x.1 <+: y.1 ∧ ¬ y.1 <+: x.1) :=
  trees_of (World.Reachable.inv hw.reachable q) (World.Reachable.closed hw.reachable q) (hw.whole q) hc h

theorem types_of {db : Db} (hi : Inv H db) (hcl : Closed db) (hwh : Whole H db) (hc : NoColl H db) (k : Key) (o : Object) (h : getObj db k = .ok o) : WellTyped db o := by
  obtain ⟨h1, h2⟩ := whole_get hi hwh h
  obtain ⟨v, hv, _, hm, hd⟩ := getObj_row hi h
  unfold WellTyped
  cases ht : o.objtype with
  | fileBlob =>
    obtain ⟨i, _, c, h4⟩ := h1 (.inl ht)
    have := denH_den hi hc hcl h4 ⟨v, hv⟩
    cases i with
    | zero => rw [show getObj db k = .ok (blobObj c) from this] at h; simp at h; rw [← h]; rfl
    | succ i => obtain ⟨ps, h5, _⟩ := this; rw [h5] at h; simp at h; rw [← h] at ht; simp [treeObj] at ht
  | fileBlobTree =>
    obtain ⟨i, _, c, h4⟩ := h1 (.inr ht)
    have := denH_den hi hc hcl h4 ⟨v, hv⟩
    cases i with
    | zero => rw [show getObj db k = .ok (blobObj c) from this] at h; simp at h; rw [← h] at ht; simp [blobObj] at ht
    | succ i =>
      obtain ⟨ps, h5, h6, _⟩ := this
      rw [h5] at h
      simp at h
      rw [← h]
      intro k' hk'
      obtain ⟨p, hp, rfl⟩ := List.mem_map.mp hk'
      exact den_leads (h6 p hp)
  | fsItemFile =>
    obtain ⟨n, ns, h3⟩ := h2 (.inl ht)
    cases n with
    | zero => exact h3.elim
    | succ n =>
      rcases h3 with ⟨sz, ck, c, i, o', h4, h5, _, h6, _⟩ | ⟨o', es, h4, h5, _⟩ <;> have h7 := hashed_getObj hi hc h5 ⟨v, hv⟩ <;> rw [h7] at h <;> simp at h <;> subst h
      · have hk : o'.keys = [ck] := by obtain ⟨_, rfl⟩ := FsItem.toObject_ok h4; rfl
        exact ⟨ck, hk, den_leads (denH_den hi hc hcl h6 (refs_stored hcl h7 (by simp [hk])))⟩
      · obtain ⟨_, rfl⟩ := FsItem.toObject_ok h4; simp [ItemType.objType] at ht
  | fsItemDir =>
    obtain ⟨n, ns, h3⟩ := h2 (.inr ht)
    cases n with
    | zero => exact h3.elim
    | succ n =>
      rcases h3 with ⟨sz, ck, c, i, o', h4, h5, _, h6, _⟩ | ⟨o', es, h4, h5, hn, _, h6⟩ <;> have h7 := hashed_getObj hi hc h5 ⟨v, hv⟩ <;> rw [h7] at h <;> simp at h <;> subst h
      · obtain ⟨_, rfl⟩ := FsItem.toObject_ok h4; simp [ItemType.objType] at ht
      · have hk : o'.keys = es.map (·.2.1) := by obtain ⟨_, rfl⟩ := FsItem.toObject_ok h4; rfl
        refine ⟨fun k' hk' => ?_, _, FsItem.ofObject_toObject h4, by simp [hk], hn⟩
        have hs := refs_stored hcl h7 hk'
        rw [hk] at hk'
        obtain ⟨e, he, rfl⟩ := List.mem_map.mp hk'
        exact treeH_leads hi hc (h6 e he) hs
  | commit => trivial
  | unknown =>
    obtain ⟨o', h3, h4, _⟩ := hcl.rows _ hm
    have : o' = o := by have := Object.decode_encode h3; rw [hd] at this; simpa using this.symm
    subst this
    cases h4 with
    | blob => simp at ht
    | blobTree => simp at ht
    | file _ _ h => obtain ⟨_, rfl⟩ := FsItem.toObject_ok h; simp [ItemType.objType] at ht
    | dir _ h => obtain ⟨_, rfl⟩ := FsItem.toObject_ok h; simp [ItemType.objType] at ht
    | commit _ _ _ _ h => obtain ⟨_, rfl⟩ := Commit.toObject_ok h; simp at ht

/-- **C75**: references lead to objects of the right type, in every database of every world. -/
theorem C75_types {w : World} (hw : w.Sound H) (q : List Bytes) (hc : NoColl H (w.dbs q)) (k : Key) (o : Object) (h : getObj (w.dbs q) k = .ok o) : WellTyped (w.dbs q) o :=
  types_of (World.Reachable.inv hw.reachable q) (World.Reachable.closed hw.reachable q) (hw.whole q) hc k o h

/-- **C75**: every key that leads to contents can be read. -/
theorem C75_contents {w : World} (hw : w.Sound H) (q : List Bytes) (hc : NoColl H (w.dbs q)) (k : Key) (h : LeadsTo (w.dbs q) k IsData) :
    ∃ c, ∀ later : Db, (w.dbs q).data <+: later.data → ReadsBack later k c := by
  obtain ⟨o, h1, h2⟩ := h
  obtain ⟨i, h3, c, h4⟩ := (whole_trees hw q hc h1).1 h2
  exact ⟨c, fun later hl => den_readsBack h3 (h4.mono hl)⟩

/-- Files and directories in a database with these properties. -/
theorem items_of {db : Db} (hi : Inv H db) (hcl : Closed db) (hwh : Whole H db) (hc : NoColl H db) (k : Key) (o : Object) (h : getObj db k = .ok o) (ht : IsItem o.objtype) :
    ∃ files : List (List Bytes × Bytes), (∀ x ∈ files, ∀ m ∈ x.1, okName m) ∧ (files.Pairwise fun x y => ¬ x.1 <+: y.1 ∧ ¬ y.1 <+: x.1) ∧
      ∀ later : Db, db.data <+: later.data →
      (∀ fuel, db.data.length ≤ fuel → ∃ m, walkItems later fuel k = .ok m ∧ (m.map (·.1)).Nodup ∧
        ∀ p, (∃ kf, (p, kf, false) ∈ m) ↔ ∃ rel c, (rel, c) ∈ files ∧ p = relPath rel) ∧
      ∀ (dst : Fs) (_ : dst.Wf) (_ : dst.faults = []) (to : Path) (_ : 0 ∉ to ∧ sDotDot ∉ to.comps) (_ : o.objtype = .fsItemDir ∨ to.lastIsName = true)
        (_ : dst.at (loc dst.cwd to) = none ∧ ∀ q, q <+: loc dst.cwd to → dst.at q = none ∨ dst.at q = some .dir) (fuel : Nat) (_ : db.data.length + 6 ≤ fuel),
        ∃ dst', getFsItem later fuel k to dst = (.ok (), dst') ∧ (∀ rel c, dst'.content (loc dst.cwd to ++ rel) = some c ↔ (rel, c) ∈ files) ∧
          ∀ p, ¬ p <+: loc dst.cwd to → ¬ loc dst.cwd to <+: p → dst'.at p = dst.at p := by
  obtain ⟨ns, hst, hn, hnd, hap⟩ := (trees_of hi hcl hwh hc h).2 ht
  have hst' := hst _ (Nat.le_refl _)
  have hok : ∀ x ∈ filesOf ns, ∀ m ∈ x.1, okName m := by
    intro x hx m hm
    obtain ⟨y, hy, h1, _⟩ := mem_filesOf.mp (show (x.1, x.2) ∈ filesOf ns from hx)
    exact hn y hy m (by rw [h1]; exact hm)
  refine ⟨filesOf ns, hok, hap, fun later hlater => ⟨fun fuel hf => ?_, ?_⟩⟩
  · refine ⟨_, walkItemsFrom_stored (pre := []) (hst'.mono hlater) (by simp) hn hnd hf, ?_, fun p => ?_⟩
    · refine entries_keys (by simp) (fun x hx m hm => ?_) ?_
      · exact (hn x (by simp only [dropRoot, if_true] at hx; exact (List.mem_filter.mp hx).1) m hm).comp
      · simp only [dropRoot, if_true]
        exact hnd.sublist (List.filter_sublist.map _)
    · simp only [entries, dropRoot, if_true, List.nil_append, List.mem_map, List.mem_filter]
      constructor
      · rintro ⟨kf, x, ⟨hx, _⟩, e⟩
        simp only [KNode.val, Prod.mk.injEq, Option.isNone_eq_false_iff] at e
        obtain ⟨c, hcx⟩ := Option.isSome_iff_exists.mp e.2.2
        exact ⟨x.node.rel, c, mem_filesOf.mpr ⟨x, hx, rfl, hcx⟩, e.1.symm⟩
      · rintro ⟨rel, c, hm, rfl⟩
        obtain ⟨x, hx, h1, h2⟩ := mem_filesOf.mp hm
        refine ⟨x.key, x, ⟨hx, by simp [h2]⟩, by simp [KNode.val, h1, h2]⟩
  · intro dst hdw hdf to hto hname hfree fuel hfuel
    obtain ⟨fl, hcuts, hget⟩ := getFsItem_stored (hst'.mono hlater)
    have hcuts' : fl.map (fun x => (x.1, x.2.flatten)) = filesOf ns := by
      rw [hcuts, filesOf, List.filterMap_map]; rfl
    have hfl : ∀ x ∈ fl, (x.1, x.2.flatten) ∈ filesOf ns := fun x hx => by rw [← hcuts']; exact List.mem_map.mpr ⟨x, hx, rfl⟩
    have hroot : ∀ c, ([], c) ∈ filesOf ns → to.lastIsName = true := by
      intro c hm
      rcases hname with h' | h'
      · exfalso
        obtain ⟨x, hx, h1, h2⟩ := mem_filesOf.mp hm
        cases hl : db.data.length with
        | zero => rw [hl] at hst'; exact hst'.elim
        | succ n =>
          rw [hl] at hst'
          obtain ⟨n', ns', h3⟩ := (whole_get hi hwh h).2 ht
          obtain ⟨v, hv, _⟩ := getObj_row hi h
          have hu := treeH_stored hi hc hcl h3 ⟨v, hv⟩ (Nat.lt_succ_self _)
          have := stored_unique hst' hu
          subst this
          cases n' with
          | zero => exact h3.elim
          | succ n' =>
            rcases h3 with ⟨sz, ck, d, i, o', h4, h5, _, h6, _⟩ | ⟨o', es, h4, h5, _, h6, _⟩ <;> have h7 := hashed_getObj hi hc h5 ⟨v, hv⟩ <;> rw [h7] at h <;> simp at h <;> subst h
            · obtain ⟨_, rfl⟩ := FsItem.toObject_ok h4; simp [ItemType.objType] at h'
            · rw [h6, filesOf_cons_dir, filesOf_flatMap] at hm
              obtain ⟨e, _, hm⟩ := List.mem_flatMap.mp hm
              rw [filesOf_under] at hm
              obtain ⟨y, _, hy⟩ := List.mem_map.mp hm
              simp at hy
      · exact h'
    have hnone : ∀ rel, dst.at (loc dst.cwd to ++ rel) = none := by
      intro rel
      by_cases h0 : rel = []
      · subst h0; simpa using hfree.1
      · refine Classical.byContradiction fun h => ?_
        have := hdw.above h0 h
        rw [hfree.1] at this; simp at this
    obtain ⟨dst', e1, _, _, _, hpl⟩ := each_plant hdf hdw.cwd hdw.parents fl (path := to) (L := loc dst.cwd to) (fun x hx => by
        have hx' := hok _ (hfl x hx)
        refine ⟨clean_joins hto hx', ?_⟩
        by_cases h0 : x.1 = []
        · have := hfl x hx
          rw [h0] at this ⊢
          exact hroot _ this
        · exact lastIsName_joins hx' h0) (fun x hx => loc_joins _ _ (hok _ (hfl x hx))) (fun x hx => by
        refine ⟨hnone x.1, fun q hq => ?_⟩
        rcases List.prefix_or_prefix_of_prefix hq (List.prefix_append (loc dst.cwd to) x.1) with h | ⟨r, rfl⟩
        · exact hfree.2 q h
        · exact Or.inl (hnone r)) (by
        rw [← hcuts', List.pairwise_map] at hap
        exact hap)
    rw [hcuts'] at hpl
    refine ⟨dst', by rw [hget to fuel hfuel]; exact e1, fun rel c => ?_, fun p hp1 hp2 => ?_⟩
    · constructor
      · intro hco
        obtain ⟨md, ha⟩ := content_some.mp hco
        refine Classical.byContradiction fun hno => ?_
        by_cases hx : ∃ x ∈ filesOf ns, loc dst.cwd to ++ rel <+: loc dst.cwd to ++ x.1
        · obtain ⟨x, hx, hpre⟩ := hx
          by_cases he : loc dst.cwd to ++ rel = loc dst.cwd to ++ x.1
          · have := List.append_cancel_left he
            subst this
            obtain ⟨md', ha'⟩ := hpl.files x hx
            rw [ha'] at ha
            simp at ha
            exact hno (by rw [← ha.1]; exact hx)
          · rw [hpl.dirs _ ⟨x, hx, hpre, he⟩] at ha
            simp at ha
        · rw [hpl.other _ fun x hx' hpre => hx ⟨x, hx', hpre⟩, hnone] at ha
          simp at ha
      · intro hm
        exact content_some.mpr (hpl.files _ hm)
    · refine hpl.other p fun x hx hpre => ?_
      rcases List.prefix_or_prefix_of_prefix hpre (List.prefix_append (loc dst.cwd to) x.1) with h | h
      · exact hp1 h
      · exact hp2 h

/-- **C75**: every key that leads to a file or directory has a definite list of files, with distinct paths of proper names, none below another; walking the tree lists
exactly these (for all bounds from the number of rows on), each with a key of a file with these contents; and fetching it where nothing is in the way writes exactly
these; in this database and in any that it grows into. -/
theorem C75_items {w : World} (hw : w.Sound H) (q : List Bytes) (hc : NoColl H (w.dbs q)) (k : Key) (o : Object) (h : getObj (w.dbs q) k = .ok o) (ht : IsItem o.objtype) :
    ∃ files : List (List Bytes × Bytes), (∀ x ∈ files, ∀ m ∈ x.1, okName m) ∧ (files.Pairwise fun x y => ¬ x.1 <+: y.1 ∧ ¬ y.1 <+: x.1) ∧
      ∀ later : Db, (w.dbs q).data <+: later.data →
      (∀ fuel, (w.dbs q).data.length ≤ fuel → ∃ m, walkItems later fuel k = .ok m ∧ (m.map (·.1)).Nodup ∧
        ∀ p, (∃ kf, (p, kf, false) ∈ m) ↔ ∃ rel c, (rel, c) ∈ files ∧ p = relPath rel) ∧
      ∀ (dst : Fs) (_ : dst.Wf) (_ : dst.faults = []) (to : Path) (_ : 0 ∉ to ∧ sDotDot ∉ to.comps) (_ : o.objtype = .fsItemDir ∨ to.lastIsName = true)
        (_ : dst.at (loc dst.cwd to) = none ∧ ∀ q, q <+: loc dst.cwd to → dst.at q = none ∨ dst.at q = some .dir) (fuel : Nat) (_ : (w.dbs q).data.length + 6 ≤ fuel),
        ∃ dst', getFsItem later fuel k to dst = (.ok (), dst') ∧ (∀ rel c, dst'.content (loc dst.cwd to ++ rel) = some c ↔ (rel, c) ∈ files) ∧
          ∀ p, ¬ p <+: loc dst.cwd to → ¬ loc dst.cwd to <+: p → dst'.at p = dst.at p :=
  items_of (World.Reachable.inv hw.reachable q) (World.Reachable.closed hw.reachable q) (hw.whole q) hc k o h ht

/-- Fetching from a database with these properties, or from one that it has grown into. -/
theorem fetch_of {db : Db} (hi : Inv H db) (hcl : Closed db) (hwh : Whole H db) (q : List Bytes) (hc : NoColl H db) (k : Key) (o : Object) (h : getObj db k = .ok o) (ht : IsItem o.objtype) :
    ∃ files : List (List Bytes × Bytes), ∀ w2 : World, db.data <+: (w2.dbs q).data → w2.fs.Wf → w2.fs.faults = [] → w2.cache.faults = [] →
      ∀ (Y : Ctx) (S : Repo) (key : Keyish) (to : Path), Opens Y w2 S q → canonicalize (w2.dbs q) key = .ok k → db.data.length + 6 ≤ Y.depth → 0 ∉ to ∧ sDotDot ∉ to.comps →
        (o.objtype = .fsItemDir ∨ to.lastIsName = true) → (w2.fs.at (loc w2.fs.cwd to) = none ∧ ∀ p, p <+: loc w2.fs.cwd to → w2.fs.at p = none ∨ w2.fs.at p = some .dir) →
        (mainRun Y (.fetch key to) w2).1 = .success ∧ ∀ rel c, (mainRun Y (.fetch key to) w2).2.2.fs.content (loc w2.fs.cwd to ++ rel) = some c ↔ (rel, c) ∈ files := by
  obtain ⟨files, _, _, hall⟩ := items_of hi hcl hwh hc k o h ht
  refine ⟨files, fun w2 hs hw2 hf1 hf2 Y S key to ho hkey hdepth hto hname hfree => ?_⟩
  obtain ⟨dst', r0, r1, _⟩ := (hall (w2.dbs q) hs).2 w2.fs hw2 hf1 to hto hname hfree Y.depth hdepth
  rw [mainRun_open (by simp) ho]
  have hrun : (Command.fetch key to).inRepo Y S (startOf w2 q) = (.ok (), { startOf w2 q with fs := dst' }) := by
    show cmdFetch Y key to (startOf w2 q) = _
    unfold cmdFetch
    have e1 : canonicalize (startOf w2 q).db key = .ok k := hkey
    refine (SM.bind_apply (σ := Sys) _ _ _).trans ?_
    rw [readDb_apply, e1]
    show onFs (getFsItem (w2.dbs q) Y.depth k to) (startOf w2 q) = _
    unfold onFs SM.on
    simp only [startOf, r0]
  have hfs : (runIn Y S q (.fetch key to) w2).2.2.fs = dst' := by
    show ((Command.fetch key to).inRepo Y S (startOf w2 q)).2.fs = _
    rw [hrun]
  refine ⟨?_, by rw [hfs]; exact r1⟩
  have : (runIn Y S q (.fetch key to) w2).1 = exitOf ((Command.fetch key to).inRepo Y S (startOf w2 q)).1
    (Cache.finish ((Command.fetch key to).inRepo Y S (startOf w2 q)).1 w2.cache ((Command.fetch key to).inRepo Y S (startOf w2 q)).2.cache).1 := rfl
  rw [this, hrun]
  simp [startOf, Cache.finish, hf2, exitOf]

/-- **C75** for `fetch`: every key that leads to a file or directory has a definite list of files, and `fetch` of that key, now or after anything that may happen (commands, kills,
changes of the files), to a place where nothing is, succeeds and creates exactly these files there. -/
theorem C75_fetch {w : World} (hw : w.Sound H) (q : List Bytes) (hc : NoColl H (w.dbs q)) (k : Key) (o : Object) (h : getObj (w.dbs q) k = .ok o) (ht : IsItem o.objtype) :
    ∃ files : List (List Bytes × Bytes), ∀ w2 : World, World.Steps H w w2 → w2.fs.Wf → w2.fs.faults = [] → w2.cache.faults = [] →
      ∀ (Y : Ctx) (S : Repo) (key : Keyish) (to : Path), Opens Y w2 S q → canonicalize (w2.dbs q) key = .ok k → (w.dbs q).data.length + 6 ≤ Y.depth → 0 ∉ to ∧ sDotDot ∉ to.comps →
        (o.objtype = .fsItemDir ∨ to.lastIsName = true) → (w2.fs.at (loc w2.fs.cwd to) = none ∧ ∀ p, p <+: loc w2.fs.cwd to → w2.fs.at p = none ∨ w2.fs.at p = some .dir) →
        (mainRun Y (.fetch key to) w2).1 = .success ∧ ∀ rel c, (mainRun Y (.fetch key to) w2).2.2.fs.content (loc w2.fs.cwd to ++ rel) = some c ↔ (rel, c) ∈ files := by
  obtain ⟨files, hall⟩ := fetch_of (World.Reachable.inv hw.reachable q) (World.Reachable.closed hw.reachable q) (hw.whole q) q hc k o h ht
  exact ⟨files, fun w2 hs => hall w2 (steps_data hs q)⟩

end Snap.Props
