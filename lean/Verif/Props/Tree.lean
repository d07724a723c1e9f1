import Verif.Lemmas.Get
import Verif.Lemmas.TreeMore
import Verif.Props.File
/-! Properties C21 and C29–C35 (directory trees). -/
namespace Snap.Props
open Snap
set_option linter.unusedSectionVars false
variable [Serde] [LawfulSerde]

/-! ### C21 -/

/-- Converting an item to an object and back gives the same item. -/
theorem C21_roundtrip (i : FsItem) (o : Object) (h : i.toObject = .ok o) : FsItem.ofObject o = .ok i := FsItem.ofObject_toObject h

/-- The conversion succeeds iff the numbers fit 64 bits and all names are UTF-8; otherwise it is a serialisation error. -/
theorem C21_refused (i : FsItem) :
    ((∃ o, i.toObject = .ok o) ↔ i.size < 2 ^ 64 ∧ i.names.length < 2 ^ 64 ∧ ∀ n ∈ i.names, n.length < 2 ^ 64 ∧ utf8 n = true) ∧
    ((¬ ∃ o, i.toObject = .ok o) → i.toObject = .err .encode) := by
  constructor
  · constructor
    · rintro ⟨o, h⟩; exact (FsItem.toObject_ok h).1
    · intro h; exact ⟨_, FsItem.toObject_of h⟩
  · intro h
    exact FsItem.toObject_err fun hs => h ⟨_, FsItem.toObject_of hs⟩

/-- The object's type and keys are the item's kind and children. -/
theorem C21_object (i : FsItem) (o : Object) (h : i.toObject = .ok o) :
    o.keys = i.children ∧ (o.objtype = .fsItemDir ↔ i.itemtype = .dir) ∧ (o.objtype = .fsItemFile ↔ i.itemtype = .file) := by
  obtain ⟨_, rfl⟩ := FsItem.toObject_ok h
  cases i with
  | mk s t ns ch => cases t <;> simp [ItemType.objType]

/-- Different items never become the same object. -/
theorem C21_injective (i j : FsItem) (o : Object) (h : i.toObject = .ok o) (h' : j.toObject = .ok o) : i = j := by
  have := FsItem.ofObject_toObject h
  rw [FsItem.ofObject_toObject h'] at this
  simpa using this.symm

/-- Through the store: an item put is read back, then and later. -/
theorem C21_stored (H : Bytes → Key) (i : FsItem) (o : Object) (db db' later : Db) (k : Key) (hi : Inv H db) (ho : i.toObject = .ok o)
    (hp : putObj H o db = (.ok k, db')) (hc : NoColl H db') (hl : db'.data <+: later.data) : getItem later k = .ok i :=
  getItem_mono hl (putItem_getItem hi ho hp hc)

/-- a directory with two children, and one with a name that is not UTF-8 -/
example : ∃ o, (FsItem.mk 2 .dir [[97], [195, 164]] [exH [1], exH [2]]).toObject = .ok o ∧ o.objtype = .fsItemDir := by
  refine ⟨_, FsItem.toObject_of ?_, rfl⟩
  simp [FsItem.Storable]; decide
example : (FsItem.mk 1 .dir [[195]] [exH [1]]).toObject = .err .encode := by
  refine FsItem.toObject_err ?_
  simp [FsItem.Storable]; decide

/-! ### Vocabulary for C29–C35 -/

/-- A regular file with contents `c` is reached from `path` through accepted entries only. -/
def VisFile (fs : Fs) (filter : Filter) (path : Path) (rel : List Bytes) (c : Bytes) : Prop :=
  Visible fs filter path rel ∧ fs.content (loc fs.cwd path ++ rel) = some c

theorem content_some {fs : Fs} {q : List Bytes} {c : Bytes} : fs.content q = some c ↔ ∃ md, fs.at q = some (.file c md) := by
  unfold Fs.content
  cases h : fs.at q with
  | none => simp
  | some e => cases e <;> simp

/-- What reading back gives for contents `c` of the file at `path`: what the reader delivered, or that without a prefix of at least 32768 bytes, the latter exactly
in the situation of C24. -/
def ReadBackAs (E : Env) (path : Path) (c c' : Bytes) : Prop :=
  ∃ lost, Spec.delivered (E.rd path c) = lost ++ c' ∧
    (Spec.Spilled ((chunks E.table (E.rd path c)).1.map Prod.snd) → 32768 ≤ lost.length) ∧
    (¬ Spec.Spilled ((chunks E.table (E.rd path c)).1.map Prod.snd) → lost = [])

/-- Nodes of the stored tree and of the directory, in terms of `VisFile`. -/
theorem paired_file {E : Env} {fs : Fs} (hw : fs.Wf) {filter : Filter} {n : Nat} {path : Path} {ps : List Pair}
    (hl : Listed fs filter n path (ps.map (·.2))) (hpa : Paired E path ps) {rel : List Bytes} {c' : Bytes}
    (hx : (rel, c') ∈ (ps.map (·.1.node)).filterMap fun x => x.content.map fun c => (x.rel, c)) :
    ∃ c, VisFile fs filter path rel c ∧ ReadBackAs E (joins path rel) c c' := by
  obtain ⟨y, hy, hy2⟩ := List.mem_filterMap.mp hx
  obtain ⟨p, hp, rfl⟩ := List.mem_map.mp hy
  obtain ⟨h1, h2⟩ := hpa p hp
  cases hc : p.1.node.content with
  | none => rw [hc] at hy2; simp at hy2
  | some d =>
    rw [hc] at hy2 h2
    simp at hy2
    obtain ⟨rfl, rfl⟩ := hy2
    cases hc2 : p.2.content with
    | none => rw [hc2] at h2; exact h2.elim
    | some c =>
      rw [hc2] at h2
      obtain ⟨hv, ha⟩ := (hl.mem hw p.2).mp (List.mem_map_of_mem hp)
      rw [h1]
      unfold Node.isAt at ha
      rw [hc2] at ha
      exact ⟨c, ⟨hv, content_some.mpr ha⟩, h2⟩

theorem paired_file' {E : Env} {fs : Fs} (hw : fs.Wf) {filter : Filter} {n : Nat} {path : Path} {ps : List Pair}
    (hl : Listed fs filter n path (ps.map (·.2))) (hpa : Paired E path ps) {rel : List Bytes} {c : Bytes} (hv : VisFile fs filter path rel c) :
    ∃ c', (rel, c') ∈ (ps.map (·.1.node)).filterMap (fun x => x.content.map fun c => (x.rel, c)) ∧ ReadBackAs E (joins path rel) c c' := by
  obtain ⟨md, ha⟩ := content_some.mp hv.2
  have hm := (hl.mem hw ⟨rel, some c⟩).mpr ⟨hv.1, md, ha⟩
  obtain ⟨p, hp, hpe⟩ := List.mem_map.mp hm
  obtain ⟨h1, h2⟩ := hpa p hp
  rw [hpe] at h1 h2
  cases hc : p.1.node.content with
  | none => rw [hc] at h2; exact h2.elim
  | some c' =>
    rw [hc] at h2
    refine ⟨c', List.mem_filterMap.mpr ⟨p.1.node, List.mem_map.mpr ⟨p, hp, rfl⟩, ?_⟩, h2⟩
    rw [hc, h1]; rfl

theorem comps_joins (p : Path) {ns : List Bytes} (h : ∀ n ∈ ns, okName n) : Path.comps (joins p ns) = p.comps ++ ns :=
  comps_foldl_join fun n hn => (h n hn).comp

theorem clean_joins {p : Path} (hp : Clean p) {ns : List Bytes} (h : ∀ n ∈ ns, okName n) : Clean (joins p ns) := by
  refine ⟨?_, ?_⟩
  · induction ns generalizing p with
    | nil => exact hp.1
    | cons n ns ih =>
      rw [joins_cons]
      have hn := h n (by simp)
      refine ih (p := Path.join p n) ⟨?_, ?_⟩ fun m hm => h m (by simp [hm])
      · rw [mem_join hn.comp.notAbs (by decide)]
        rintro (h' | h')
        · exact hp.1 h'
        · exact hn.2.2.2.2 h'
      · rw [comps_join hn.comp]
        intro h'
        rcases List.mem_append.mp h' with h' | h'
        · exact hp.2 h'
        · simp at h'; exact hn.2.2.1 h'.symm
  · rw [comps_joins p h]
    intro h'
    rcases List.mem_append.mp h' with h' | h'
    · exact hp.2 h'
    · exact (h _ h').2.2.1 rfl

theorem lastIsName_joins {p : Path} {ns : List Bytes} (h : ∀ n ∈ ns, okName n) (h0 : ns ≠ []) : (joins p ns).lastIsName = true := by
  rcases List.eq_nil_or_concat ns with rfl | ⟨ns, n, rfl⟩
  · exact absurd rfl h0
  · rw [List.concat_eq_append] at h ⊢
    have hn := h n (by simp)
    obtain ⟨l, hl⟩ := splitSlash_join' (p := joins p ns) hn
    rw [joins_snoc]
    unfold Path.lastIsName
    rw [hl]
    simp [hn.1, hn.2.1, hn.2.2.1]

/-! ### C29 -/

/-- Whatever `put_fs_item` stored, `get_fs_item` restores: for every tree, filter, hash function, gear table and reader; from the store at that time or any later
one; to any destination where nothing is in the way (existing directories are fine), provided no system call fails. The result has the visible files (with the
contents C24 lets through), the directories leading to them, and is otherwise unchanged: empty directories are not recreated. -/
theorem C29_fetch_restores (E : Env) (fs : Fs) (hw : fs.Wf) (filter : Filter) (n : Nat) (path : Path) (db db' : Db) (k : Key)
    (hi : Inv E.H db) (hp : putFsItem E fs filter n path db = (.ok k, db')) (hc : NoColl E.H db')
    (later : Db) (hlater : db'.data <+: later.data)
    (dst : Fs) (hdw : dst.Wf) (hdf : dst.faults = []) (to : Path) (hto : 0 ∉ to ∧ sDotDot ∉ to.comps)
    (hname : fs.metadata path = .ok .dir ∨ to.lastIsName = true)
    (hfree : ∀ rel c, VisFile fs filter path rel c → dst.at (loc dst.cwd to ++ rel) = none ∧
      ∀ q, q <+: loc dst.cwd to ++ rel → dst.at q = none ∨ dst.at q = some .dir)
    (fuel : Nat) (hfuel : n + 6 ≤ fuel) :
    ∃ dst', getFsItem later fuel k to dst = (.ok (), dst') ∧
      (∀ rel c, VisFile fs filter path rel c → ∃ c', dst'.content (loc dst.cwd to ++ rel) = some c' ∧ ReadBackAs E (joins path rel) c c') ∧
      (∀ q, (∃ rel c, VisFile fs filter path rel c ∧ q <+: loc dst.cwd to ++ rel ∧ q ≠ loc dst.cwd to ++ rel) → dst'.at q = some .dir) ∧
      (∀ q, (∀ rel c, VisFile fs filter path rel c → ¬ q <+: loc dst.cwd to ++ rel) → dst'.at q = dst.at q) := by
  obtain ⟨ps, hst, hl, hpa⟩ := putFsItem_ok hi hp hc
  obtain ⟨fl, hcuts, hget⟩ := getFsItem_stored (hst.mono hlater)
  unfold Cuts at hcuts
  simp only [List.map_map, Function.comp_def] at hcuts
  have hfl : ∀ x ∈ fl, ∃ c, VisFile fs filter path x.1 c ∧ ReadBackAs E (joins path x.1) c x.2.flatten := by
    intro x hx
    refine paired_file hw hl hpa ?_
    rw [← hcuts]
    exact List.mem_map.mpr ⟨x, hx, rfl⟩
  have hfl' : ∀ rel c, VisFile fs filter path rel c → ∃ x ∈ fl, x.1 = rel ∧ ReadBackAs E (joins path rel) c x.2.flatten := by
    intro rel c hv
    obtain ⟨c', h1, h2⟩ := paired_file' hw hl hpa hv
    rw [← hcuts] at h1
    obtain ⟨x, hx, he⟩ := List.mem_map.mp h1
    simp at he
    exact ⟨x, hx, he.1, by rw [he.2]; exact h2⟩
  have hok : ∀ rel c, VisFile fs filter path rel c → ∀ m ∈ rel, okName m := by
    intro rel c hv
    obtain ⟨md, ha⟩ := content_some.mp hv.2
    exact hl.okNames hw ⟨rel, some c⟩ ((hl.mem hw ⟨rel, some c⟩).mpr ⟨hv.1, md, ha⟩)
  have hroot : ∀ c, VisFile fs filter path [] c → to.lastIsName = true := by
    intro c hv
    rcases hname with h | h
    · obtain ⟨md, ha⟩ := content_some.mp hv.2
      have := (metadata_ok h).2.1
      simp only [List.append_nil] at ha
      rw [ha] at this; simp at this
    · exact h
  have hclean : ∀ x ∈ fl, Clean (joins to x.1) ∧ (joins to x.1).lastIsName = true := by
    intro x hx
    obtain ⟨c, hv, _⟩ := hfl x hx
    refine ⟨clean_joins hto (hok _ _ hv), ?_⟩
    by_cases h0 : x.1 = []
    · rw [h0] at hv ⊢; exact hroot c hv
    · exact lastIsName_joins (hok _ _ hv) h0
  have hloc : ∀ x ∈ fl, loc dst.cwd (joins to x.1) = loc dst.cwd to ++ x.1 := by
    intro x hx
    obtain ⟨c, hv, _⟩ := hfl x hx
    exact loc_joins _ _ (hok _ _ hv)
  have hpf : fl.Pairwise fun x y => ¬ x.1 <+: y.1 ∧ ¬ y.1 <+: x.1 := by
    have hnd : (fl.map (·.1)).Nodup := by
      have h1 := hl.nodup hw
      have h2 : fl.map (·.1) = (ps.map (·.1.node)).filterMap fun x => x.content.map fun _ => x.rel := by
        have := congrArg (List.map Prod.fst) hcuts
        simp only [List.map_map, List.map_filterMap, List.filterMap_map, Function.comp_def, Option.map_map] at this ⊢
        exact this
      rw [h2]
      have h3 : (ps.map (·.2)).map Node.rel = (ps.map (·.1.node)).map Node.rel := by
        simp only [List.map_map]
        refine List.map_congr_left fun p hp => ?_
        exact ((hpa p hp).1).symm
      rw [h3] at h1
      generalize ps.map (·.1.node) = l at h1
      clear h2 h3
      induction l with
      | nil => simp
      | cons a l ih =>
        simp only [List.map_cons, List.nodup_cons] at h1
        rw [List.filterMap_cons]
        cases hca : a.content with
        | none => simpa using ih h1.2
        | some d =>
          simp only [Option.map_some, List.nodup_cons]
          refine ⟨fun hm => h1.1 ?_, ih h1.2⟩
          obtain ⟨y, hy, hy2⟩ := List.mem_filterMap.mp hm
          cases hcy : y.content with
          | none => rw [hcy] at hy2; simp at hy2
          | some d' => rw [hcy] at hy2; simp at hy2; exact List.mem_map.mpr ⟨y, hy, hy2⟩
    have hno : ∀ x ∈ fl, ∀ y ∈ fl, x.1 ≠ y.1 → ¬ x.1 <+: y.1 := by
      rintro x hx y hy hne ⟨t, ht⟩
      obtain ⟨c, hv, _⟩ := hfl x hx
      obtain ⟨c2, hv2, _⟩ := hfl y hy
      obtain ⟨md, ha⟩ := content_some.mp hv.2
      obtain ⟨md2, ha2⟩ := content_some.mp hv2.2
      rw [← ht, ← List.append_assoc] at ha2
      have ht0 : t ≠ [] := by rintro rfl; simp at ht; exact hne ht
      have := hw.above ht0 (by rw [ha2]; simp)
      rw [ha] at this; simp at this
    have := List.pairwise_map.mp hnd
    refine List.Pairwise.imp_of_mem ?_ this
    intro x y hx hy hne
    exact ⟨hno x hx y hy hne, hno y hy x hx (Ne.symm hne)⟩
  obtain ⟨dst', e1, _, _, _, hpl⟩ := each_plant hdf hdw.cwd hdw.parents fl hclean hloc (by
    intro x hx
    obtain ⟨c, hv, _⟩ := hfl x hx
    exact hfree x.1 c hv) hpf
  refine ⟨dst', by rw [hget to fuel hfuel]; exact e1, ?_, ?_, ?_⟩
  · intro rel c hv
    obtain ⟨x, hx, rfl, hr⟩ := hfl' rel c hv
    obtain ⟨md, hf⟩ := hpl.files _ (List.mem_map.mpr ⟨x, hx, rfl⟩)
    exact ⟨x.2.flatten, content_some.mpr ⟨md, hf⟩, hr⟩
  · rintro q ⟨rel, c, hv, h1, h2⟩
    obtain ⟨x, hx, rfl, _⟩ := hfl' rel c hv
    exact hpl.dirs q ⟨_, List.mem_map.mpr ⟨x, hx, rfl⟩, h1, h2⟩
  · intro q hq
    refine hpl.other q ?_
    intro y hy
    obtain ⟨x, hx, rfl⟩ := List.mem_map.mp hy
    obtain ⟨c, hv, _⟩ := hfl x hx
    exact hq x.1 c hv

/-- What is read back is exact if the reader delivers the file in reads of at most 32768 bytes and the cuts do not spill (C24); always for files
shorter than 32768 bytes. -/
theorem readBackAs_exact {E : Env} {path : Path} {c c' : Bytes} (h : ReadBackAs E path c c') (hd : Spec.delivered (E.rd path c) = c)
    (hs : (Spec.smallReads (E.rd path c) ∧ ¬ Spec.Spilled ((Spec.cuts E.table 0#64 [] c).1.map Prod.snd)) ∨ c.length < 32768) : c' = c := by
  obtain ⟨lost, h1, h2, h3⟩ := h
  rw [hd] at h1
  rcases hs with ⟨ha, hb⟩ | hb
  · rw [chunks_small E.table _ ha, hd] at h3
    rw [h1, h3 hb]; rfl
  · by_cases hsp : Spec.Spilled ((chunks E.table (E.rd path c)).1.map Prod.snd)
    · have := h2 hsp
      have := congrArg List.length h1
      rw [List.length_append] at this
      omega
    · rw [h1, h3 hsp]; rfl

/-- C29 without the exception: every file restored with equal contents. -/
theorem C29_exact (E : Env) (fs : Fs) (hw : fs.Wf) (filter : Filter) (n : Nat) (path : Path) (db db' : Db) (k : Key)
    (hi : Inv E.H db) (hp : putFsItem E fs filter n path db = (.ok k, db')) (hc : NoColl E.H db')
    (hrd : ∀ rel c, VisFile fs filter path rel c → Spec.delivered (E.rd (joins path rel) c) = c)
    (hsp : ∀ rel c, VisFile fs filter path rel c → c.length < 32768 ∨
      (Spec.smallReads (E.rd (joins path rel) c) ∧ ¬ Spec.Spilled ((Spec.cuts E.table 0#64 [] c).1.map Prod.snd)))
    (dst : Fs) (hdw : dst.Wf) (hdf : dst.faults = []) (to : Path) (hto : 0 ∉ to ∧ sDotDot ∉ to.comps)
    (hname : fs.metadata path = .ok .dir ∨ to.lastIsName = true)
    (hfree : dst.at (loc dst.cwd to) = none ∧ ∀ q, q <+: loc dst.cwd to → dst.at q = none ∨ dst.at q = some .dir)
    (fuel : Nat) (hfuel : n + 6 ≤ fuel) :
    ∃ dst', getFsItem db' fuel k to dst = (.ok (), dst') ∧
      (∀ rel, Visible fs filter path rel → dst'.content (loc dst.cwd to ++ rel) = fs.content (loc fs.cwd path ++ rel)) ∧
      (∀ rel, ¬ Visible fs filter path rel → dst'.at (loc dst.cwd to ++ rel) = none) ∧
      (∀ q, ¬ q <+: loc dst.cwd to → ¬ loc dst.cwd to <+: q → dst'.at q = dst.at q) := by
  have hnone : ∀ rel, dst.at (loc dst.cwd to ++ rel) = none := by
    intro rel
    by_cases h0 : rel = []
    · subst h0; simpa using hfree.1
    · refine Classical.byContradiction fun h => ?_
      have := hdw.above h0 h
      rw [hfree.1] at this; simp at this
  obtain ⟨dst', h1, h2, h3, h4⟩ := C29_fetch_restores E fs hw filter n path db db' k hi hp hc db' (List.prefix_refl _) dst hdw hdf to hto hname (by
    intro rel c _
    refine ⟨hnone rel, fun q hq => ?_⟩
    rcases List.prefix_or_prefix_of_prefix hq (List.prefix_append (loc dst.cwd to) rel) with h | ⟨r, rfl⟩
    · exact hfree.2 q h
    · exact Or.inl (hnone r)) fuel hfuel
  have hother : ∀ rel, (∀ c, ¬ VisFile fs filter path rel c) → dst'.content (loc dst.cwd to ++ rel) = none := by
    intro rel hno
    by_cases hx : ∃ rel' c', VisFile fs filter path rel' c' ∧ loc dst.cwd to ++ rel <+: loc dst.cwd to ++ rel'
    · obtain ⟨rel', c', hv, hpre⟩ := hx
      have : dst'.at (loc dst.cwd to ++ rel) = some .dir := by
        refine h3 _ ⟨rel', c', hv, hpre, fun he => hno c' ?_⟩
        rw [List.append_cancel_left he]; exact hv
      unfold Fs.content; rw [this]
    · have : dst'.at (loc dst.cwd to ++ rel) = none := by
        rw [h4 _ fun rel' c' hv hpre => hx ⟨rel', c', hv, hpre⟩]; exact hnone rel
      unfold Fs.content; rw [this]
  refine ⟨dst', h1, ?_, ?_, ?_⟩
  · intro rel hv
    cases hco : fs.content (loc fs.cwd path ++ rel) with
    | none =>
      refine hother rel fun c hvf => ?_
      rw [hvf.2] at hco; simp at hco
    | some c =>
      obtain ⟨c', ha, hb⟩ := h2 rel c ⟨hv, hco⟩
      rw [ha, readBackAs_exact hb (hrd rel c ⟨hv, hco⟩) (hsp rel c ⟨hv, hco⟩).symm]
  · intro rel hv
    rw [h4]
    · exact hnone rel
    · intro rel' c' hv' hpre
      rw [List.prefix_append_right_inj] at hpre
      exact hv (hv'.1.prefix hpre)
  · intro q hq1 hq2
    refine h4 q fun rel c hv hpre => ?_
    rcases List.prefix_or_prefix_of_prefix hpre (List.prefix_append (loc dst.cwd to) rel) with h | h
    · exact hq1 h
    · exact hq2 h

/-- Storing succeeds: a tree of files and directories with UTF-8 names, a filter that answers, files that can be read, and a store that can be written. -/
theorem C29_put_succeeds (E : Env) (fs : Fs) (hw : fs.Wf) (filter : Filter) (n : Nat) (path : Path) (e : Ent) (hm : fs.metadata path = .ok e)
    (hdepth : ∀ rel, fs.at (loc fs.cwd path ++ rel) ≠ none → rel.length < n)
    (htypes : ∀ rel e, Visible fs filter path rel → fs.at (loc fs.cwd path ++ rel) = some e → e = .dir ∨ ∃ c md, e = .file c md)
    (hfilter : ∀ rel m, Visible fs filter path rel → fs.at (loc fs.cwd path ++ rel ++ [m]) ≠ none → ∃ b, filter fs (joins path (rel ++ [m])) = .ok b)
    (hutf : ∀ rel, Visible fs filter path rel → fs.at (loc fs.cwd path ++ rel) ≠ none → ∀ m ∈ rel, utf8 m = true)
    (hread : ∀ rel c, VisFile fs filter path rel c → Spec.readFails (E.rd (joins path rel) c) = false ∧
      (Spec.delivered (E.rd (joins path rel) c)).length < 2 ^ 64 ∧ c.length < 2 ^ 64)
    (hsize : ∀ q, ((fs.names q).map fun m => m.length + 9).sum + 100 < 2 ^ 64)
    (db : Db) (hf : db.faults = []) : ∃ k db', putFsItem E fs filter n path db = (.ok k, db') := by
  obtain ⟨hl, ha, _⟩ := metadata_ok hm
  obtain ⟨ns, hns⟩ := listed_exists hw n hl (by rw [ha]; simp) hdepth htypes hfilter
  have hst : Storables E fs path ns := ⟨?_, ?_, ?_⟩
  · obtain ⟨k, db', h, _⟩ := putFsItem_tot hw hns hst db hf
    exact ⟨k, db', h⟩
  · intro x hx c hc
    obtain ⟨h1, h2⟩ := (hns.mem hw x).mp hx
    unfold Node.isAt at h2
    rw [hc] at h2
    exact hread x.rel c ⟨h1, content_some.mpr h2⟩
  · intro x hx m hm'
    obtain ⟨h1, h2⟩ := (hns.mem hw x).mp hx
    refine hutf x.rel h1 ?_ m hm'
    unfold Node.isAt at h2
    split at h2
    · obtain ⟨md, h2⟩ := h2; rw [h2]; simp
    · rw [h2]; simp
  · intro x _ _
    exact hsize _

/-- Checking a concrete file tree. -/
theorem wf_of_list {fs : Fs} (h1 : (fs.ents.map (·.1)).Nodup) (h2 : ∀ e ∈ fs.ents, ∀ n ∈ e.1, okName n) (h3 : ∀ e ∈ fs.ents, fs.at e.1.dropLast = some .dir)
    (h4 : fs.at fs.cwd = some .dir) : fs.Wf := by
  refine ⟨h1, h2, ?_, h4⟩
  intro q n h
  cases ha : fs.at (q ++ [n]) with
  | none => exact absurd ha h
  | some e =>
    have := h3 _ (at_mem (by simp) ha)
    simpa using this

/-- `/s` with a file `a` and an empty directory `e` -/
def exFs : Fs := { ents := [([[115]], .dir), ([[115], [97]], .file [1, 2] ⟨7, 8⟩), ([[115], [101]], .dir)] }
theorem exFs_wf : exFs.Wf := wf_of_list (by decide) (by decide) (by decide) (by decide)
def exEnv : Env := ⟨exH, fun _ => 0, fun _ c => [.data c]⟩

/-- the tree is stored, no two different byte strings were hashed to one key, and fetching it to `/t/u` recreates the file -/
example : (putFsItem exEnv exFs (fun _ _ => .ok true) 3 [47, 115] {}).1.isOk = true := by decide +kernel
example : (match putFsItem exEnv exFs (fun _ _ => .ok true) 3 [47, 115] {} with
    | (.ok k, db) => ((@getFsItem Subset.serde db 9 k [47, 116, 47, 117] exFs).2.content [[116], [117], [97]], (@getFsItem Subset.serde db 9 k [47, 116, 47, 117] exFs).2.at [[116], [117], [101]])
    | _ => (none, none)) = (some [1, 2], none) := by
  decide +kernel

/-! ### C30 -/

/-- Writing one file, with any sink computation that only appends to it. -/
theorem pres_writeFile {cwd : List Bytes} {J : AtFn → Prop} {P : Path} {body : List Bytes → SM Fs Unit}
    (hd : ∀ q : Path, (∃ c r, P.comps = q.comps ++ c :: r) → ∀ a, J a → a (loc cwd q) = none → J (upd a (loc cwd q) .dir))
    (hf : ∀ a md, J a → a (loc cwd P) = none → J (upd a (loc cwd P) (.file [] md)))
    (hb : (∃ a, J a ∧ a (loc cwd P) = none) → Pres (TreeInv cwd J) (body (loc cwd P)) (fun _ => True)) :
    Pres (TreeInv cwd J) (do
      match Path.parent P with
      | some q => Fs.createDirAll q
      | none => pure ()
      let f ← Fs.createNew P
      body f) (fun _ => True) := by
  have h2 : Pres (TreeInv cwd J) (Fs.createNew P >>= body) (fun _ => True) := by
    refine Pres.bind (pres_createNew hf) ?_
    rintro f ⟨rfl, ha⟩
    exact hb ha
  have h3 : ∀ x : SM Fs Unit, Pres (TreeInv cwd J) x (fun _ => True) → Pres (TreeInv cwd J) (x >>= fun _ => Fs.createNew P >>= body) (fun _ => True) :=
    fun x hx => Pres.bind hx fun _ _ => h2
  cases hq : Path.parent P with
  | none => exact h3 (pure ()) (Pres.pure trivial)
  | some q =>
    refine h3 _ (pres_createDirAll ?_)
    intro q' hq' a ha hn
    obtain ⟨c, hc⟩ := parent_comps hq
    obtain ⟨t, ht⟩ := hq'
    refine hd q' ?_ a ha hn
    rw [hc, ← ht]
    cases t with
    | nil => exact ⟨c, [], by simp⟩
    | cons x t => exact ⟨x, t ++ [c], by simp⟩

/-- Whatever the store contains, whatever the key, destination and failing calls, and whatever the outcome: everything that existed is as before. -/
theorem C30_fetch_keeps (db : Db) (fuel : Nat) (k : Key) (to : Path) (fs : Fs) (q : List Bytes) (e : Ent) (h : fs.at q = some e) :
    (getFsItem db fuel k to fs).2.at q = some e := by
  have key : ∀ (fuel : Nat) (k : Key) (to : Path),
      Pres (TreeInv fs.cwd fun a => ∀ q e, fs.at q = some e → a q = some e) (getFsItem db fuel k to) (fun _ => True) := by
    intro fuel
    induction fuel with
    | zero => intro k to; exact Pres.lift fun _ _ => trivial
    | succ n ih =>
      intro k to
      unfold getFsItem
      refine Pres.bind (Pres.lift (Q := fun _ => True) fun _ _ => trivial) fun item _ => ?_
      have hupd : ∀ (x : List Bytes) (e : Ent) (a : AtFn), (∀ q e, fs.at q = some e → a q = some e) → a x = none →
          ∀ q e', fs.at q = some e' → upd a x e q = some e' := by
        intro x e a ha hn q e' hq
        unfold upd
        split
        · rename_i h; subst h; rw [ha _ _ hq] at hn; simp at hn
        · exact ha q e' hq
      cases item.itemtype with
      | dir => exact Pres.each fun c _ => ih c.1 _
      | file =>
        refine pres_writeFile (fun q _ a ha hn => hupd _ _ a ha hn) (fun a md ha hn => hupd _ _ a ha hn) ?_
        rintro ⟨a0, ha0, hn0⟩
        cases item.children with
        | nil => exact Pres.panic
        | cons c cs =>
          refine pres_readDataTo db (fun d => pres_writeAll ?_ d) n c
          intro a c md d ha _ q e hq
          unfold upd
          split
          · rename_i h; subst h; rw [ha0 _ _ hq] at hn0; simp at hn0
          · exact ha q e hq
  exact ((key fuel k to) fs ⟨rfl, fun q e h => h⟩).1.2 q e h

/-- a file that is in the way makes the fetch fail and keeps its contents -/
example : (match putFsItem exEnv exFs (fun _ _ => .ok true) 3 [47, 115] {} with
    | (.ok k, db) => ((@getFsItem Subset.serde db 9 k [47, 115] exFs).1, (@getFsItem Subset.serde db 9 k [47, 115] exFs).2.content [[115], [97]])
    | _ => (.fuel, none)) = (.err .io, some [1, 2]) := by
  decide +kernel

/-! ### C31 -/

theorem fetch_below (db : Db) (n : Nat) (k : Key) (ns : List KNode) (hs : Snap.Stored db n k ns) (ho : ∀ x ∈ ns, ∀ m ∈ x.node.rel, okName m)
    (to : Path) (fs : Fs) (fuel : Nat) (hfuel : n + 6 ≤ fuel) (q : List Bytes)
    (hch : (getFsItem db fuel k to fs).2.at q ≠ fs.at q) :
    fs.at q = none ∧ (loc fs.cwd to <+: q ∨
      ((getFsItem db fuel k to fs).2.at q = some .dir ∧ ∃ p : Path, p.comps <+: to.comps ∧ q = loc fs.cwd p)) := by
  obtain ⟨fl, hcuts, hget⟩ := getFsItem_stored hs
  rw [hget to fuel hfuel] at hch ⊢
  have hok : ∀ x ∈ fl, ∀ m ∈ x.1, okName m := by
    intro x hx
    have : (x.1, x.2.flatten) ∈ fl.map (fun x => (x.1, x.2.flatten)) := List.mem_map.mpr ⟨x, hx, rfl⟩
    rw [hcuts] at this
    obtain ⟨y, hy, hy2⟩ := List.mem_filterMap.mp this
    obtain ⟨z, hz, rfl⟩ := List.mem_map.mp hy
    cases hc : z.node.content with
    | none => rw [hc] at hy2; simp at hy2
    | some d => rw [hc] at hy2; simp at hy2; rw [← hy2.1]; exact ho z hz
  let J : AtFn → Prop := fun a => ∀ q, a q = fs.at q ∨ (fs.at q = none ∧ (loc fs.cwd to <+: q ∨ (a q = some .dir ∧ ∃ p : Path, p.comps <+: to.comps ∧ q = loc fs.cwd p)))
  have hJ : ∀ a x e, J a → a x = none → (loc fs.cwd to <+: x ∨ (e = .dir ∧ ∃ p : Path, p.comps <+: to.comps ∧ x = loc fs.cwd p)) → J (upd a x e) := by
    intro a x e ha hn hx q
    unfold upd
    by_cases hq : q = x
    · subst hq
      rw [if_pos rfl]
      refine Or.inr ⟨?_, ?_⟩
      · rcases ha q with h | h
        · rw [← h]; exact hn
        · exact h.1
      · rcases hx with h | ⟨rfl, h⟩
        · exact Or.inl h
        · exact Or.inr ⟨rfl, h⟩
    · rw [if_neg hq]; exact ha q
  have hpres : Pres (TreeInv fs.cwd J) (SM.each (fun x => plantOne (joins to x.1) x.2) fl) (fun _ => True) := by
    refine Pres.each fun x hx => ?_
    have hcx : Path.comps (joins to x.1) = to.comps ++ x.1 := comps_joins to (hok x hx)
    have hlx : loc fs.cwd (joins to x.1) = loc fs.cwd to ++ x.1 := loc_joins _ _ (hok x hx)
    refine pres_writeFile (body := fun f => SM.each (Fs.writeAll f) x.2) ?_ ?_ ?_
    · rintro p ⟨c, r, hp⟩ a ha hn
      refine hJ a _ _ ha hn ?_
      rw [hcx] at hp
      rcases List.append_eq_append_iff.mp hp with ⟨t, h1, h2⟩ | ⟨t, h1, h2⟩
      · left
        have : loc fs.cwd p = loc fs.cwd to ++ t := by
          unfold loc
          rw [h1, List.foldl_append]
          have ht : ∀ m ∈ t, okName m := fun m hm => hok x hx m (by rw [h2]; simp [hm])
          have : ∀ cur : List Bytes, t.foldl lexStep cur = cur ++ t := by
            clear h1 h2 hp
            induction t with
            | nil => intro cur; simp
            | cons y t ih =>
              intro cur
              have hy := ht y (by simp)
              rw [List.foldl_cons, ih fun m hm => ht m (by simp [hm]), lexStep_comp hy.2.2.2.1, if_neg (by simp [hy.1, hy.2.1]), if_neg hy.2.2.1]
              simp
          exact this _
        rw [this]; exact List.prefix_append _ _
      · right
        exact ⟨rfl, p, ⟨t, h1.symm⟩, rfl⟩
    · intro a md ha hn
      refine hJ a _ _ ha hn (Or.inl ?_)
      rw [hlx]; exact List.prefix_append _ _
    · rintro ⟨a0, ha0, hn0⟩
      refine Pres.each fun d _ => pres_writeAll ?_ d
      intro a c md d ha hf y
      unfold upd
      by_cases hy : y = loc fs.cwd (joins to x.1)
      · rw [if_pos hy]
        refine Or.inr ⟨?_, Or.inl ?_⟩
        · rw [hy]
          rcases ha0 (loc fs.cwd (joins to x.1)) with h | h
          · rw [← h]; exact hn0
          · exact h.1
        · rw [hy, hlx]; exact List.prefix_append _ _
      · rw [if_neg hy]; exact ha y
  have := (hpres fs ⟨rfl, fun q => Or.inl rfl⟩).1.2 q
  rcases this with h | h
  · exact absurd h hch
  · exact h

/-- Fetching what `put_fs_item` stored changes, whatever the destination, the tree there is, the failing calls and the outcome, only: locations at or below the
destination, which did not exist; and missing directories on the way to the destination, which it creates. -/
theorem C31_fetch_below (E : Env) (src : Fs) (hw : src.Wf) (filter : Filter) (n : Nat) (path : Path) (db db' later : Db) (k : Key)
    (hi : Inv E.H db) (hp : putFsItem E src filter n path db = (.ok k, db')) (hc : NoColl E.H db') (hl : db'.data <+: later.data)
    (to : Path) (fs : Fs) (fuel : Nat) (hfuel : n + 6 ≤ fuel) (q : List Bytes) (hch : (getFsItem later fuel k to fs).2.at q ≠ fs.at q) :
    fs.at q = none ∧ (loc fs.cwd to <+: q ∨
      ((getFsItem later fuel k to fs).2.at q = some .dir ∧ ∃ p : Path, p.comps <+: to.comps ∧ q = loc fs.cwd p)) := by
  obtain ⟨ps, hst, hli, hpa⟩ := putFsItem_ok hi hp hc
  refine fetch_below later n k _ (hst.mono hl) ?_ to fs fuel hfuel q hch
  intro x hx m hm
  obtain ⟨p, hp, rfl⟩ := List.mem_map.mp hx
  rw [(hpa p hp).1] at hm
  exact hli.okNames hw p.2 (List.mem_map_of_mem hp) m hm

/-- If the destination has no `..`, the directories on the way are the ancestors of the destination. -/
theorem C31_way (to p : Path) (cwd : List Bytes) (hto : sDotDot ∉ to.comps) (hp : p.comps <+: to.comps) (hr : p.comps ≠ []) : loc cwd p <+: loc cwd to := by
  obtain ⟨h, t, e, hh, ht⟩ := comps_shape to
  obtain ⟨s, hs⟩ := hp
  have hno : ∀ (l : List Bytes) (cur : List Bytes), (∀ m ∈ l, okComp m ∧ m ≠ sDotDot) → cur <+: l.foldl lexStep cur := by
    intro l
    induction l with
    | nil => intro cur _; exact List.prefix_refl _
    | cons x l ih =>
      intro cur hl
      obtain ⟨hx, hx2⟩ := hl x (by simp)
      rw [List.foldl_cons, lexStep_comp hx.2.2, if_neg (by simp [hx.1, hx.2.1]), if_neg hx2]
      exact (List.prefix_append _ _).trans (ih _ fun m hm => hl m (by simp [hm]))
  have hs' : ∀ m ∈ s, okComp m ∧ m ≠ sDotDot := by
    intro m hm
    refine ⟨?_, fun h' => hto (by rw [← hs, ← h']; simp [hm])⟩
    cases hpc : p.comps with
    | nil => exact absurd hpc hr
    | cons a as =>
      rw [hpc, e] at hs
      rcases hh with rfl | rfl | rfl
      · exact ht m (by simp at hs; rw [← hs]; simp [hm])
      · simp at hs; exact ht m (by rw [← hs.2]; simp [hm])
      · simp at hs; exact ht m (by rw [← hs.2]; simp [hm])
  unfold loc
  rw [← hs, List.foldl_append]
  exact hno s _ hs'

omit [Serde] [LawfulSerde] in
/-- For objects not stored by `put_fs_item` this fails: directories whose child names are absolute or contain `..`, fetched to `/t`, create `/x`. -/
theorem C31_counterexample :
    ∃ (db : Db) (k k' : Key) (fs : Fs), (@getFsItem Subset.serde db 9 k [47, 116] fs).1 = .ok () ∧ (@getFsItem Subset.serde db 9 k [47, 116] fs).2.content [[120]] = some [1] ∧
      (@getFsItem Subset.serde db 9 k' [47, 116] { fs with ents := [([[116]], .dir)] }).1 = .ok () ∧
      (@getFsItem Subset.serde db 9 k' [47, 116] { fs with ents := [([[116]], .dir)] }).2.content [[120]] = some [1] ∧ fs.at [[120]] = none := by
  let prog : M (Key × Key) := do
    let b ← putObj exH (blobObj [1])
    let o ← SM.lift (FsItem.toObject ⟨1, .file, [], [b]⟩)
    let f ← putObj exH o
    let o ← SM.lift (FsItem.toObject ⟨1, .dir, [[47, 120]], [f]⟩)
    let d ← putObj exH o
    let o ← SM.lift (FsItem.toObject ⟨2, .dir, [[46, 46, 47, 120]], [f]⟩)
    let d' ← putObj exH o
    pure (d, d')
  refine ⟨(prog {}).2, (match (prog {}).1 with | .ok p => p.1 | _ => exH []), (match (prog {}).1 with | .ok p => p.2 | _ => exH []), {}, ?_⟩
  decide +kernel

end Snap.Props
