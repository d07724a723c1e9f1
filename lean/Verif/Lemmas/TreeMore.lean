import Verif.Lemmas.Walk
/-! When walking and storing a directory succeed. -/
namespace Snap

theorem walkRealEntries_ok {fs : Fs} {filter : Filter} {rec : Path → Res (PMap Bool)} {curr path : Path} {P : Bytes → List Node → Prop} {m m' : PMap Bool} {all : List Bytes}
    (hr : ∀ n ∈ all, ∀ r, rec (Path.join path n) = .ok r → ∃ ns, P n ns) (h : walkRealEntries fs filter rec curr path m all = .ok m') :
    ∃ es : List (Bytes × List Node), acceptAll fs filter curr all (es.map (·.1)) ∧ ∀ e ∈ es, P e.1 e.2 := by
  induction all generalizing m with
  | nil => exact ⟨[], rfl, by simp⟩
  | cons n all ih =>
    unfold walkRealEntries at h
    obtain ⟨b, hb, h⟩ := Res.bind_eq_ok h
    cases b with
    | true =>
      simp only [if_true] at h
      obtain ⟨r, h1, h2⟩ := Res.bind_eq_ok h
      obtain ⟨ns, hns⟩ := hr n (by simp) r h1
      obtain ⟨es, e1, e2⟩ := ih (fun x hx => hr x (by simp [hx])) h2
      refine ⟨(n, ns) :: es, Or.inl ⟨hb, _, rfl, e1⟩, ?_⟩
      intro e he
      rcases List.mem_cons.mp he with rfl | he
      · exact hns
      · exact e2 e he
    | false =>
      simp only [Bool.false_eq_true, if_false] at h
      obtain ⟨es, e1, e2⟩ := ih (fun x hx => hr x (by simp [hx])) h
      exact ⟨es, Or.inr ⟨hb, e1⟩, e2⟩

theorem acceptAll_congr {fs : Fs} {filter : Filter} {p p' : Path} {all acc : List Bytes} (h : ∀ m ∈ all, Path.join p m = Path.join p' m)
    (ha : acceptAll fs filter p all acc) : acceptAll fs filter p' all acc := by
  induction all generalizing acc with
  | nil => exact ha
  | cons x l ih =>
    unfold acceptAll at ha ⊢
    rw [← h x (by simp)]
    rcases ha with ⟨a, acc', b, c⟩ | ⟨a, b⟩
    · exact Or.inl ⟨a, acc', b, ih (fun m hm => h m (by simp [hm])) c⟩
    · exact Or.inr ⟨a, ih (fun m hm => h m (by simp [hm])) b⟩

/-- `base.join("")` resolves only for a directory, and then `base` does too. -/
theorem locate_of_join_empty {fs : Fs} {base : Path} (hb : base ≠ []) {q : List Bytes} {e : Ent} (h : fs.locate (Path.join base []) = .ok q) (he : fs.at q = some e) :
    fs.locate base = .ok q ∧ (base.getLast? ≠ some 47 → e = .dir) := by
  rw [join_empty] at h
  unfold sep at h
  split at h
  · rename_i hs
    simp only [List.append_nil] at h
    exact ⟨h, fun h' => absurd (hs.resolve_left hb) h'⟩
  · unfold Fs.locate at h ⊢
    rw [if_neg (by simp)] at h
    rw [if_neg hb]
    split at h
    · simp at h
    · rename_i h0
      rw [if_neg (by intro hx; exact h0 (by simp [hx]))]
      rw [isAbs_append hb, splitSlash_append, walk_append] at h
      obtain ⟨c, h1, h2⟩ := Res.bind_eq_ok h
      unfold Fs.walk at h2
      simp only [splitSlash, Fs.walk, true_or, if_true] at h2
      cases hc : fs.at c with
      | none => rw [hc] at h2; simp at h2
      | some x =>
        rw [hc] at h2
        cases x with
        | dir =>
          simp only [Res.ok.injEq] at h2
          subst h2
          refine ⟨h1, fun _ => ?_⟩
          rw [hc] at he; simpa using he.symm
        | file c md => simp at h2
        | special => simp at h2
        | broken => simp at h2

theorem walk_slash {fs : Fs} {cur : List Bytes} {l : List Bytes} {q : List Bytes} (h : fs.walk cur (l ++ [[]]) = .ok q) : fs.at q = some .dir := by
  rw [walk_append] at h
  obtain ⟨c, _, h2⟩ := Res.bind_eq_ok h
  unfold Fs.walk at h2
  simp only [Fs.walk, true_or, if_true] at h2
  cases hc : fs.at c with
  | none => rw [hc] at h2; simp at h2
  | some x =>
    rw [hc] at h2
    cases x with
    | dir => simp only [Res.ok.injEq] at h2; rw [← h2]; exact hc
    | file c md => simp at h2
    | special => simp at h2
    | broken => simp at h2

theorem splitSlash_trailing {p : Bytes} (h : p.getLast? = some 47) : ∃ l, splitSlash p = l ++ [[]] := by
  obtain ⟨p', rfl⟩ := List.getLast?_eq_some_iff.mp h
  exact ⟨splitSlash p', splitSlash_append p' []⟩

/-- What a successful walk over a real directory says about it. -/
theorem walkRealFrom_ok {fs : Fs} (hw : fs.Wf) {filter : Filter} {base : Path} (hb : base ≠ []) {fuel : Nat} {pre : List Bytes} (hp : ∀ m ∈ pre, okComp m) {m : PMap Bool}
    (h : walkRealFrom fs filter base fuel (relPath pre) = .ok m) :
    (∃ ns, Listed fs filter fuel (joins base pre) ns) ∧ (pre = [] → fs.metadata base = .ok .dir) := by
  induction fuel generalizing pre m with
  | zero => simp [walkRealFrom] at h
  | succ n ih =>
    unfold walkRealFrom at h
    obtain ⟨e, h1, h2⟩ := Res.bind_eq_ok h
    have h1' : fs.metadata (currOf base pre) = .ok e := h1
    obtain ⟨hl, ha, hbr⟩ := metadata_ok h1'
    have hm : fs.metadata (joins base pre) = .ok e ∧ (pre = [] → e = .dir) ∧ loc fs.cwd (currOf base pre) = loc fs.cwd (joins base pre) ∧
        ∀ m, Path.isAbs m = false → Path.join (currOf base pre) m = Path.join (joins base pre) m := by
      by_cases hpre : pre = []
      · subst hpre
        have hl' : fs.locate (Path.join base []) = .ok (loc fs.cwd (currOf base [])) := hl
        obtain ⟨b1, b2⟩ := locate_of_join_empty hb hl' ha
        have hloc := locate_loc b1
        have hdir : e = .dir := by
          by_cases ht : base.getLast? = some 47
          · obtain ⟨l, hs⟩ := splitSlash_trailing ht
            unfold Fs.locate at b1
            rw [if_neg hb] at b1
            split at b1
            · simp at b1
            · rw [hs] at b1
              have := walk_slash b1
              rw [this] at ha; simpa using ha.symm
          · exact b2 ht
        refine ⟨?_, fun _ => hdir, hloc, fun m hm' => join_join_empty hb hm'⟩
        exact metadata_of (by rw [joins_nil, b1, hloc]) (by rw [joins_nil, ← hloc]; exact ha) hbr
      · rw [currOf_ne hp hpre] at h1' ⊢
        exact ⟨h1', fun h => absurd h hpre, rfl, fun _ _ => rfl⟩
    obtain ⟨hm1, hm2, hm3, hm4⟩ := hm
    refine ⟨?_, fun h => by subst h; rw [← hm2 rfl]; exact hm1⟩
    cases e with
    | dir =>
      simp only at h2
      obtain ⟨names, h3, h4⟩ := Res.bind_eq_ok h2
      have h3' : fs.readDir (currOf base pre) = .ok names := h3
      obtain ⟨hl2, hd2, hnames⟩ := readDir_ok h3'
      obtain ⟨hlb, hab, _⟩ := metadata_ok hm1
      have hok : ∀ m ∈ names, okName m := fun m hm => by rw [hnames] at hm; exact hw.okNames hm
      obtain ⟨es, e1, e2⟩ := walkRealEntries_ok (P := fun x ns => Listed fs filter n (joins base (pre ++ [x])) ns) (by
        intro x hx r hr
        rw [← relPath_snoc] at hr
        exact (ih (by
          intro y hy
          rcases List.mem_append.mp hy with hy | hy
          · exact hp y hy
          · simp at hy; subst hy; exact (hok _ hx).comp) hr).1) h4
      refine ⟨_, Or.inr ⟨hm1, names, ?_, es, acceptAll_congr (fun x hx => hm4 x (hok x hx).comp.notAbs) e1, rfl, ?_⟩⟩
      · rw [readDir_of hlb hab, ← hm3, hnames]
      · intro e he
        have := e2 e he
        rwa [joins_append] at this
    | file c md => exact ⟨_, Or.inl ⟨c, md, hm1, rfl⟩⟩
    | special => simp at h2
    | broken => exact absurd rfl hbr

/-- A directory tree whose visible part has only files and directories, a filter that answers, and a depth bound: it can be listed. -/
theorem listed_exists {fs : Fs} (hw : fs.Wf) {filter : Filter} (n : Nat) {path : Path} (hl : fs.locate path = .ok (loc fs.cwd path))
    (hex : fs.at (loc fs.cwd path) ≠ none)
    (hdepth : ∀ rel, fs.at (loc fs.cwd path ++ rel) ≠ none → rel.length < n)
    (htypes : ∀ rel e, Visible fs filter path rel → fs.at (loc fs.cwd path ++ rel) = some e → e = .dir ∨ ∃ c md, e = .file c md)
    (hfilter : ∀ rel m, Visible fs filter path rel → fs.at (loc fs.cwd path ++ rel ++ [m]) ≠ none → ∃ b, filter fs (joins path (rel ++ [m])) = .ok b) :
    ∃ ns, Listed fs filter n path ns := by
  induction n generalizing path with
  | zero => exact absurd (hdepth [] (by simpa using hex)) (by simp)
  | succ n ih =>
    cases ha : fs.at (loc fs.cwd path) with
    | none => exact absurd ha hex
    | some e =>
      rcases htypes [] e (visible_nil _ _ _) (by simpa using ha) with rfl | ⟨c, md, rfl⟩
      · have hacc : ∀ l : List Bytes, (∀ x ∈ l, x ∈ fs.names (loc fs.cwd path)) → ∃ es : List (Bytes × List Node), acceptAll fs filter path l (es.map (·.1)) ∧
            ∀ e ∈ es, Listed fs filter n (Path.join path e.1) e.2 := by
          intro l
          induction l with
          | nil => intro _; exact ⟨[], rfl, by simp⟩
          | cons x l ihl =>
            intro hx
            obtain ⟨es, e1, e2⟩ := ihl fun y hy => hx y (by simp [hy])
            have hxn := hx x (by simp)
            have hxok := hw.okNames hxn
            have hxa := mem_names.mp hxn
            obtain ⟨b, hb⟩ := hfilter [] x (visible_nil _ _ _) (by simpa using hxa)
            simp only [List.nil_append, joins_cons, joins_nil] at hb
            cases b with
            | false => exact ⟨es, Or.inr ⟨hb, e1⟩, e2⟩
            | true =>
              have hlx : loc fs.cwd (Path.join path x) = loc fs.cwd path ++ [x] := loc_join _ _ hxok
              obtain ⟨ns, hns⟩ := ih (path := Path.join path x) (by rw [locate_join_ok hxok hl ha, hlx]) (by rw [hlx]; exact hxa) (by
                  intro rel hr
                  rw [hlx] at hr
                  have := hdepth (x :: rel) (by simpa using hr)
                  simpa using this) (by
                  intro rel e hv hr
                  rw [hlx] at hr
                  exact htypes (x :: rel) e (visible_cons.mpr ⟨hb, hv⟩) (by simpa using hr)) (by
                  intro rel m hv hr
                  rw [hlx] at hr
                  exact hfilter (x :: rel) m (visible_cons.mpr ⟨hb, hv⟩) (by simpa using hr))
              refine ⟨(x, ns) :: es, Or.inl ⟨hb, _, rfl, e1⟩, ?_⟩
              intro e he
              rcases List.mem_cons.mp he with rfl | he
              · exact hns
              · exact e2 e he
        obtain ⟨es, e1, e2⟩ := hacc _ fun x hx => hx
        exact ⟨_, Or.inr ⟨metadata_of hl ha (by simp), _, readDir_of hl ha, es, e1, rfl, e2⟩⟩
      · exact ⟨_, Or.inl ⟨c, md, metadata_of hl ha (by simp), rfl⟩⟩

theorem cborHdr_length (m n : Nat) : (cborHdr m n).length ≤ 9 := by
  have hb : ∀ w x, (beBytes w x).length = w := by
    intro w; induction w with
    | zero => intro x; rfl
    | succ w ih => intro x; simp [beBytes, ih]
  unfold cborHdr
  repeat' split
  all_goals simp [hb]

/-- Bytes taken by a list of names. -/
def nameBytes (ns : List Bytes) : Nat := (ns.map fun n => n.length + 9).sum

theorem encList_text_length (ns : List Bytes) : (Cbor.encList (ns.map .text)).length ≤ nameBytes ns := by
  induction ns with
  | nil => simp [Cbor.encList, nameBytes]
  | cons n ns ih =>
    have := cborHdr_length 3 n.length
    simp only [nameBytes, List.map_cons, Cbor.encList, Cbor.enc, List.length_append, List.sum_cons] at ih ⊢
    omega

theorem FsItem.enc_length (i : FsItem) : i.toCbor.enc.length ≤ 100 + nameBytes i.names := by
  have h1 := encList_text_length i.names
  have h2 := cborHdr_length 4 i.names.length
  have h3 := cborHdr_length 0 i.size
  have h4 : i.itemtype.name.length ≤ 4 := by cases i.itemtype <;> decide
  have h5 := cborHdr_length 3 i.itemtype.name.length
  have h6 : (Cbor.text sSize).enc.length = 5 := by decide
  have h7 : (Cbor.text sItemtype).enc.length = 9 := by decide
  have h8 : (Cbor.text sChildrenNames).enc.length = 15 := by decide
  have h9 := cborHdr_length 5 3
  simp only [FsItem.toCbor, Cbor.enc, Cbor.encList, List.length_append, List.length_nil, List.length_map, List.length_cons, Nat.reduceAdd, Nat.reduceDiv] at *
  omega

theorem nameBytes_length (ns : List Bytes) : ns.length ≤ nameBytes ns := by
  induction ns with
  | nil => simp
  | cons n ns ih => simp only [nameBytes, List.map_cons, List.sum_cons, List.length_cons] at ih ⊢; omega

theorem nameBytes_mem {ns : List Bytes} {n : Bytes} (h : n ∈ ns) : n.length ≤ nameBytes ns := by
  induction ns with
  | nil => simp at h
  | cons m ns ih =>
    simp only [nameBytes, List.map_cons, List.sum_cons] at ih ⊢
    rcases List.mem_cons.mp h with rfl | h
    · omega
    · have := ih h; omega

theorem nameBytes_sublist {a b : List Bytes} (h : a.Sublist b) : nameBytes a ≤ nameBytes b := by
  induction h with
  | slnil => simp
  | cons a h ih => simp only [nameBytes, List.map_cons, List.sum_cons] at ih ⊢; omega
  | cons_cons a h ih => simp only [nameBytes, List.map_cons, List.sum_cons] at ih ⊢; omega

theorem Tot.lift {α} {r : Res α} {p : α → Prop} (h : ∃ a, r = .ok a ∧ p a) : Tot (SM.lift r : M α) p := by
  obtain ⟨a, h1, h2⟩ := h
  intro db hf
  exact ⟨a, db, by rw [SM.lift_apply, h1], hf, h2⟩

theorem tot_putItem (H : Bytes → Key) (i : FsItem) (hs : i.size < 2 ^ 64) (hb : nameBytes i.names + 100 < 2 ^ 64) (hu : ∀ n ∈ i.names, utf8 n = true)
    (hk : i.children.length < 2 ^ 64) : Tot (SM.lift i.toObject >>= putObj H) (fun _ => True) := by
  have hst : i.Storable := ⟨hs, by have := nameBytes_length i.names; omega, fun n hn => ⟨by have := nameBytes_mem hn; omega, hu n hn⟩⟩
  refine Tot.bind (Tot.lift (p := fun o => o = ⟨i.toCbor.enc, i.children, i.itemtype.objType⟩) ⟨_, FsItem.toObject_of hst, rfl⟩) ?_
  rintro o rfl
  refine tot_putObj H _ ?_ hk
  have := i.enc_length
  simp only
  omega

theorem tot_putDirItem (H : Bytes → Key) (r : List (Bytes × Key)) (hs : r.length < 2 ^ 64) (hb : nameBytes (r.map (·.1)) + 100 < 2 ^ 64)
    (hu : ∀ n ∈ r.map (·.1), utf8 n = true) : Tot (SM.lift (FsItem.toObject ⟨r.length, .dir, r.map (·.1), r.map (·.2)⟩) >>= putObj H) (fun _ => True) := by
  generalize hi : FsItem.mk r.length .dir (r.map (·.1)) (r.map (·.2)) = i
  have h1 : i.size = r.length := by rw [← hi]
  have h2 : i.names = r.map (·.1) := by rw [← hi]
  have h3 : i.children.length = r.length := by rw [← hi]; simp
  exact tot_putItem H i (by rw [h1]; exact hs) (by rw [h2]; exact hb) (by rw [h2]; exact hu) (by rw [h3]; exact hs)

/-- The operating system delivers every file, names are UTF-8, sizes are such as occur. -/
structure Storables (E : Env) (fs : Fs) (path : Path) (ns : List Node) : Prop where
  reads : ∀ x ∈ ns, ∀ c, x.content = some c → Spec.readFails (E.rd (joins path x.rel) c) = false ∧
    (Spec.delivered (E.rd (joins path x.rel) c)).length < 2 ^ 64 ∧ c.length < 2 ^ 64
  names : ∀ x ∈ ns, ∀ n ∈ x.rel, utf8 n = true
  sizes : ∀ x ∈ ns, x.content = none → nameBytes (fs.names (loc fs.cwd path ++ x.rel)) + 100 < 2 ^ 64

theorem putFsItem_tot {E : Env} {fs : Fs} (hw : fs.Wf) {filter : Filter} {n : Nat} {path : Path} {ns : List Node} (hl : Listed fs filter n path ns)
    (hs : Storables E fs path ns) : Tot (putFsItem E fs filter n path) (fun _ => True) := by
  induction n generalizing path ns with
  | zero => exact hl.elim
  | succ n ih =>
    unfold putFsItem
    rcases hl with ⟨c, md, h1, rfl⟩ | ⟨h1, all, h2, es, h3, rfl, h4⟩
    · refine Tot.bind (Tot.lift (p := fun e => e = .file c md) ⟨_, h1, rfl⟩) ?_
      rintro e rfl
      obtain ⟨r1, r2, r3⟩ := hs.reads ⟨[], some c⟩ (by simp) c rfl
      simp only [joins_nil] at r1 r2
      unfold putFile
      refine Tot.bind (tot_putData E.table E.H _ r2 r1) fun k _ => ?_
      exact tot_putItem E.H ⟨c.length, .file, [], [k]⟩ r3 (by simp [nameBytes]) (by simp) (by simp)
    · refine Tot.bind (Tot.lift (p := fun e => e = .dir) ⟨_, h1, rfl⟩) ?_
      rintro e rfl
      refine Tot.bind (Tot.lift (p := fun l => l = all) ⟨_, h2, rfl⟩) ?_
      rintro l rfl
      obtain ⟨hlo, hd, hall⟩ := readDir_ok h2
      have hloop : Tot (putEntries fs filter (putFsItem E fs filter n) path l) (fun r => r.map (·.1) = es.map (·.1)) := by
        have hrec : ∀ e ∈ es, Tot (putFsItem E fs filter n (Path.join path e.1)) (fun _ => True) := by
          intro e he
          have hen : e.1 ∈ l := (acceptAll_sublist h3).subset (List.mem_map_of_mem he)
          have heok : okName e.1 := by rw [hall] at hen; exact hw.okNames hen
          refine ih (h4 e he) ⟨?_, ?_, ?_⟩
          · intro x hx c hc
            exact hs.reads (x.under e.1) (List.mem_cons_of_mem _ (List.mem_flatMap.mpr ⟨e, he, List.mem_map_of_mem hx⟩)) c hc
          · intro x hx m hm
            exact hs.names (x.under e.1) (List.mem_cons_of_mem _ (List.mem_flatMap.mpr ⟨e, he, List.mem_map_of_mem hx⟩)) m (by simp [hm])
          · intro x hx hc
            have := hs.sizes (x.under e.1) (List.mem_cons_of_mem _ (List.mem_flatMap.mpr ⟨e, he, List.mem_map_of_mem hx⟩)) hc
            rw [loc_join _ _ heok]
            simpa using this
        clear ih h2 hall h4 hs h1
        induction l generalizing es with
        | nil =>
          rw [show es = [] by simpa [acceptAll] using h3]
          exact Tot.pure rfl
        | cons x l ihl =>
          unfold putEntries
          rcases h3 with ⟨hx, acc', hacc, h3⟩ | ⟨hx, h3⟩
          · refine Tot.bind (Tot.lift (p := fun b => b = true) ⟨_, hx, rfl⟩) ?_
            rintro b rfl
            simp only [if_true]
            cases es with
            | nil => simp at hacc
            | cons e es =>
              simp only [List.map_cons, List.cons.injEq] at hacc
              obtain ⟨rfl, rfl⟩ := hacc
              refine Tot.bind (hrec e (by simp)) fun k _ => ?_
              refine Tot.bind (ihl (es := es) h3 fun y hy => hrec y (by simp [hy])) fun r hr => ?_
              exact Tot.pure (by simp [hr])
          · refine Tot.bind (Tot.lift (p := fun b => b = false) ⟨_, hx, rfl⟩) ?_
            rintro b rfl
            simp only [Bool.false_eq_true, if_false]
            exact ihl (es := es) h3 hrec
      refine Tot.bind hloop fun r hr => ?_
      have hsz := hs.sizes ⟨[], none⟩ (by simp) rfl
      simp only [List.append_nil] at hsz
      rw [← hall] at hsz
      have hnb : nameBytes (r.map (·.1)) ≤ nameBytes l := by rw [hr]; exact nameBytes_sublist (acceptAll_sublist h3)
      have hlen : r.length ≤ nameBytes l := by
        have := nameBytes_length (r.map (·.1)); simp at this; omega
      have q1 : r.length < 2 ^ 64 := Nat.lt_of_le_of_lt hlen (Nat.lt_of_le_of_lt (Nat.le_add_right _ 100) hsz)
      have q2 : nameBytes (r.map (·.1)) + 100 < 2 ^ 64 := Nat.lt_of_le_of_lt (Nat.add_le_add_right hnb 100) hsz
      have q4 : ∀ m ∈ r.map (·.1), utf8 m = true := ?_
      · exact tot_putDirItem E.H r q1 q2 q4
      intro m hm
      rw [hr] at hm
      obtain ⟨e, he, rfl⟩ := List.mem_map.mp hm
      have hroot : ∃ x ∈ e.2, x.rel = [] := by
        have := h4 e he
        cases n with
        | zero => exact this.elim
        | succ n =>
          rcases this with ⟨c, md, _, h⟩ | ⟨_, _, _, _, _, h, _⟩ <;> rw [h] <;> simp
      obtain ⟨x, hx, hxr⟩ := hroot
      exact hs.names (x.under e.1) (List.mem_cons_of_mem _ (List.mem_flatMap.mpr ⟨e, he, List.mem_map_of_mem hx⟩)) e.1 (by simp)

end Snap
