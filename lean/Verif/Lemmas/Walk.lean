import Verif.Lemmas.Listed
/-! The two walks as lists of nodes. -/
namespace Snap
set_option linter.unusedSectionVars false
variable [Serde] [LawfulSerde]

theorem PMap.insert_fresh {α} {m : PMap α} {p : Path} (hn : p.norm = p) (a : α) (h : p ∉ m.map (·.1)) : PMap.insert m p a = m ++ [(p, a)] := by
  unfold PMap.insert
  rw [hn, if_neg]
  intro hc
  obtain ⟨e, he, h'⟩ := List.any_eq_true.mp hc
  simp at h'
  exact h (h' ▸ List.mem_map_of_mem he)

theorem PMap.extend_append {α} {m m' : PMap α} (hn : ∀ e ∈ m', Path.norm e.1 = e.1) (hd : ((m ++ m').map (·.1)).Nodup) : PMap.extend m m' = m ++ m' := by
  unfold PMap.extend
  induction m' generalizing m with
  | nil => simp
  | cons e m' ih =>
    simp only [List.foldl_cons]
    rw [PMap.insert_fresh (hn e (by simp)) e.2]
    · rw [ih (fun x hx => hn x (by simp [hx]))]
      · simp
      · simpa using hd
    · simp only [List.map_append, List.map_cons] at hd
      rw [List.nodup_append] at hd
      intro h
      exact hd.2.2 e.1 h e.1 (by simp) rfl

/-- Entries of a map made from nodes below `pre`. -/
def entries {ι α} (rel : ι → List Bytes) (val : ι → α) (pre : List Bytes) (l : List ι) : PMap α :=
  l.map fun x => (relPath (pre ++ rel x), val x)

theorem entries_keys {ι α} {rel : ι → List Bytes} {val : ι → α} {pre : List Bytes} {l : List ι} (hp : ∀ n ∈ pre, okComp n)
    (ho : ∀ x ∈ l, ∀ n ∈ rel x, okComp n) (hd : (l.map rel).Nodup) : ((entries rel val pre l).map (·.1)).Nodup := by
  unfold entries
  rw [List.map_map]
  unfold List.Nodup at hd ⊢
  rw [List.pairwise_map] at hd ⊢
  refine hd.imp_of_mem ?_
  intro a b ha hb hab h
  have hok : ∀ x ∈ l, ∀ n ∈ pre ++ rel x, okComp n := by
    intro x hx n hn
    rcases List.mem_append.mp hn with hn | hn
    · exact hp n hn
    · exact ho x hx n hn
  have := relPath_inj (hok a ha) (hok b hb) h
  exact hab (List.append_cancel_left this)

theorem entries_norm {ι α} {rel : ι → List Bytes} {val : ι → α} {pre : List Bytes} {l : List ι} (hp : ∀ n ∈ pre, okComp n)
    (ho : ∀ x ∈ l, ∀ n ∈ rel x, okComp n) : ∀ e ∈ entries rel val pre l, Path.norm e.1 = e.1 := by
  intro e he
  obtain ⟨x, hx, rfl⟩ := List.mem_map.mp he
  exact norm_relPath (by
    intro n hn
    rcases List.mem_append.mp hn with hn | hn
    · exact hp n hn
    · exact ho x hx n hn)

theorem extend_entries {ι α} {rel : ι → List Bytes} {val : ι → α} {pre : List Bytes} {a b : List ι} (hp : ∀ n ∈ pre, okComp n)
    (ho : ∀ x ∈ a ++ b, ∀ n ∈ rel x, okComp n) (hd : ((a ++ b).map rel).Nodup) :
    PMap.extend (entries rel val pre a) (entries rel val pre b) = entries rel val pre (a ++ b) := by
  have hb : ∀ x ∈ b, ∀ n ∈ rel x, okComp n := fun x hx => ho x (by simp [hx])
  rw [PMap.extend_append (entries_norm hp hb)]
  · simp [entries]
  · have := entries_keys (val := val) hp ho hd
    simpa [entries] using this

theorem extendAll_entries {ι α β} {rel : ι → List Bytes} {val : ι → α} {pre : List Bytes} {f : β → Res (PMap α)} {g : β → List ι} (hp : ∀ n ∈ pre, okComp n)
    {l : List β} (hf : ∀ b ∈ l, f b = .ok (entries rel val pre (g b))) {a : List ι}
    (ho : ∀ x ∈ a ++ l.flatMap g, ∀ n ∈ rel x, okComp n) (hd : ((a ++ l.flatMap g).map rel).Nodup) :
    extendAll f (entries rel val pre a) l = .ok (entries rel val pre (a ++ l.flatMap g)) := by
  induction l generalizing a with
  | nil => simp [extendAll]
  | cons b l ih =>
    unfold extendAll
    rw [hf b (by simp), Res.ok_bind]
    have e : a ++ List.flatMap g (b :: l) = (a ++ g b) ++ l.flatMap g := by simp
    rw [e] at ho hd ⊢
    rw [extend_entries hp (fun x hx => ho x (by simp only [List.mem_append] at hx ⊢; exact Or.inl hx)) (hd.sublist (by simp))]
    exact ih (fun b hb => hf b (by simp [hb])) ho hd

def KNode.val (x : KNode) : Key × Bool := (x.key, x.node.content.isNone)

theorem entries_under {α} (val : KNode → α) (hv : ∀ n x, val (KNode.under n x) = val x) (pre : List Bytes) (n : Bytes) (l : List KNode) :
    entries (fun x => x.node.rel) val pre (l.map (KNode.under n)) = entries (fun x => x.node.rel) val (pre ++ [n]) l := by
  simp [entries, Function.comp_def, hv]

theorem zip_map {α β γ} (f : α → β) (g : α → γ) (l : List α) : (l.map f).zip (l.map g) = l.map fun x => (f x, g x) := by
  induction l with
  | nil => rfl
  | cons a l ih => simp [ih]

/-- Nodes listed by the walks: all but a root directory. -/
def dropRoot (pre : List Bytes) (ns : List KNode) : List KNode :=
  if pre = [] then ns.filter (fun x => !(x.node.rel = [] ∧ x.node.content = none)) else ns

theorem filter_under (n : Bytes) (l : List KNode) :
    (l.map (KNode.under n)).filter (fun x => !(x.node.rel = [] ∧ x.node.content = none)) = l.map (KNode.under n) := by
  rw [List.filter_eq_self]
  intro x hx
  obtain ⟨y, _, rfl⟩ := List.mem_map.mp hx
  simp

theorem filter_flatMap_under (es : List (Bytes × Key × List KNode)) :
    (es.flatMap (fun e => e.2.2.map (KNode.under e.1))).filter (fun x => !(x.node.rel = [] ∧ x.node.content = none)) =
      es.flatMap (fun e => e.2.2.map (KNode.under e.1)) := by
  rw [List.filter_eq_self]
  intro x hx
  obtain ⟨e, _, hx⟩ := List.mem_flatMap.mp hx
  obtain ⟨y, _, rfl⟩ := List.mem_map.mp hx
  simp

theorem walkItemsFrom_stored {db : Db} {n : Nat} {k : Key} {ns : List KNode} (hs : Stored db n k ns) {pre : List Bytes} (hp : ∀ m ∈ pre, okComp m)
    (ho : ∀ x ∈ ns, ∀ m ∈ x.node.rel, okName m) (hd : (ns.map (fun x => x.node.rel)).Nodup) {fuel : Nat} (hf : n ≤ fuel) :
    walkItemsFrom db fuel k (relPath pre) = .ok (entries (fun x => x.node.rel) KNode.val pre (dropRoot pre ns)) := by
  induction n generalizing k ns pre fuel with
  | zero => exact absurd hs (by simp [Stored])
  | succ n ih =>
    obtain ⟨fuel, rfl⟩ : ∃ f, fuel = f + 1 := ⟨fuel - 1, by omega⟩
    unfold walkItemsFrom
    have hins : ∀ {α} (v : α), PMap.insert [] (relPath pre) v = [(relPath pre, v)] := by
      intro α v
      rw [PMap.insert_fresh (norm_relPath hp) v (by simp)]; rfl
    rcases hs with ⟨sz, nm, ck, c, m, h1, h2, h3, rfl⟩ | ⟨sz, es, h1, rfl, h3⟩
    · rw [h1, Res.ok_bind]
      simp only [Res.pure_eq, Res.ok.injEq, hins]
      unfold dropRoot
      split <;> simp [entries, KNode.val]
    · rw [h1, Res.ok_bind]
      simp only
      rw [zip_map]
      have hok : ∀ x ∈ es.flatMap (fun e => e.2.2.map (KNode.under e.1)), ∀ m ∈ x.node.rel, okComp m := by
        intro x hx m hm
        exact (ho x (by simp only [List.mem_cons]; exact Or.inr hx) m hm).comp
      have hsub : ∀ e ∈ es, (∀ x ∈ e.2.2, ∀ m ∈ x.node.rel, okName m) ∧ (e.2.2.map (fun x => x.node.rel)).Nodup ∧ (e.2.2 ≠ [] → okName e.1) := by
        intro e he
        refine ⟨?_, ?_, ?_⟩
        · intro x hx m hm
          refine ho (x.under e.1) ?_ m (by simp [hm])
          exact List.mem_cons_of_mem _ (List.mem_flatMap.mpr ⟨e, he, List.mem_map_of_mem hx⟩)
        · rw [List.map_cons, List.nodup_cons] at hd
          have h' := hd.2
          rw [List.map_flatMap] at h'
          obtain ⟨s, t, rfl⟩ := List.append_of_mem he
          rw [List.flatMap_append, List.flatMap_cons] at h'
          have h'' := (List.nodup_append.mp (List.nodup_append.mp h').2.1).1
          rw [List.map_map] at h''
          unfold List.Nodup at h'' ⊢
          rw [List.pairwise_map] at h'' ⊢
          exact h''.imp (fun {a b} hab h => hab (by simp only [Function.comp_apply, KNode.under_node, Node.under_rel, h]))
        · intro hne
          obtain ⟨x, hx⟩ := List.exists_mem_of_ne_nil _ hne
          refine ho (x.under e.1) ?_ e.1 (by simp)
          exact List.mem_cons_of_mem _ (List.mem_flatMap.mpr ⟨e, he, List.mem_map_of_mem hx⟩)
      have hne : ∀ e ∈ es, e.2.2 ≠ [] := by
        intro e he h0
        have := h3 e he
        rw [h0] at this
        cases n with
        | zero => exact this
        | succ n => rcases this with ⟨_, _, _, _, _, _, _, _, h⟩ | ⟨_, _, _, h, _⟩ <;> simp at h
      have hrec : ∀ b ∈ es.map (fun x => (x.2.1, x.1)), ∃ e ∈ es, b = (e.2.1, e.1) := by
        intro b hb; obtain ⟨e, he, rfl⟩ := List.mem_map.mp hb; exact ⟨e, he, rfl⟩
      have hstart : (if relPath pre = [] then ([] : PMap (Key × Bool)) else PMap.insert [] (relPath pre) (k, true)) =
          entries (fun x => x.node.rel) KNode.val pre (dropRoot pre [⟨⟨[], none⟩, k⟩]) := by
        simp only [relPath_eq_nil hp, dropRoot]
        split <;> simp_all [entries, KNode.val]
      rw [hstart]
      have hext : ∀ (l : List (Bytes × Key × List KNode)), extendAll (fun (c : Key × Path) => walkItemsFrom db fuel c.1 (Path.join (relPath pre) c.2))
            (entries (fun x => x.node.rel) KNode.val pre (dropRoot pre [⟨⟨[], none⟩, k⟩])) (l.map (fun x => (x.2.1, x.1))) =
          extendAll (fun (e : Bytes × Key × List KNode) => walkItemsFrom db fuel e.2.1 (Path.join (relPath pre) e.1))
            (entries (fun x => x.node.rel) KNode.val pre (dropRoot pre [⟨⟨[], none⟩, k⟩])) l := by
        intro l
        generalize entries (fun x => x.node.rel) KNode.val pre (dropRoot pre [⟨⟨[], none⟩, k⟩]) = m
        induction l generalizing m with
        | nil => rfl
        | cons a l ih' => simp only [List.map_cons, extendAll]; congr 1; funext r; exact ih' _
      rw [hext]
      rw [extendAll_entries (g := fun e => e.2.2.map (KNode.under e.1)) hp]
      · congr 2
        unfold dropRoot
        split
        · conv => rhs; rw [List.filter_cons, filter_flatMap_under]
          simp
        · rfl
      · intro e he
        have hn := (hsub e he).2.2 (hne e he)
        rw [← relPath_snoc, ih (h3 e he) (pre := pre ++ [e.1]) _ (hsub e he).1 (hsub e he).2.1 (by omega)]
        · rw [entries_under _ (fun _ _ => rfl)]
          simp [dropRoot]
        · intro m hm
          rcases List.mem_append.mp hm with hm | hm
          · exact hp m hm
          · simp at hm; subst hm; exact hn.comp
      · intro x hx m hm
        rcases List.mem_append.mp hx with hx | hx
        · unfold dropRoot at hx
          split at hx <;> simp at hx
          subst hx; simp at hm
        · exact hok x hx m hm
      · refine hd.sublist ?_
        rw [List.map_append, List.map_cons]
        refine List.Sublist.trans (List.Sublist.append_right ?_ _) (List.Sublist.refl ([[]] ++ _))
        unfold dropRoot
        split <;> simp


/-- Nodes listed by the walk over a real directory. -/
def dropRootN (pre : List Bytes) (ns : List Node) : List Node :=
  if pre = [] then ns.filter (fun x => !(x.rel = [] ∧ x.content = none)) else ns

theorem entries_underN {α} (val : Node → α) (hv : ∀ n x, val (Node.under n x) = val x) (pre : List Bytes) (n : Bytes) (l : List Node) :
    entries Node.rel val pre (l.map (Node.under n)) = entries Node.rel val (pre ++ [n]) l := by
  simp [entries, Function.comp_def, hv]

theorem filter_flatMap_underN (es : List (Bytes × List Node)) :
    (es.flatMap (fun e => e.2.map (Node.under e.1))).filter (fun x => !(x.rel = [] ∧ x.content = none)) =
      es.flatMap (fun e => e.2.map (Node.under e.1)) := by
  rw [List.filter_eq_self]
  intro x hx
  obtain ⟨e, _, hx⟩ := List.mem_flatMap.mp hx
  obtain ⟨y, _, rfl⟩ := List.mem_map.mp hx
  simp

theorem walkRealEntries_accept {fs : Fs} {filter : Filter} {rec : Path → Res (PMap Bool)} {curr path : Path} {es : List (Bytes × List Node)} {all : List Bytes}
    {m : PMap Bool} (h : acceptAll fs filter curr all (es.map (·.1))) :
    walkRealEntries fs filter rec curr path m all = extendAll (fun (e : Bytes × List Node) => rec (Path.join path e.1)) m es := by
  induction all generalizing es m with
  | nil =>
    have : es = [] := by simpa [acceptAll] using h
    subst this; rfl
  | cons x all ih =>
    unfold walkRealEntries
    rcases h with ⟨h1, acc', h2, h3⟩ | ⟨h1, h2⟩
    · rw [h1, Res.ok_bind]
      cases es with
      | nil => simp at h2
      | cons e es =>
        simp at h2
        obtain ⟨rfl, rfl⟩ := h2
        simp only [if_true, extendAll]
        congr 1
        funext r
        exact ih h3
    · rw [h1, Res.ok_bind]
      simp only [Bool.false_eq_true, if_false]
      exact ih h2

/-- The string the walk builds for the directory itself: `base.join("")` for the start. -/
def currOf (base : Path) (pre : List Bytes) : Path := Path.join base (relPath pre)

theorem currOf_ne {base : Path} {pre : List Bytes} (hp : ∀ m ∈ pre, okComp m) (h0 : pre ≠ []) : currOf base pre = joins base pre := join_relPath hp h0

theorem join_empty (base : Path) : Path.join base [] = base ++ sep base := by rw [join_sep rfl]; simp

theorem join_join_empty {base n : Path} (hb : base ≠ []) (hn : Path.isAbs n = false) : Path.join (Path.join base []) n = Path.join base n := by
  rw [join_empty, join_sep hn, join_sep hn]
  have : sep (base ++ sep base) = [] := by
    unfold sep
    split
    · rename_i h
      rcases h with h | h
      · exact absurd h hb
      · simp [h]
    · simp
  rw [this]; simp

theorem locate_join_empty {fs : Fs} {base : Path} (h : fs.locate base = .ok (loc fs.cwd base)) (hd : fs.at (loc fs.cwd base) = some .dir) :
    fs.locate (Path.join base []) = .ok (loc fs.cwd base) ∧ loc fs.cwd (Path.join base []) = loc fs.cwd base := by
  have hb := locate_ne_nil h
  have hl : fs.locate (Path.join base []) = .ok (loc fs.cwd base) := by
    rw [join_empty]
    unfold sep
    split
    · simpa using h
    · unfold Fs.locate at h ⊢
      rw [if_neg (by simp), isAbs_append hb, splitSlash_append]
      rw [if_neg hb] at h
      split at h
      · simp at h
      · rename_i h0
        rw [if_neg (by simp [h0]), walk_append, h, Res.ok_bind]
        unfold Fs.walk
        simp [splitSlash, Fs.walk, hd]
  exact ⟨hl, (locate_loc hl).symm⟩

theorem walkRealFrom_listed {fs : Fs} (hw : fs.Wf) {filter : Filter} {base : Path} {n : Nat} {pre : List Bytes} {ns : List Node}
    (hl : Listed fs filter n (joins base pre) ns) (hp : ∀ m ∈ pre, okComp m) (h0 : pre = [] → fs.metadata base = .ok .dir) {fuel : Nat} (hf : n ≤ fuel) :
    walkRealFrom fs filter base fuel (relPath pre) = .ok (entries Node.rel (fun x => x.content.isNone) pre (dropRootN pre ns)) := by
  induction n generalizing ns pre fuel with
  | zero => exact absurd hl (by simp [Listed])
  | succ n ih =>
    have hd := hl.nodup hw
    have ho := hl.okNames hw
    obtain ⟨fuel, rfl⟩ : ∃ f, fuel = f + 1 := ⟨fuel - 1, by omega⟩
    unfold walkRealFrom
    have hins : ∀ {α} (v : α), PMap.insert [] (relPath pre) v = [(relPath pre, v)] := by
      intro α v
      rw [PMap.insert_fresh (norm_relPath hp) v (by simp)]; rfl
    -- the directory is found under the string the walk uses
    have hmeta : fs.metadata (currOf base pre) = fs.metadata (joins base pre) ∧ (fs.metadata (joins base pre) = .ok .dir → fs.readDir (currOf base pre) = fs.readDir (joins base pre)) ∧
        ∀ m, Path.isAbs m = false → Path.join (currOf base pre) m = Path.join (joins base pre) m := by
      by_cases hpre : pre = []
      · subst hpre
        have hm := h0 rfl
        obtain ⟨a1, a2, _⟩ := metadata_ok hm
        obtain ⟨b1, b2⟩ := locate_join_empty a1 a2
        have hc : currOf base [] = Path.join base [] := rfl
        rw [hc]
        refine ⟨?_, fun _ => ?_, ?_⟩
        · rw [joins_nil, hm]
          exact metadata_of (by rw [b1, b2]) (by rw [b2]; exact a2) (by simp)
        · rw [joins_nil, readDir_of a1 a2, readDir_of (by rw [b1, b2]) (by rw [b2]; exact a2), b2]
        · intro m hm'; rw [joins_nil, join_join_empty (locate_ne_nil a1) hm']
      · rw [currOf_ne hp hpre]
        exact ⟨rfl, fun _ => rfl, fun _ _ => rfl⟩
    show (fs.metadata (currOf base pre) >>= _) = _
    rw [hmeta.1]
    rcases hl with ⟨c, md, h1, rfl⟩ | ⟨h1, all, h2, es, h3, rfl, h4⟩
    · rw [h1, Res.ok_bind]
      simp only [Res.pure_eq, Res.ok.injEq, hins]
      unfold dropRootN
      split <;> simp [entries]
    · obtain ⟨hl', hdir, hall⟩ := readDir_ok h2
      have hnm : ∀ m ∈ all, okName m := by
        intro m hm; rw [hall] at hm; exact hw.okNames hm
      rw [h1, Res.ok_bind]
      show (fs.readDir (currOf base pre) >>= fun names => walkRealEntries fs filter (walkRealFrom fs filter base fuel) (currOf base pre) (relPath pre) _ names) = _
      rw [hmeta.2.1 h1, h2, Res.ok_bind]
      have h3' : acceptAll fs filter (currOf base pre) all (es.map (·.1)) := by
        have : ∀ l acc, (∀ m ∈ l, okName m) → acceptAll fs filter (joins base pre) l acc → acceptAll fs filter (currOf base pre) l acc := by
          intro l
          induction l with
          | nil => intro acc _ h; exact h
          | cons x l ihl =>
            intro acc hm h
            have hx := hmeta.2.2 x (hm x (by simp)).comp.notAbs
            unfold acceptAll at h ⊢
            rw [hx]
            rcases h with ⟨a, acc', b, c⟩ | ⟨a, b⟩
            · exact Or.inl ⟨a, acc', b, ihl _ (fun m hm' => hm m (by simp [hm'])) c⟩
            · exact Or.inr ⟨a, ihl _ (fun m hm' => hm m (by simp [hm'])) b⟩
        exact this _ _ hnm h3
      rw [walkRealEntries_accept h3']
      have hok : ∀ x ∈ es.flatMap (fun e => e.2.map (Node.under e.1)), ∀ m ∈ x.rel, okComp m := by
        intro x hx m hm
        exact (ho x (by simp only [List.mem_cons]; exact Or.inr hx) m hm).comp
      have hstart : (if relPath pre = [] then ([] : PMap Bool) else PMap.insert [] (relPath pre) true) =
          entries Node.rel (fun x => x.content.isNone) pre (dropRootN pre [⟨[], none⟩]) := by
        simp only [relPath_eq_nil hp, dropRootN]
        split <;> simp_all [entries]
      rw [hstart]
      rw [extendAll_entries (g := fun e => e.2.map (Node.under e.1)) hp]
      · congr 2
        unfold dropRootN
        split
        · conv => rhs; rw [List.filter_cons, filter_flatMap_underN]
          simp
        · rfl
      · intro e he
        have hn : okName e.1 := hnm e.1 ((acceptAll_mem h3 e.1).mp (List.mem_map_of_mem he)).1
        have hl2 := h4 e he
        have ej : Path.join (joins base pre) e.1 = joins base (pre ++ [e.1]) := by simp [joins_append]
        rw [ej] at hl2
        rw [← relPath_snoc, ih hl2 _ (by simp) (by omega)]
        · rw [entries_underN _ (fun _ _ => rfl)]
          simp [dropRootN]
        · intro m hm
          rcases List.mem_append.mp hm with hm | hm
          · exact hp m hm
          · simp at hm; subst hm; exact hn.comp
      · intro x hx m hm
        rcases List.mem_append.mp hx with hx | hx
        · unfold dropRootN at hx
          split at hx <;> simp at hx
          subst hx; simp at hm
        · exact hok x hx m hm
      · refine hd.sublist ?_
        rw [List.map_append, List.map_cons]
        refine List.Sublist.trans (List.Sublist.append_right ?_ _) (List.Sublist.refl ([[]] ++ _))
        unfold dropRootN
        split <;> simp

end Snap
